import Verif.Basic
/-
Model of reverb/cc/selectors/fifo.cc and lifo.cc.
-/
namespace Verif

/-- `FifoSelector`/`LifoSelector` state: `keys_` is a `std::list<Key>` whose nodes have an identity
(their address), `key_to_iterator_` maps a key to the address of its node.
(fifo.h: members `keys_`, `key_to_iterator_`; addresses are numbered by `next`.) (fifo.h:49-52,
lifo.h:50-53). -/
structure ListSel where
  nodes : List (Nat × Key)
  iters : AMap Key Nat
  next : Nat

namespace ListSel

/-- A newly constructed selector (the member initialisers of fifo.h:50-51 and lifo.h:51-52). -/
def init : ListSel := ⟨[], AMap.empty, 0⟩

/-- fifo.cc:26-33 and lifo.cc:25-32 `Delete`. -/
def delete (s : ListSel) (k : Key) : ListSel × Res Unit :=
  match s.iters.get? k with
  | none => (s, .err .invalidArgument)
  | some id => ({ s with nodes := s.nodes.filter (fun n => n.1 ≠ id), iters := s.iters.erase k }, .ok ())

/-- fifo.cc:35-42 `FifoSelector::Insert` (`emplace(keys_.end(), key)`). -/
def insertBack (s : ListSel) (k : Key) (_p : Pri) : ListSel × Res Unit :=
  match s.iters.get? k with
  | some _ => (s, .err .invalidArgument)
  | none => ({ nodes := s.nodes ++ [(s.next, k)], iters := s.iters.insert k s.next,
               next := s.next + 1 }, .ok ())

/-- lifo.cc:34-41 `LifoSelector::Insert` (`emplace(keys_.begin(), key)`). -/
def insertFront (s : ListSel) (k : Key) (_p : Pri) : ListSel × Res Unit :=
  match s.iters.get? k with
  | some _ => (s, .err .invalidArgument)
  | none => ({ nodes := (s.next, k) :: s.nodes, iters := s.iters.insert k s.next,
               next := s.next + 1 }, .ok ())

/-- fifo.cc:44-49 and lifo.cc:43-48 `Update`. -/
def update (s : ListSel) (k : Key) (_p : Pri) : ListSel × Res Unit :=
  match s.iters.get? k with
  | none => (s, .err .invalidArgument)
  | some _ => (s, .ok ())

/-- fifo.cc:51-54 and lifo.cc:50-53 `Sample`: front of the list with probability 1, fatal if
empty. -/
def sample (s : ListSel) : Res (Key × Rat) :=
  match s.nodes with
  | [] => .died
  | n :: _ => .ok (n.2, 1)

/-- fifo.cc:56-59 and lifo.cc:55-58 `Clear`. -/
def clear (s : ListSel) : ListSel := { s with nodes := [], iters := AMap.empty }

end ListSel
end Verif
