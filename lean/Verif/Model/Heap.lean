import Verif.Basic
/-
Model of reverb/cc/selectors/heap.{h,cc} and reverb/cc/support/intrusive_heap.h.
-/
namespace Verif

/-- `a < b` on doubles; false if either is NaN (heap.h:63-70, the comparison of `HeapNodeCompare`). -/
def Pri.lt : Pri → Pri → Bool
  | .val a, .val b => decide (a < b)
  | _, _ => false

/-- `a == b` on doubles; false if either is NaN (heap.h:63-70). -/
def Pri.eqb : Pri → Pri → Bool
  | .val a, .val b => decide (a = b)
  | _, _ => false

/-- `priority * sign_` (heap.cc:44, 53) with `sign_ = 1` for a min-heap and `-1` for a max-heap. -/
def Pri.signed (minHeap : Bool) : Pri → Pri
  | .nan => .nan
  | .val q => .val (if minHeap then q else -q)

/-- `HeapSelector::HeapNode` (heap.h:53-61) without the link, which is `HeapSel.pos`. -/
structure HNode where
  key : Key
  pri : Pri
  upd : Nat
  deriving DecidableEq, Repr

/-- `HeapNodeCompare` (heap.h:63-70). -/
def HNode.lt (a b : HNode) : Bool :=
  a.pri.lt b.pri || (a.pri.eqb b.pri && decide (a.upd < b.upd))

/-- The heap vector of `IntrusiveHeap` as an index function together with its size, and the
`IntrusiveHeapLink` of the node of each key (`none` is `kNotMember` or no such node).
Entries at or beyond `n` are never read (intrusive_heap.h:45-60, 205-213). -/
structure HArr where
  n : Nat
  at_ : Nat → HNode
  pos : Key → Option Nat

namespace HArr

/-- `heap()[i] = t; SetPositionOf(t, i)` (e.g. intrusive_heap.h:239-240). -/
def put (a : HArr) (i : Nat) (t : HNode) : HArr :=
  { a with at_ := fun j => if j = i then t else a.at_ j,
           pos := fun k => if k = t.key then some i else a.pos k }

/-- intrusive_heap.h:232-245 `FixHeapUp`, where `h` is the position of the hole that holds `t`. -/
def fixUp (a : HArr) (h : Nat) (t : HNode) : HArr :=
  if h = 0 then a.put 0 t
  else if (a.at_ ((h - 1) / 2)).lt t then a.put h t
  else fixUp (a.put h (a.at_ ((h - 1) / 2))) ((h - 1) / 2) t
termination_by h
decreasing_by omega

/-- intrusive_heap.h:250-257: the smaller child of `h`, if there is a child. -/
def minKid (a : HArr) (h : Nat) : Nat :=
  if 2 * h + 2 < a.n && (a.at_ (2 * h + 2)).lt (a.at_ (2 * h + 1)) then 2 * h + 2 else 2 * h + 1

/-- intrusive_heap.h:247-268 `FixHeapDown`. -/
def fixDown (a : HArr) (h : Nat) (t : HNode) : HArr :=
  if _hk : 2 * h + 1 < a.n then
    if t.lt (a.at_ (a.minKid h)) then a.put h t
    else fixDown (a.put h (a.at_ (a.minKid h))) (a.minKid h) t
  else a.put h t
termination_by a.n - h
decreasing_by
  simp only [put, minKid]
  split
  · rename_i hc; simp only [Bool.and_eq_true, decide_eq_true_eq] at hc; omega
  · omega

/-- intrusive_heap.h:147-151 `Push`. -/
def push (a : HArr) (t : HNode) : HArr :=
  let a1 := { a.put a.n t with n := a.n + 1 }
  a1.fixUp a.n t

/-- intrusive_heap.h:186-191 `Contains`, for the node with the given key. -/
def contains (a : HArr) (t : HNode) : Bool :=
  match a.pos t.key with
  | none => false
  | some h => decide (h < a.n) && decide ((a.at_ h).key = t.key)

/-- intrusive_heap.h:154-162 `Adjust`; `t` is the (possibly modified) node. `none` is the failed
check. The vector holds pointers, so the new content of the node is visible at its position. -/
def adjust (a : HArr) (t : HNode) : Option HArr :=
  match a.pos t.key with
  | none => none
  | some h =>
    if a.contains t then
      let a := a.put h t
      if h ≠ 0 ∧ t.lt (a.at_ ((h - 1) / 2)) then some (a.fixUp h t) else some (a.fixDown h t)
    else none

/-- intrusive_heap.h:165-180 `Remove`. -/
def remove (a : HArr) (t : HNode) : Option HArr :=
  match a.pos t.key with
  | none => none
  | some h =>
    if a.contains t then
      let a1 : HArr := { a with pos := fun k => if k = t.key then none else a.pos k }
      if h = a.n - 1 then some { a1 with n := a.n - 1 }
      else
        let elem := a.at_ (a.n - 1)
        let a2 : HArr := { a1.put h elem with n := a.n - 1 }
        a2.adjust elem
    else none

end HArr

/-- `HeapSelector` state (heap.h:72-85). `nodes_` is the set of keys whose `pos` is defined together
with the node content stored in the vector. -/
structure HeapSel where
  minHeap : Bool
  heap : HArr
  nodes : AMap Key HNode
  updates : Nat

namespace HeapSel

/-- heap.cc:25-26. -/
def init (minHeap : Bool) : HeapSel :=
  ⟨minHeap, ⟨0, fun _ => ⟨0, .nan, 0⟩, fun _ => none⟩, AMap.empty, 0⟩

/-- heap.cc:28-36 `Delete`. -/
def delete (s : HeapSel) (k : Key) : HeapSel × Res Unit :=
  match s.nodes.get? k with
  | none => (s, .err .invalidArgument)
  | some t =>
    match s.heap.remove t with
    | none => (s, .died)
    | some h => ({ s with heap := h, nodes := s.nodes.erase k }, .ok ())

/-- heap.cc:38-47 `Insert`. -/
def insert (s : HeapSel) (k : Key) (p : Pri) : HeapSel × Res Unit :=
  match s.nodes.get? k with
  | some _ => (s, .err .invalidArgument)
  | none =>
    let t : HNode := ⟨k, p.signed s.minHeap, s.updates⟩
    ({ s with heap := s.heap.push t, nodes := s.nodes.insert k t, updates := s.updates + 1 }, .ok ())

/-- heap.cc:49-57 `Update`. -/
def update (s : HeapSel) (k : Key) (p : Pri) : HeapSel × Res Unit :=
  match s.nodes.get? k with
  | none => (s, .err .invalidArgument)
  | some _ =>
    let t : HNode := ⟨k, p.signed s.minHeap, s.updates⟩
    match s.heap.adjust t with
    | none => (s, .died)
    | some h => ({ s with heap := h, nodes := s.nodes.insert k t, updates := s.updates + 1 }, .ok ())

/-- heap.cc:59-62 `Sample`. -/
def sample (s : HeapSel) : Res (Key × Rat) :=
  if s.nodes.size = 0 then .died
  else if s.heap.n = 0 then .died
  else .ok ((s.heap.at_ 0).key, 1)

/-- heap.cc:64-67 `Clear`. The nodes are destroyed, so their links are gone; `update_count_` is
kept. -/
def clear (s : HeapSel) : HeapSel :=
  { s with heap := ⟨0, s.heap.at_, fun _ => none⟩, nodes := AMap.empty }

end HeapSel
end Verif
