import Verif.Basic
/-
The structures that are given to `append` in reverb/trajectory_writer.py, and what the library `tree` (dm-tree) does with them.
-/
namespace Verif

/-- A nested structure of Python: a dictionary, a list or tuple, or a leaf (anything else, also `None`). Named tuples and keys that are not
strings are left out (trajectory_writer.py:237-321, argument `data`). -/
inductive PTree (α : Type) where
  | leaf (a : α)
  | dict (fields : List (String × PTree α))
  | seq (elems : List (PTree α))

/-- An element of a path: a key or a position (trajectory_writer.py:119-121). -/
inductive PyStep where
  | key (k : String)
  | pos (i : Nat)
  deriving DecidableEq, Repr

/-- The paths that `tree.flatten_with_path` gives (trajectory_writer.py:275). -/
abbrev PyPath := List PyStep

/-- One entry is put in its place among sorted ones (dm-tree, used by trajectory_writer.py:275). -/
def insertEntry {β : Type} (e : String × β) : List (String × β) → List (String × β)
  | [] => [e]
  | f :: fs => if e.1 ≤ f.1 then e :: f :: fs else f :: insertEntry e fs

/-- The entries of a dictionary in the order of their keys, as `tree` takes them (dm-tree, used by
trajectory_writer.py:275). -/
def sortEntries {β : Type} : List (String × β) → List (String × β)
  | [] => []
  | e :: es => insertEntry e (sortEntries es)

namespace PTree

mutual

/-- The structure with all dictionaries in the order of their keys (dm-tree, used by
trajectory_writer.py:273). -/
def sorted {α : Type} : PTree α → PTree α
  | .leaf a => .leaf a
  | .dict fields => .dict (sortEntries (sortedFields fields))
  | .seq elems => .seq (sortedElems elems)

/-- The values of a dictionary, sorted inside (trajectory_writer.py:273). -/
def sortedFields {α : Type} : List (String × PTree α) → List (String × PTree α)
  | [] => []
  | (k, t) :: fs => (k, t.sorted) :: sortedFields fs

/-- The elements of a list, sorted inside (trajectory_writer.py:273). -/
def sortedElems {α : Type} : List (PTree α) → List (PTree α)
  | [] => []
  | t :: ts => t.sorted :: sortedElems ts

end

/-- Paths get a first element (dm-tree, used by trajectory_writer.py:275). -/
def under {α : Type} (x : PyStep) (l : List (PyPath × α)) : List (PyPath × α) := l.map fun e => (x :: e.1, e.2)

mutual

/-- The leaves with their paths, in the order in which they are stored (dm-tree, used by
trajectory_writer.py:275). -/
def leaves {α : Type} : PTree α → List (PyPath × α)
  | .leaf a => [([], a)]
  | .dict fields => leavesFields fields
  | .seq elems => leavesElems 0 elems

/-- The leaves of a dictionary (trajectory_writer.py:275). -/
def leavesFields {α : Type} : List (String × PTree α) → List (PyPath × α)
  | [] => []
  | (k, t) :: fs => under (.key k) t.leaves ++ leavesFields fs

/-- The leaves of a list from position `i` on (trajectory_writer.py:275). -/
def leavesElems {α : Type} (i : Nat) : List (PTree α) → List (PyPath × α)
  | [] => []
  | t :: ts => under (.pos i) t.leaves ++ leavesElems (i + 1) ts

end

/-- `tree.flatten_with_path` (trajectory_writer.py:275, 458, 481, 655). -/
def flattenWithPath {α : Type} (t : PTree α) : List (PyPath × α) := t.sorted.leaves

mutual

/-- `tree.map_structure` (trajectory_writer.py:273, 284). -/
def map {α β : Type} (f : α → β) : PTree α → PTree β
  | .leaf a => .leaf (f a)
  | .dict fields => .dict (mapFields f fields)
  | .seq elems => .seq (mapElems f elems)

/-- The values of a dictionary (trajectory_writer.py:273). -/
def mapFields {α β : Type} (f : α → β) : List (String × PTree α) → List (String × PTree β)
  | [] => []
  | (k, t) :: fs => (k, t.map f) :: mapFields f fs

/-- The elements of a list (trajectory_writer.py:273). -/
def mapElems {α β : Type} (f : α → β) : List (PTree α) → List (PTree β)
  | [] => []
  | t :: ts => t.map f :: mapElems f ts

end

mutual

/-- Values are put in the place of the leaves, in the order in which these are stored; the rest of the
values is returned. `none`: too few (dm-tree, used by trajectory_writer.py:454). -/
def fill {α β : Type} : PTree α → List β → Option (PTree β × List β)
  | .leaf _, [] => none
  | .leaf _, b :: bs => some (.leaf b, bs)
  | .dict fields, bs => (fillFields fields bs).map fun r => (.dict r.1, r.2)
  | .seq elems, bs => (fillElems elems bs).map fun r => (.seq r.1, r.2)

/-- The leaves of a dictionary (trajectory_writer.py:454). -/
def fillFields {α β : Type} : List (String × PTree α) → List β → Option (List (String × PTree β) × List β)
  | [], bs => some ([], bs)
  | (k, t) :: fs, bs =>
    match t.fill bs with
    | none => none
    | some (t', bs') => (fillFields fs bs').map fun r => ((k, t') :: r.1, r.2)

/-- The leaves of a list (trajectory_writer.py:454). -/
def fillElems {α β : Type} : List (PTree α) → List β → Option (List (PTree β) × List β)
  | [], bs => some ([], bs)
  | t :: ts, bs =>
    match t.fill bs with
    | none => none
    | some (t', bs') => (fillElems ts bs').map fun r => (t' :: r.1, r.2)

end

/-- `tree.unflatten_as`: `none` is a `ValueError`, if there are too few or too many values. (The dictionaries of the result have their keys in
order, those of `tree` have them in the order of the structure, which makes no difference to `==` and to
the access by key.) (trajectory_writer.py:454). -/
def unflattenAs {α β : Type} (s : PTree α) (flat : List β) : Option (PTree β) :=
  match s.sorted.fill flat with
  | some (t, []) => some t
  | _ => none

/-- A leaf of a structure with `None` leaves (trajectory_writer.py:273). -/
def none_ : PTree Unit := .leaf ()

mutual

/-- trajectory_writer.py:668-687 `_tree_union`; `none` is an exception (`AttributeError` or `TypeError`). The union of a list with a dictionary,
which takes the keys of the dictionary for elements, is an exception here. -/
def union : PTree Unit → PTree Unit → Option (PTree Unit)
  | .leaf (), _ => some none_
  | .seq as, .seq bs => (unionElems as bs).map .seq
  | .dict as, .dict bs => (unionFields as bs).map fun merged => .dict (merged ++ bs.filter fun e => (as.lookup e.1).isNone)
  | .seq _, _ => none
  | .dict _, _ => none

/-- trajectory_writer.py:675-677: the elements of two lists by `itertools.zip_longest`, where what is missing is `None`. -/
def unionElems : List (PTree Unit) → List (PTree Unit) → Option (List (PTree Unit))
  | [], bs => some (bs.map fun _ => none_)
  | a :: as, [] =>
    match a.union none_, unionElems as [] with
    | some c, some cs => some (c :: cs)
    | _, _ => none
  | a :: as, b :: bs =>
    match a.union b, unionElems as bs with
    | some c, some cs => some (c :: cs)
    | _, _ => none

/-- trajectory_writer.py:679-685: the values of the dictionary `as` merged with those of `bs`. -/
def unionFields : List (String × PTree Unit) → List (String × PTree Unit) → Option (List (String × PTree Unit))
  | [], _ => some []
  | (k, a) :: as, bs =>
    match (match bs.lookup k with
      | some b => a.union b
      | none => some a), unionFields as bs with
    | some c, some cs => some ((k, c) :: cs)
    | _, _ => none

end

mutual

/-- The access `t[x1][x2]...` to a leaf; `none` if there is no leaf at the path
(trajectory_writer.py:147-180, `history`). -/
def at? {α : Type} : PTree α → PyPath → Option α
  | .leaf a, [] => some a
  | .dict fields, .key k :: p => atField fields k p
  | .seq elems, .pos i :: p => atElem elems i p
  | _, _ => none

/-- The access to a key of a dictionary (trajectory_writer.py:147-180). -/
def atField {α : Type} : List (String × PTree α) → String → PyPath → Option α
  | [], _, _ => none
  | (k', t) :: fs, k, p => if k' = k then t.at? p else atField fs k p

/-- The access to an element of a list (trajectory_writer.py:147-180). -/
def atElem {α : Type} : List (PTree α) → Nat → PyPath → Option α
  | [], _, _ => none
  | t :: _, 0, p => t.at? p
  | _ :: ts, i + 1, p => atElem ts i p

end

mutual

/-- The keys of every dictionary are different from each other, as always in Python
(trajectory_writer.py:237-321, argument `data`). -/
def WF {α : Type} : PTree α → Prop
  | .leaf _ => True
  | .dict fields => (fields.map Prod.fst).Nodup ∧ WFFields fields
  | .seq elems => WFElems elems

/-- The same for all values of a dictionary (trajectory_writer.py:237-321). -/
def WFFields {α : Type} : List (String × PTree α) → Prop
  | [] => True
  | (_, t) :: fs => t.WF ∧ WFFields fs

/-- The same for all elements of a list (trajectory_writer.py:237-321). -/
def WFElems {α : Type} : List (PTree α) → Prop
  | [] => True
  | t :: ts => t.WF ∧ WFElems ts

end

end PTree
end Verif
