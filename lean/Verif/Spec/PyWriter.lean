import Verif.Model.PyWriter
import Verif.Spec.TrajWriter
/-
Words for C79–C83.
-/
namespace Verif
namespace PyWriter

/-- A new writer of Python around a new C++ writer. -/
structure Started (s : PyWriter) : Prop where
  cpp : s.w.Started
  new : s = .new s.w

/-- Data is a dictionary or a list, in which the keys of each dictionary differ, and there is at least one leaf; tensors are well formed. -/
def Event.Valid : Event → Prop
  | .append data _ => data.WF ∧ (∀ a, data ≠ .leaf a) ∧ (∃ p, (data.at? p).isSome) ∧ ∀ p t, data.at? p = some (some t) → t.WF
  | _ => True

/-- What was given in a step for the field at a path. -/
abbrev Step := PyPath → Option Tensor

/-- What a user who keeps a journal writes down: the steps since the history was cleared, and whether the last one is still open. -/
structure Journal where
  steps : List Step
  isOpen : Bool

namespace Journal

/-- Nothing yet. -/
def empty : Journal := ⟨[], false⟩

/-- The data of a call of `append`. -/
def given (data : PTree (Option Tensor)) : Step := fun p => (data.at? p).join

/-- Data for the open step. -/
def addTo (data : PTree (Option Tensor)) (step : Step) : Step := fun p => (given data p).or (step p)

/-- A call and how it ended. An `append` that succeeds makes a step or completes the open one; `end_episode`, unless told not to clear the
buffers, starts all over. -/
def note (j : Journal) : Event → PyRes Reply → Journal
  | .append data partialStep, .ok _ =>
    ⟨if j.isOpen then j.steps.modify (j.steps.length - 1) (addTo data) else j.steps ++ [given data], partialStep⟩
  | .episodeEnd true _, .ok .done => empty
  | _, _ => j

end Journal

/-- The journal of some events, after `j`. -/
def journalFrom (s : PyWriter) (j : Journal) : List Event → Journal
  | [] => j
  | e :: evs => journalFrom (s.handle e).1 (j.note e (s.handle e).2) evs

/-- The journal of some events. -/
def journal (s : PyWriter) (evs : List Event) : Journal := s.journalFrom .empty evs

/-- The history is never cleared while a step is open. -/
def Tidy (s : PyWriter) (evs : List Event) : Prop :=
  ∀ pre timedOut post, evs = pre ++ .episodeEnd true timedOut :: post → ((s.run pre).handle (.episodeEnd true timedOut)).2 = .ok .done →
    (s.journal pre).isOpen = false

/-- The options that were asked for a field: those of the last `configure` for the path that succeeded, at first those of the writer, given as `o`. -/
def wanted (s : PyWriter) (path : PyPath) (o : ChunkerOpts) : List Event → ChunkerOpts
  | [] => o
  | e :: evs => wanted (s.handle e).1 path
      (match e, (s.handle e).2 with
        | .configure p keep (some m), .ok _ => if p = path then .constant m keep false else o
        | .configure p keep none, .ok _ => if p = path then .auto (.new keep 1 false) else o
        | _, _ => o) evs

/-- A field of the data was already given in the open step. -/
def Twice (J : Journal) (data : PTree (Option Tensor)) : Prop :=
  J.isOpen = true ∧ ∃ st p t t', J.steps.getLast? = some st ∧ data.at? p = some (some t) ∧ st p = some t'

/-! ### Reading back -/

/-- The end of a slice in Python: from the back if negative, and not outside of the list. -/
def bound (n dflt : Nat) : Option Int → Nat
  | none => dflt
  | some i => if i < 0 then (n + i).toNat else min i.toNat n

/-- `l[start:stop]` in Python. -/
def pySlice {α : Type} (l : List α) (start stop : Option Int) : List α := (l.take (bound l.length l.length stop)).drop (bound l.length 0 start)

/-- `l[i]` in Python. -/
def pyItem {α : Type} (l : List α) (i : Int) : Option α :=
  if 0 ≤ i then l[i.toNat]? else if -i ≤ l.length then l[(l.length + i).toNat]? else none

/-- A column of a trajectory: `history[path][i]` or `history[path][start:stop]`. -/
inductive Pick where
  | item (path : PyPath) (i : Int)
  | slice (path : PyPath) (start stop : Option Int)

/-- What Python makes of it; `none` if there is no such field. -/
def Pick.of (s : PyWriter) : Pick → Option (PyRes TrajCol)
  | .item path i => (s.column path).map fun c => c.item i
  | .slice path start stop => (s.column path).map fun c => c.slice start stop none

/-- The tensor is what the journal has there: the tensor of the step, or the tensors of the steps on top of each other. -/
def Pick.Reads (j : Journal) (x : Tensor) : Pick → Prop
  | .item path i => pyItem (j.steps.map fun st => st path) i = some (some x)
  | .slice path start stop => ∃ ts d sh, pySlice (j.steps.map fun st => st path) start stop = ts.map some ∧ (∀ y ∈ ts, Tensor.Is d sh y) ∧
      x = Tensor.stack d sh ts

end PyWriter

/-! ### Structures that fit together -/

/-- What is at a path: a leaf, a dictionary, or a list of a length. -/
inductive Kind where
  | leaf
  | dict
  | seq (n : Nat)
  deriving DecidableEq, Repr

namespace PTree

mutual

/-- What a structure has at a path; `none` if nothing. -/
def kind? {α : Type} : PTree α → PyPath → Option Kind
  | .leaf _, [] => some .leaf
  | .dict _, [] => some .dict
  | .seq elems, [] => some (.seq elems.length)
  | .dict fields, .key k :: p => kindField fields k p
  | .seq elems, .pos i :: p => kindElem elems i p
  | _, _ => none

/-- In a dictionary. -/
def kindField {α : Type} : List (String × PTree α) → String → PyPath → Option Kind
  | [], _, _ => none
  | (k', t) :: fs, k, p => if k' = k then t.kind? p else kindField fs k p

/-- In a list. -/
def kindElem {α : Type} : List (PTree α) → Nat → PyPath → Option Kind
  | [], _, _ => none
  | t :: _, 0, p => t.kind? p
  | _ :: ts, i + 1, p => kindElem ts i p

end

/-- Where both have something, it is a leaf in both, a dictionary in both, or a list of the same length in both. -/
def Agree {α β : Type} (a : PTree α) (b : PTree β) : Prop := ∀ p k k', a.kind? p = some k → b.kind? p = some k' → k = k'

end PTree

/-- The data given to `append`. -/
def PyWriter.appended (evs : List PyWriter.Event) : List (PTree (Option Tensor)) := evs.filterMap fun
  | .append data _ => some data
  | _ => none

end Verif
