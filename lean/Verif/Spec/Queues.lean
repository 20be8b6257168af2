import Verif.Model.Queues
/-
What a queue has to do, in terms of the calls made so far and their answers.
-/
namespace Verif.QEvent
variable {α : Type}

/-- The items accepted by `Push`, in order. -/
def accepted (es : List (QEvent α)) : List (Option α) := es.flatMap fun
  | .push x true => [some x]
  | _ => []

/-- The items delivered by `Pop` and `PopBatch`, in order. -/
def delivered (es : List (QEvent α)) : List (Option α) := es.flatMap fun
  | .pop (some x) => [x]
  | .popBatch _ _ (.ok l) => l
  | _ => []

/-- `Close` has been called. -/
def hasClose (es : List (QEvent α)) : Prop := .close ∈ es

/-- `SetLastItemPushed` has been called. -/
def hasLast (es : List (QEvent α)) : Prop := .setLast ∈ es

/-- The items accepted and not yet delivered. -/
def pending (es : List (QEvent α)) : List (Option α) := (accepted es).drop (delivered es).length

end Verif.QEvent
