import Verif.Spec.TrajWriter
/-
Words for C114: which data a writer accepts, and what is in its columns.
-/
namespace Verif
namespace TrajWriter

/-- The tensor has the type and the shape of the column, if there is the column already. -/
def Typed (w : TrajWriter) (i : Nat) (t : Tensor) : Prop := ∀ c, w.chunkers.get? i = some c → t.dtype = c.dtype ∧ t.shape = c.shape

/-- The column has a chunk that is not finished, and the latest tensor in it was appended in the present step (or a later one, or another episode). -/
def Taken (w : TrajWriter) (i : Nat) : Prop :=
  ∃ c x, w.chunkers.get? i = some c ∧ c.buffer ≠ [] ∧ c.active.getLast?.map c.cellAt = some x ∧ ¬ (x.episode = w.episode ∧ x.step < w.step)

/-- Every tensor has the type and shape of its column and can be put into the present step. -/
def Acceptable (w : TrajWriter) (data : List (Option Tensor)) : Prop := ∀ i t, data[i]? = some (some t) → w.Typed i t ∧ ¬ w.Taken i

/-- The number of tensors that were ever appended to the column. -/
def count (w : TrajWriter) (i : Nat) : Nat := ((w.chunkers.get? i).map fun c => c.cells.length).getD 0

/-- The call was made after `pre` and returned references. -/
def Accepts (w : TrajWriter) (pre : List Event) (data : List (Option Tensor)) (inc : Bool) : Prop :=
  ∃ refs, w.replyAt pre (.append data inc) = .ok (.refs refs)

/-- What a caller may do who goes on appending to the column, with everything that the threads of the writer do: all but `Flush` and `EndEpisode`. -/
def Event.GoesOn (i : Nat) : Event → Prop
  | .append data _ => ∃ t, data[i]? = some (some t)
  | .flushBegin _ => False
  | .episodeBegin => False
  | .episodeEnd _ => False
  | _ => True

end TrajWriter
end Verif
