import Verif.Spec.FailedAppend
/-
Words for C116: which columns were given in the present step.
-/
namespace Verif
namespace TrajWriter

/-- The event, after `pre`, ends the present step: an `Append` (not `AppendPartial`) that is accepted, or an `EndEpisode` that succeeds. -/
def EndsStep (w : TrajWriter) (pre : List Event) : Event → Prop
  | .append data true => w.Accepts pre data true
  | .episodeEnd clear => w.replyAt pre (.episodeEnd clear) = .ok .done
  | _ => False

/-- None of the events `evs` after `pre` ends the step. -/
def SameStep (w : TrajWriter) (pre evs : List Event) : Prop := ∀ a e b, evs = a ++ e :: b → ¬ w.EndsStep (pre ++ a) e

/-- An earlier call in the present step tried to append to the column. -/
def TriedInStep (w : TrajWriter) (pre : List Event) (i : Nat) : Prop :=
  ∃ a data inc b t, pre = a ++ .append data inc :: b ∧ data[i]? = some (some t) ∧ w.SameStep a (.append data inc :: b)

/-- An earlier call in the present step has appended to the column. -/
def GivenInStep (w : TrajWriter) (pre : List Event) (i : Nat) : Prop :=
  ∃ a data inc b t, pre = a ++ .append data inc :: b ∧ data[i]? = some (some t) ∧ w.Accepts a data inc ∧ w.SameStep a (.append data inc :: b)

/-- The column has a chunk that is not finished. -/
def Unfinished (w : TrajWriter) (i : Nat) : Prop := ∃ c, w.chunkers.get? i = some c ∧ c.buffer ≠ []

end TrajWriter
end Verif
