import Verif.Model.Status
/-
Words for errors and timeouts as a user sees them.
-/
namespace Verif

/-- Part of a text. -/
def Status.Mentions (text part : String) : Prop := ∃ a b, text.toList = a ++ part.toList ++ b

/-- The longest time that a call may take: without a timeout as long as it needs. -/
def documentedWait (unitMs : Int) (timeout : Option Int) : Duration := timeout.map fun t => millis (unitMs * t)

/-- The exception for an error that is not about a timeout. -/
def PyError.plain (s : Status) : PyError :=
  if s.code = 3 then .valueError else if s.code = 8 then .indexError else if s.code = 12 then .notImplementedError else .runtimeError

/-- The codes whose exception is a `RuntimeError`. -/
def Status.Runtime (s : Status) : Prop := s.code ≠ 0 ∧ s.code ≠ 3 ∧ s.code ≠ 8

end Verif
