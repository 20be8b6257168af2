import Verif.Model.SampleReq
/-
Model of the conversions of timeouts in the client: sampler.h:39-51. Durations are whole nanoseconds (`absl::Duration` has four times
that resolution), `none` is infinite. `ToInt64Milliseconds` is limited to 64 bits, which is not modelled.
-/
namespace Verif

/-- sampler.h:39-45 `NonnegativeDurationToInt64Millis`; `ToInt64Milliseconds` rounds towards zero. -/
def toMillis : Duration → Int
  | none => -1
  | some ns => ns.tdiv 1000000

/-- sampler.h:47-51 `Int64MillisToNonnegativeDuration`. -/
def fromMillis (ms : Int) : Duration := if ms < 0 then none else some (millis ms)

/-- sampler.cc:214-220: the request of a worker of the client. -/
def clientRequest (table : String) (num : Int) (timeout : Duration) (flexible : Int) : SampleReq :=
  ⟨table, num, some (toMillis timeout), flexible⟩

end Verif
