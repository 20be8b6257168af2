import Verif.Basic
/-
Model of reverb/cc/rate_limiter.cc: counters and decisions. Condition variables and event statistics
are modelled in `Model/Waiters.lean` and `Model/Stats.lean`.
-/
namespace Verif

/-- `RateLimiter` (rate_limiter.h: `samples_per_insert_`, `min_diff_`, `max_diff_`,
`min_size_to_sample_`, `inserts_`, `samples_`, `deletes_`, `cancelled_`) (rate_limiter.h:160-187). -/
structure Limiter where
  spi : Rat
  minSize : Int
  minDiff : Rat
  maxDiff : Rat
  inserts : Int
  samples : Int
  deletes : Int
  cancelled : Bool
  deriving DecidableEq, Repr

namespace Limiter

/-- rate_limiter.cc:50-63. The constructor dies unless `min_size_to_sample > 0`. -/
def make (spi : Rat) (minSize : Int) (minDiff maxDiff : Rat) : Res Limiter :=
  if 0 < minSize then .ok ⟨spi, minSize, minDiff, maxDiff, 0, 0, 0, false⟩ else .died

/-- rate_limiter.cc:150-157 `CanSample` (for `num_samples > 0`, else a fatal check). -/
def canSample (l : Limiter) (num : Int) : Bool :=
  if l.inserts - l.deletes < l.minSize then false
  else decide (l.minDiff ≤ (l.inserts : Rat) * l.spi - l.samples - num)

/-- rate_limiter.cc:171-180 `CanInsert` (for `num_inserts > 0`, else a fatal check). -/
def canInsert (l : Limiter) (num : Int) : Bool :=
  if l.inserts + num - l.deletes ≤ l.minSize then true
  else decide (((num + l.inserts : Int) : Rat) * l.spi - l.samples ≤ l.maxDiff)

/-- rate_limiter.cc:112-115 `Insert`. -/
def insert (l : Limiter) : Limiter := { l with inserts := l.inserts + 1 }

/-- rate_limiter.cc:117-120 `Delete`. -/
def delete (l : Limiter) : Limiter := { l with deletes := l.deletes + 1 }

/-- rate_limiter.cc:122-127 `Reset`. -/
def reset (l : Limiter) : Limiter := { l with inserts := 0, samples := 0, deletes := 0 }

/-- rate_limiter.cc:186-190 `Cancel`. -/
def cancel (l : Limiter) : Limiter := { l with cancelled := true }

/-- rate_limiter.cc:159-169 `MaybeCommitSample`: `none` if no sample is allowed. Note that the
cancellation flag is not looked at. -/
def maybeCommitSample (l : Limiter) : Option Limiter :=
  if l.canSample 1 then some { l with samples := l.samples + 1 } else none

/-- What one pass through the loop of a waiting call finds (rate_limiter.cc:101-106 and 135-140). -/
inductive Await where
  | proceed
  | cancelled
  | wait
  deriving DecidableEq, Repr

/-- rate_limiter.cc:96-110 `AwaitCanInsert`, one evaluation of the loop condition. After `wait` the
mutex is released; the call evaluates again when woken, or returns a timeout. -/
def awaitInsert (l : Limiter) : Await :=
  if l.cancelled then .cancelled else if l.canInsert 1 then .proceed else .wait

/-- rate_limiter.cc:129-148 `AwaitAndFinalizeSample`, one evaluation of the loop condition. -/
def awaitSample (l : Limiter) : Await :=
  if l.cancelled then .cancelled else if l.canSample 1 then .proceed else .wait

/-- rate_limiter.cc:192-203 `CheckpointReader` and 65-74 the restoring constructor: all numbers are
kept, the new limiter is not cancelled. -/
def restored (l : Limiter) : Limiter := { l with cancelled := false }

end Limiter
end Verif
