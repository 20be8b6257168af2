import Verif.Model.Dbl
/-
Model of the decisions of reverb/cc/rate_limiter.cc and of the constructor of reverb/rate_limiters.py in the arithmetic of `double`.
`Model/Limiter.lean` and `Model/PyLimiters.lean` are the same code in exact arithmetic.
-/
namespace Verif

/-- `RateLimiter` (rate_limiter.h: `samples_per_insert_`, `min_diff_`, `max_diff_`, `min_size_to_sample_`, `inserts_`, `samples_`, `deletes_`).
The counters are `int64_t`; that they do not overflow is not modelled. -/
structure DLimiter where
  spi : Dbl
  minSize : Int
  minDiff : Dbl
  maxDiff : Dbl
  inserts : Int
  samples : Int
  deletes : Int
  deriving DecidableEq, Repr

namespace DLimiter

/-- rate_limiter.cc:155: `inserts_ * samples_per_insert_ - samples_ - num_samples`, from left to right, the integers converted. -/
def sampleDiff (l : DLimiter) (num : Int) : Dbl := (((Dbl.ofInt l.inserts).mul l.spi).sub (Dbl.ofInt l.samples)).sub (Dbl.ofInt num)

/-- rate_limiter.cc:150-157 `CanSample` (for `num_samples > 0`, else a fatal check). -/
def canSample (l : DLimiter) (num : Int) : Bool :=
  if l.inserts - l.deletes < l.minSize then false else l.minDiff.le (l.sampleDiff num)

/-- rate_limiter.cc:178: `(num_inserts + inserts_) * samples_per_insert_ - samples_`. -/
def insertDiff (l : DLimiter) (num : Int) : Dbl := ((Dbl.ofInt (num + l.inserts)).mul l.spi).sub (Dbl.ofInt l.samples)

/-- rate_limiter.cc:171-180 `CanInsert` (for `num_inserts > 0`, else a fatal check). -/
def canInsert (l : DLimiter) (num : Int) : Bool :=
  if l.inserts + num - l.deletes ≤ l.minSize then true else (l.insertDiff num).le l.maxDiff

/-- rate_limiter.cc:112-115 `Insert`. -/
def insert (l : DLimiter) : DLimiter := { l with inserts := l.inserts + 1 }

/-- rate_limiter.cc:117-120 `Delete`. -/
def delete (l : DLimiter) : DLimiter := { l with deletes := l.deletes + 1 }

/-- rate_limiter.cc:122-127 `Reset`. -/
def reset (l : DLimiter) : DLimiter := { l with inserts := 0, samples := 0, deletes := 0 }

/-- rate_limiter.cc:145 and 166: the sample is counted. -/
def sample (l : DLimiter) : DLimiter := { l with samples := l.samples + 1 }

end DLimiter

namespace Py

/-- Python's `max(1.0, x)`: the first argument unless the second is larger (rate_limiters.py:115). -/
def maxOne (x : Dbl) : Dbl := if (Dbl.fin 1).lt x then x else .fin 1

/-- The `error_buffer` argument: a number or a pair (rate_limiters.py:88-89). -/
inductive DBuffer where
  | number (b : Dbl)
  | range (lo hi : Dbl)

/-- rate_limiters.py:108-113. Arguments that are Python integers are taken to be converted to `float` first. -/
def DBuffer.range? (spi : Dbl) (n : Int) : DBuffer → Dbl × Dbl
  | .number b => ((spi.mul (Dbl.ofInt n)).sub b, (spi.mul (Dbl.ofInt n)).add b)
  | .range lo hi => (lo, hi)

/-- rate_limiters.py:88-145 `SampleToInsertRatio.__init__`; `none` is a raised `ValueError`. The warning at 121-126 has no effect. -/
def dSampleToInsertRatio (spi : Dbl) (n : Int) (buffer : DBuffer) : Option DLimiter :=
  let lo := (buffer.range? spi n).1
  let hi := (buffer.range? spi n).2
  if (hi.sub lo).lt ((Dbl.fin 2).mul (maxOne spi)) then none
  else if (spi.mul (Dbl.ofInt n)).lt lo then none
  else if n < 1 then none
  else some ⟨spi, n, lo, hi, 0, 0, 0⟩

/-- rate_limiters.py:36-54 `MinSize`. -/
def dMinSize (n : Int) : Option DLimiter :=
  if n < 1 then none else some ⟨.fin 1, n, (Dbl.fin ((2 ^ 53 - 1) * pow2 971)).neg, .fin ((2 ^ 53 - 1) * pow2 971), 0, 0, 0⟩

/-- rate_limiters.py:148-187 `Queue` and `Stack`. -/
def dQueue (size : Int) : DLimiter := ⟨.fin 1, 1, .fin 0, Dbl.ofInt size, 0, 0, 0⟩

end Py
end Verif
