import Verif.Spec.Reach
/-
Model of the Python constructors of rate limiters and tables: reverb/rate_limiters.py and
reverb/server.py. `none` is a raised `ValueError`. Python floats are exact rationals.
-/
namespace Verif.Py

/-- `sys.float_info.max` (rate_limiters.py:53-54). -/
def floatMax : Rat := (2 ^ 53 - 1) * 2 ^ 971

/-- rate_limiters.py:36-54 `MinSize`. -/
def minSize (n : Int) : Option Limiter :=
  if n < 1 then none else some ⟨1, n, -floatMax, floatMax, 0, 0, 0, false⟩

/-- The `error_buffer` argument: a number or a pair (rate_limiters.py:88-89). -/
inductive Buffer where
  | number (b : Rat)
  | range (lo hi : Rat)

/-- rate_limiters.py:108-113. -/
def Buffer.range? (spi : Rat) (n : Int) : Buffer → Rat × Rat
  | .number b => (spi * n - b, spi * n + b)
  | .range lo hi => (lo, hi)

/-- rate_limiters.py:88-145 `SampleToInsertRatio.__init__`. The warning at 121-126 has no effect. -/
def sampleToInsertRatio (spi : Rat) (n : Int) (buffer : Buffer) : Option Limiter :=
  let lo := (buffer.range? spi n).1
  let hi := (buffer.range? spi n).2
  if hi - lo < 2 * (if spi ≤ 1 then 1 else spi) then none
  else if spi * n < lo then none
  else if n < 1 then none
  else some ⟨spi, n, lo, hi, 0, 0, 0, false⟩

/-- rate_limiters.py:148-166 `Queue`. -/
def queue (size : Int) : Option Limiter := some ⟨1, 1, 0, size, 0, 0, 0, false⟩

/-- rate_limiters.py:169-187 `Stack`. -/
def stack (size : Int) : Option Limiter := some ⟨1, 1, 0, size, 0, 0, 0, false⟩

/-- server.py:165-189 `Table.queue`; 134-135 rejects `max_size <= 0`. -/
def tableQueue (maxSize : Nat) (_h : 0 < maxSize) : Config :=
  ⟨maxSize, 1, .fifo, .fifo, 1, 1, 0, maxSize, by decide⟩

/-- server.py:192-216 `Table.stack`. -/
def tableStack (maxSize : Nat) (_h : 0 < maxSize) : Config :=
  ⟨maxSize, 1, .lifo, .lifo, 1, 1, 0, maxSize, by decide⟩

end Verif.Py
