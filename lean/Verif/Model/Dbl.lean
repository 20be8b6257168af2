import Verif.Basic
/-
The arithmetic of `double` (IEEE 754 binary64, rounding to nearest, ties to even), as far as reverb/cc/selectors/prioritized.cc and
reverb/cc/rate_limiter.cc use it. The rest of the model computes with exact rationals. Zero has no sign here: the code never divides by zero
and does not look at signs of zeros.
-/
namespace Verif

/-- 2 to the power of an integer. (The powers that make up the format of `double`, prioritized.cc:33-228, rate_limiter.cc:150-180.) -/
def pow2 (e : Int) : Rat := (2 : Rat) ^ e

/-- The exponent of a positive number: `2^lg a ≤ a < 2^(lg a + 1)` (part of the arithmetic of `double`
used in prioritized.cc:107-232 and rate_limiter.cc:150-180; IEEE 754, not code of the project). -/
def lg (a : Rat) : Int :=
  if pow2 ((a.num.toNat.log2 : Int) - (a.den.log2 : Int)) ≤ a then (a.num.toNat.log2 : Int) - (a.den.log2 : Int)
  else (a.num.toNat.log2 : Int) - (a.den.log2 : Int) - 1

/-- The distance of neighbouring doubles at a positive number: 53 digits, and none beyond the 1074th
after the point (IEEE 754 binary64, used in prioritized.cc:107-232 and rate_limiter.cc:150-180). -/
def ulp (a : Rat) : Rat := pow2 (max (lg a) (-1022) - 52)

/-- The integer nearest to a number, the even one of two (IEEE 754 round to nearest, ties to even, used
in prioritized.cc:107-232 and rate_limiter.cc:150-180). -/
def nearest (m : Rat) : Int :=
  if m - m.floor < 1 / 2 then m.floor
  else if 1 / 2 < m - m.floor then m.floor + 1
  else if m.floor % 2 = 0 then m.floor else m.floor + 1

/-- `double` (prioritized.cc, rate_limiter.cc) (prioritized.cc:107-232, rate_limiter.cc:150-180; the sign
of zero is left out). -/
inductive Dbl where
  | nan
  | pinf
  | ninf
  | fin (q : Rat)
  deriving DecidableEq, Repr

namespace Dbl

/-- Rounding of a positive number (every operation of prioritized.cc:107-228 rounds its result). -/
def roundPos (a : Rat) : Dbl :=
  if (nearest (a / ulp a) : Rat) * ulp a < pow2 1024 then .fin ((nearest (a / ulp a) : Rat) * ulp a) else .pinf

/-- Unary minus (prioritized.cc:196 subtracts). -/
def neg : Dbl → Dbl
  | .nan => .nan
  | .pinf => .ninf
  | .ninf => .pinf
  | .fin q => .fin (-q)

/-- Rounding (IEEE 754, used in prioritized.cc:107-232 and rate_limiter.cc:150-180). -/
def round (q : Rat) : Dbl :=
  if q = 0 then .fin 0 else if 0 < q then roundPos q else (roundPos (-q)).neg

/-- `+` (prioritized.cc:190, 226). -/
def add : Dbl → Dbl → Dbl
  | .nan, _ => .nan
  | _, .nan => .nan
  | .pinf, .ninf => .nan
  | .ninf, .pinf => .nan
  | .pinf, _ => .pinf
  | _, .pinf => .pinf
  | .ninf, _ => .ninf
  | _, .ninf => .ninf
  | .fin a, .fin b => round (a + b)

/-- `-` (prioritized.cc:192, 196, 131, 139; rate_limiter.cc:155, 178). -/
def sub (a b : Dbl) : Dbl := a.add b.neg

/-- `*` (prioritized.cc:117, 124; rate_limiter.cc:155, 178). -/
def mul : Dbl → Dbl → Dbl
  | .nan, _ => .nan
  | _, .nan => .nan
  | .fin a, .fin b => round (a * b)
  | .fin a, .pinf => if a = 0 then .nan else if 0 < a then .pinf else .ninf
  | .fin a, .ninf => if a = 0 then .nan else if 0 < a then .ninf else .pinf
  | .pinf, .fin a => if a = 0 then .nan else if 0 < a then .pinf else .ninf
  | .ninf, .fin a => if a = 0 then .nan else if 0 < a then .ninf else .pinf
  | .pinf, .pinf => .pinf
  | .ninf, .ninf => .pinf
  | .pinf, .ninf => .ninf
  | .ninf, .pinf => .ninf

/-- `/` (prioritized.cc:118, 150). Division by zero does not occur there; its result is taken to be NaN. -/
def div : Dbl → Dbl → Dbl
  | .nan, _ => .nan
  | _, .nan => .nan
  | .fin a, .fin b => if b = 0 then .nan else round (a / b)
  | .fin _, _ => .fin 0
  | .pinf, .fin b => if b = 0 then .nan else if 0 < b then .pinf else .ninf
  | .ninf, .fin b => if b = 0 then .nan else if 0 < b then .ninf else .pinf
  | _, _ => .nan

/-- `std::abs` (prioritized.cc:192). -/
def abs : Dbl → Dbl
  | .nan => .nan
  | .pinf => .pinf
  | .ninf => .pinf
  | .fin q => .fin (if q < 0 then -q else q)

/-- `<`; every comparison with NaN is false (prioritized.cc:45, 128, 191). -/
def lt : Dbl → Dbl → Bool
  | .nan, _ => false
  | _, .nan => false
  | .fin a, .fin b => decide (a < b)
  | .pinf, _ => false
  | _, .pinf => true
  | _, .ninf => false
  | .ninf, _ => true

/-- `<=` (prioritized.cc:207). -/
def le : Dbl → Dbl → Bool
  | .nan, _ => false
  | _, .nan => false
  | .fin a, .fin b => decide (a ≤ b)
  | _, .pinf => true
  | .pinf, _ => false
  | .ninf, _ => true
  | _, .ninf => false

/-- `x == 0` (prioritized.cc:39, 116). -/
def isZero : Dbl → Bool
  | .fin q => decide (q = 0)
  | _ => false

/-- The conversion of integers to `double` (prioritized.cc:117-118; rate_limiter.cc:155, 178). -/
def ofInt (z : Int) : Dbl := round z

/-- `static_cast<size_t>` (prioritized.cc:117); `none` is undefined behaviour. -/
def toSize : Dbl → Option Nat
  | .fin q => if q < 0 then none else if q < pow2 64 then some q.floor.toNat else none
  | _ => none

end Dbl
end Verif
