import Verif.Model.DLimiter
import Verif.Model.PyLimiters
/-
Words for the statements about the rate limiter in the arithmetic of `double`.
-/
namespace Verif

/-- The limiter with its numbers read as exact ones. -/
structure DLimiter.Is (d : DLimiter) (l : Limiter) : Prop where
  spi : d.spi = .fin l.spi
  minDiff : d.minDiff = .fin l.minDiff
  maxDiff : d.maxDiff = .fin l.maxDiff
  minSize : d.minSize = l.minSize
  inserts : d.inserts = l.inserts
  samples : d.samples = l.samples
  deletes : d.deletes = l.deletes

/-- Neither an insert nor a sample is allowed. -/
def DLimiter.Stuck (l : DLimiter) : Prop := l.canInsert 1 = false ∧ l.canSample 1 = false

/-- A limiter with the same parameters and arbitrary counters. -/
def DLimiter.atCounts (l : DLimiter) (inserts samples deletes : Int) : DLimiter :=
  { l with inserts := inserts, samples := samples, deletes := deletes }

/-- The quantities of which the decisions are made, all added up. -/
def volume (spi : Rat) (inserts samples : Int) : Rat := ((inserts + 1 : Int) : Rat) * spi + samples + 1

/-- An `error_buffer` in finite numbers, and the exact one. -/
inductive DBufferIs : Py.DBuffer → Py.Buffer → Prop
  | number (b : Rat) : DBufferIs (.number (.fin b)) (.number b)
  | range (lo hi : Rat) : DBufferIs (.range (.fin lo) (.fin hi)) (.range lo hi)

/-- A multiple of a power of two, not larger than 2^51 of it. -/
def Digits (e : Int) (q : Rat) : Prop := ∃ z : Int, -2 ^ 51 ≤ z ∧ z ≤ 2 ^ 51 ∧ q = z * pow2 e

end Verif
