import Verif.Model.DPrio
/-
Words for the statements about the prioritized selector in the arithmetic of `double`.
-/
namespace Verif

/-- The priorities that the selector accepts: infinity included, NaN and negative numbers not. -/
def Dbl.accepted : Dbl → Bool
  | .nan => false
  | .ninf => false
  | .pinf => true
  | .fin q => decide (0 ≤ q)

/-- Keys and their priorities. -/
abbrev Holds := Key → Option Dbl

/-- What a call means: a key is inserted once, updated while it is there, and deleted. Priorities that are not accepted change nothing. -/
def Holds.step (h : Holds) : DCall → Holds
  | .insert k p => fun k' => if k' = k ∧ p.accepted = true ∧ h k = none then some p else h k'
  | .update k p => fun k' => if k' = k ∧ p.accepted = true ∧ (h k).isSome then some p else h k'
  | .delete k => fun k' => if k' = k then none else h k'
  | .clear => fun _ => none

/-- The keys and priorities that a history of calls leaves. -/
def holds (cs : List DCall) : Holds := cs.foldl Holds.step fun _ => none

/-- A call that has to succeed. -/
def Holds.allows (h : Holds) : DCall → Bool
  | .insert k p => p.accepted && (h k).isNone
  | .update k p => p.accepted && (h k).isSome
  | .delete k => (h k).isSome
  | .clear => true

/-- The selector after a history of calls. -/
def DPrio.after (w : PowD) (cs : List DCall) : DPrio := cs.foldl (fun s c => (s.apply c).1) (DPrio.init w)

/-- The list has the keys that are left, each once. -/
def LeavesKeys (cs : List DCall) (l : List Key) : Prop := l.Nodup ∧ ∀ k, k ∈ l ↔ (holds cs k).isSome

/-- A number that `absl::Uniform<double>(0, 1)` may return: the largest double below 1 is 1 - 2^(-53). -/
def UniformDraw (u : Rat) : Prop := 0 ≤ u ∧ u ≤ 1 - 1 / 2 ^ 53

/-- The weight of a priority: priority to the power of the exponent, zero for priority zero. -/
def PowD.weight (w : PowD) : Dbl → Rat
  | .fin q => if q = 0 then 0 else match w.f (.fin q) with
    | .fin r => r
    | _ => 0
  | _ => 0

/-- The weight of a key, zero if it is absent. -/
def weightOf (w : PowD) (cs : List DCall) (k : Key) : Rat :=
  match holds cs k with
  | some p => w.weight p
  | none => 0

/-- The total weight of the keys. -/
def totalOf (w : PowD) (cs : List DCall) (l : List Key) : Rat := (l.map (weightOf w cs)).sum

/-- The priority in a call. -/
def DCall.priority : DCall → Option Dbl
  | .insert _ p => some p
  | .update _ p => some p
  | _ => none

/-- Weights that are numbers of few digits: multiples of one power of two whose total never exceeds 2^52 of it (integers with a total of up to
4503599627370496, for example). -/
structure FewDigits (w : PowD) (e : Int) (cs : List DCall) : Prop where
  low : -1021 ≤ e
  high : e ≤ 970
  digits : ∀ c ∈ cs, ∀ p, c.priority = some p → p.accepted = true → ∃ q, p = .fin q ∧ ∃ z : Nat, w.power p = .fin (z * pow2 e)
  small : ∀ pre, pre <+: cs → ∀ l, LeavesKeys pre l → totalOf w pre l ≤ 2 ^ 52 * pow2 e

/-- Weights that are numbers (not infinite), at most `N` keys at any time, with a total of at most `M`, which is neither tiny for so many keys nor huge. -/
structure Moderate (w : PowD) (N : Nat) (M : Rat) (cs : List DCall) : Prop where
  numbers : ∀ c ∈ cs, ∀ p, c.priority = some p → p.accepted = true → ∃ q r, p = .fin q ∧ w.power p = .fin r
  some : 1 ≤ N
  few : N ≤ 2 ^ 43
  notTiny : (N : Rat) ≤ 2000 * M
  notHuge : M ≤ pow2 1000
  keys : ∀ pre, pre <+: cs → ∀ l, LeavesKeys pre l → l.length ≤ N ∧ totalOf w pre l ≤ M

/-- The error that rounding may leave in one sum, if totals are at most `M`: about twice the 0.0001 that the selector tolerates, and some units in the last
place of the total. -/
def drift (M : Rat) : Rat := 1 / 4000 + M / 2 ^ 44

/-- At most `e` apart. -/
def Within (a b e : Rat) : Prop := a - b ≤ e ∧ b - a ≤ e

end Verif
