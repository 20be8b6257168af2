import Verif.Proofs.Dbl
import Verif.Spec.DPrio
/-
How far a double operation is from the exact result.
-/
namespace Verif

namespace Dbl

theorem half_ulp {a K : Rat} (ha : 0 < a) (h : a ≤ K) (hK : pow2 (-1022) ≤ K) : ulp a / 2 ≤ K * pow2 (-53) := by
  have h1 : ulp a = pow2 (max (lg a) (-1022)) * (2 * pow2 (-53)) := by
    unfold ulp
    rw [show max (lg a) (-1022) - 52 = max (lg a) (-1022) + (-53 + 1) by omega, pow2_add, pow2_succ]
  have h2 : pow2 (max (lg a) (-1022)) ≤ K := by
    by_cases hc : lg a ≤ -1022
    · rw [Int.max_eq_right hc]
      exact hK
    · rw [Int.max_eq_left (by omega)]
      exact Rat.le_trans (lg_spec ha).1 h
  have h3 := Rat.mul_le_mul_of_nonneg_right h2 (Rat.le_of_lt (pow2_pos (-53)))
  rw [h1]
  generalize pow2 (max (lg a) (-1022)) = x at *
  generalize pow2 (-53) = y at *
  have : x * (2 * y) / 2 = x * y := by grind
  rw [this]
  exact h3

theorem roundPos_near {a K : Rat} (ha : 0 < a) (h : a ≤ K) (hK : pow2 (-1022) ≤ K) (hK' : K ≤ pow2 1020) :
    ∃ r, roundPos a = .fin r ∧ Within r a (K * pow2 (-53)) := by
  have h1 := half_ulp ha h hK
  have h2 := near a
  have h3 : (nearest (a / ulp a) : Rat) * ulp a < pow2 1024 := by
    have e1 : K * pow2 (-53) ≤ K * 1 := Rat.mul_le_mul_of_nonneg_left (by decide +kernel) (Rat.le_trans (Rat.le_of_lt ha) h)
    have e2 : pow2 1024 = 16 * pow2 1020 := by
      rw [show (1024 : Int) = 1020 + 1 + 1 + 1 + 1 by omega, pow2_succ, pow2_succ, pow2_succ, pow2_succ]
      grind
    have e3 := pow2_pos 1020
    grind
  refine ⟨_, by unfold roundPos; rw [if_pos h3], ?_⟩
  constructor <;> grind

/-- Rounding of a number of size at most `K`. -/
theorem round_near {a K : Rat} (h : Within a 0 K) (hK : pow2 (-1022) ≤ K) (hK' : K ≤ pow2 1020) :
    ∃ r, round a = .fin r ∧ Within r a (K * pow2 (-53)) := by
  obtain ⟨h1, h2⟩ := h
  have hp : 0 ≤ K * pow2 (-53) := Rat.mul_nonneg (Rat.le_trans (Rat.le_of_lt (pow2_pos _)) hK) (Rat.le_of_lt (pow2_pos _))
  by_cases h0 : a = 0
  · subst h0
    exact ⟨0, rfl, by constructor <;> grind⟩
  · by_cases hpos : 0 < a
    · rw [round_pos hpos]
      exact roundPos_near hpos (by grind) hK hK'
    · obtain ⟨r, e1, e2⟩ := roundPos_near (a := -a) (K := K) (by grind) (by grind) hK hK'
      refine ⟨-r, ?_, ?_⟩
      · unfold round
        rw [if_neg h0, if_neg hpos, e1]
        rfl
      · obtain ⟨e2, e3⟩ := e2
        constructor <;> grind

theorem add_near {a b K : Rat} (h : Within (a + b) 0 K) (hK : pow2 (-1022) ≤ K) (hK' : K ≤ pow2 1020) :
    ∃ r, (fin a).add (.fin b) = .fin r ∧ Within r (a + b) (K * pow2 (-53)) := round_near h hK hK'

theorem sub_near {a b K : Rat} (h : Within (a - b) 0 K) (hK : pow2 (-1022) ≤ K) (hK' : K ≤ pow2 1020) :
    ∃ r, (fin a).sub (.fin b) = .fin r ∧ Within r (a - b) (K * pow2 (-53)) := by
  have : a - b = a + -b := by grind
  rw [this] at h ⊢
  exact round_near h hK hK'

theorem mul_near {a b K : Rat} (h : Within (a * b) 0 K) (hK : pow2 (-1022) ≤ K) (hK' : K ≤ pow2 1020) :
    ∃ r, (fin a).mul (.fin b) = .fin r ∧ Within r (a * b) (K * pow2 (-53)) := round_near h hK hK'

/-- A number that is not negative is not rounded to a negative one. -/
theorem round_fin_nonneg {a r : Rat} (h : 0 ≤ a) (hr : round a = .fin r) : 0 ≤ r := by
  have := round_nonneg h
  rw [hr] at this
  exact this

end Dbl
end Verif
