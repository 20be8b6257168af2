import Verif.Model.Selector
import Verif.Proofs.ListSel
namespace Verif
open Spec (Call Book Entry)

theorem PowFn.power_nonneg (w : PowFn) {q : Rat} (h : 0 ≤ q) : 0 ≤ w.power q := by
  unfold PowFn.power
  split
  · grind
  · exact w.nonneg q (by grind)

namespace Prio

/-- The sum tree equations, over all indices (everything is zero outside the tree). -/
structure Tree (s : Prio) : Prop where
  eq : ∀ i, s.sum i = s.value i + s.sum (2 * i + 1) + s.sum (2 * i + 2)
  value_nonneg : ∀ i, 0 ≤ s.value i
  sum_nonneg : ∀ i, 0 ≤ s.sum i
  value_zero : ∀ i, s.n ≤ i → s.value i = 0
  sum_zero : ∀ i, s.n ≤ i → s.sum i = 0

theorem nodeSum_eq {s : Prio} (h : ∀ i, s.n ≤ i → s.sum i = 0) (i : Nat) : s.nodeSum i = s.sum i := by
  unfold nodeSum
  split
  · rfl
  · rw [h i (by omega)]

/-- State of the sums after the update of `i` and before that of its parent. -/
structure Pending (s : Prio) (i : Nat) (d : Rat) : Prop where
  lt : i < s.n
  off : ∀ j, i ≠ 0 → j = (i - 1) / 2 → s.sum j + d = s.value j + s.sum (2 * j + 1) + s.sum (2 * j + 2)
  eq : ∀ j, ¬ (i ≠ 0 ∧ j = (i - 1) / 2) → s.sum j = s.value j + s.sum (2 * j + 1) + s.sum (2 * j + 2)
  value_nonneg : ∀ i, 0 ≤ s.value i
  sum_nonneg : ∀ i, 0 ≤ s.sum i
  value_zero : ∀ i, s.n ≤ i → s.value i = 0
  sum_zero : ∀ i, s.n ≤ i → s.sum i = 0

theorem updateSum_eq {s : Prio} {i : Nat} {d : Rat} (hi : i < s.n)
    (hz : ∀ i, s.n ≤ i → s.sum i = 0)
    (hnn : ∀ j, j ≠ i → 0 ≤ s.sum j) (hv : 0 ≤ s.value i)
    (h : s.sum i + d = s.value i + s.sum (2 * i + 1) + s.sum (2 * i + 2)) :
    s.updateSum i d = ({ s with sum := fun j => if j = i then s.sum i + d else s.sum j }, 0) := by
  have h1 := hnn (2 * i + 1) (by omega)
  have h2 := hnn (2 * i + 2) (by omega)
  have hx : ¬ (s.sum i + d < 0) := by grind
  simp only [updateSum, hx, if_false, Prod.mk.injEq, true_and]
  rw [nodeSum_eq, nodeSum_eq]
  · have e1 : ¬ (2 * i + 1 = i) := by omega
    have e2 : ¬ (2 * i + 2 = i) := by omega
    simp only [e1, e2, if_false, if_true]
    unfold absR
    grind
  all_goals
    intro j hj
    have : j ≠ i := by
      intro hc; subst hc
      have : s.n ≤ j := hj
      omega
    simp only [this, if_false]
    exact hz j hj

/-- One step up. -/
theorem pending_parent {s : Prio} {i : Nat} {d : Rat} (h0 : i ≠ 0) (h : Pending s i d) :
    Pending { s with sum := fun j => if j = (i - 1) / 2 then s.sum ((i - 1) / 2) + d else s.sum j } ((i - 1) / 2) d := by
  have hlt := h.lt
  generalize hpi : (i - 1) / 2 = p
  have hpl : p < i := by omega
  have hoff := h.off p h0 hpi.symm
  refine ⟨by show p < s.n; omega, ?_, ?_, h.value_nonneg, ?_, h.value_zero, ?_⟩
  · intro j hp0 hj
    have hjp : j ≠ p := by omega
    have heq := h.eq j (by omega)
    have hcase : 2 * j + 1 = p ∨ 2 * j + 2 = p := by omega
    simp only [hjp, if_false]
    rcases hcase with hc | hc
    · have : 2 * j + 2 ≠ p := by omega
      simp only [hc, this, if_true, if_false]
      grind
    · have : 2 * j + 1 ≠ p := by omega
      simp only [hc, this, if_true, if_false]
      grind
  · intro j hj
    by_cases hjp : j = p
    · subst hjp
      have e1 : 2 * j + 1 ≠ j := by omega
      have e2 : 2 * j + 2 ≠ j := by omega
      simp only [e1, e2, if_true, if_false]
      exact hoff
    · have e1 : 2 * j + 1 ≠ p := by
        intro hc; apply hj; omega
      have e2 : 2 * j + 2 ≠ p := by
        intro hc; apply hj; omega
      simp only [hjp, e1, e2, if_false]
      exact h.eq j (by omega)
  · intro j
    simp only
    split
    · have a := h.value_nonneg p
      have b := h.sum_nonneg (2 * p + 1)
      have c := h.sum_nonneg (2 * p + 2)
      grind
    · exact h.sum_nonneg j
  · intro j hj
    have hj' : s.n ≤ j := hj
    have : j ≠ p := by omega
    simp only [this, if_false]; exact h.sum_zero j hj

theorem updateParents_ok {s : Prio} {e : Rat} {i : Nat} {d : Rat} (he : e = 0) (h : Pending s i d) :
    ∃ f, s.updateParents e i d = ({ s with sum := f }, 0) ∧ Tree { s with sum := f } := by
  induction i using Nat.strongRecOn generalizing s e with
  | _ i ih =>
  unfold updateParents
  by_cases h0 : i = 0
  · subst h0
    refine ⟨s.sum, by simp [he], ?_⟩
    exact ⟨fun j => h.eq j (by simp), h.value_nonneg, h.sum_nonneg, h.value_zero, h.sum_zero⟩
  · have hc : i ≠ 0 ∧ e ≤ maxError := ⟨h0, by subst he; decide +kernel⟩
    rw [dif_pos hc]
    have hu := updateSum_eq (d := d) (i := (i - 1) / 2) (s := s) (by have := h.lt; omega) h.sum_zero
      (fun j _ => h.sum_nonneg j) (h.value_nonneg _) (h.off _ h0 rfl)
    rw [hu]
    have hlt := h.lt
    have hp := pending_parent h0 h
    obtain ⟨f, hf, ht⟩ := ih ((i - 1) / 2) (by omega) rfl hp
    exact ⟨f, hf, ht⟩

/-- The first step of `SetNode`. -/
theorem pending_start {s : Prio} {i : Nat} {v : Rat} (hi : i < s.n) (hv : 0 ≤ v) (h : Tree s) :
    Pending { s with value := fun j => if j = i then v else s.value j,
                             sum := fun j => if j = i then s.sum i + (v - s.value i) else s.sum j }
      i (v - s.value i) := by
  have hei := h.eq i
  refine ⟨hi, ?_, ?_, ?_, ?_, ?_, ?_⟩
  · intro j h0 hj
    have hji : j ≠ i := by omega
    have hej := h.eq j
    have hcase : 2 * j + 1 = i ∨ 2 * j + 2 = i := by omega
    simp only [hji, if_false]
    rcases hcase with hc | hc
    · have : 2 * j + 2 ≠ i := by omega
      simp only [hc, this, if_true, if_false]
      grind
    · have : 2 * j + 1 ≠ i := by omega
      simp only [hc, this, if_true, if_false]
      grind
  · intro j hj
    by_cases hji : j = i
    · subst hji
      have e1 : 2 * j + 1 ≠ j := by omega
      have e2 : 2 * j + 2 ≠ j := by omega
      simp only [e1, e2, if_true, if_false]
      grind
    · have e1 : 2 * j + 1 ≠ i := by intro hc; apply hj; omega
      have e2 : 2 * j + 2 ≠ i := by intro hc; apply hj; omega
      simp only [hji, e1, e2, if_false]
      exact h.eq j
  · intro j; simp only; split
    · exact hv
    · exact h.value_nonneg j
  · intro j; simp only; split
    · have b := h.sum_nonneg (2 * i + 1)
      have c := h.sum_nonneg (2 * i + 2)
      grind
    · exact h.sum_nonneg j
  · intro j hj
    have hj' : s.n ≤ j := hj
    have : j ≠ i := by omega
    simp only [this, if_false]; exact h.value_zero j hj
  · intro j hj
    have hj' : s.n ≤ j := hj
    have : j ≠ i := by omega
    simp only [this, if_false]; exact h.sum_zero j hj

/-- `SetNode` keeps the sum tree exact and never needs to reinitialise it. -/
theorem setNode_ok {s : Prio} {i : Nat} {v : Rat} (hi : i < s.n) (hv : 0 ≤ v) (h : Tree s) :
    ∃ f, s.setNode i v = { s with sum := f, value := fun j => if j = i then v else s.value j } ∧
      Tree { s with sum := f, value := fun j => if j = i then v else s.value j } := by
  have heq : ∀ j, j ≠ i → (if j = i then v else s.value j) = s.value j := by
    intro j hj; simp [hj]
  have hu := updateSum_eq (d := v - s.value i) (i := i)
    (s := { s with value := fun j => if j = i then v else s.value j }) hi h.sum_zero
    (fun j _ => h.sum_nonneg j) (by simpa using hv) (by have := h.eq i; simp; grind)
  have hp := pending_start hi hv h
  obtain ⟨f, hf, ht⟩ := updateParents_ok rfl hp
  refine ⟨f, ?_, ht⟩
  simp only [setNode]
  rw [hu]
  simp only
  rw [hf]
  have : ¬ (maxError < (0 : Rat)) := by decide +kernel
  simp [this]

end Prio
end Verif
