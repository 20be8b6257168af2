import Verif.Proofs.WriterFull
import Verif.Props.C61_C70_OutputSpec
/-
How the old writer compares steps with signatures.
-/
namespace Verif

theorem stepFits_iff {want : List TensorSpec} {step : Timestep} : stepFits want (step.map Tensor.spec) = true ↔ step.Fits want := by
  unfold stepFits Timestep.Fits
  simp only [Bool.and_eq_true, beq_iff_eq, List.length_map, List.all_eq_true]
  refine and_congr_right fun hl => ⟨fun h i w t h1 h2 => ?_, fun h p hp => ?_⟩
  · have := h (w, t.spec) (List.mem_iff_getElem?.mpr ⟨i, by simp [List.zip, List.getElem?_zipWith, h1, h2]⟩)
    exact accepts_iff.mp this
  · obtain ⟨i, hi⟩ := List.mem_iff_getElem?.mp hp
    simp only [List.zip, List.getElem?_zipWith, List.getElem?_map] at hi
    cases h1 : want[i]? with
    | none => rw [h1] at hi; cases hi
    | some w =>
      cases h2 : step[i]? with
      | none => rw [h1, h2] at hi; cases hi
      | some t =>
        rw [h1, h2] at hi
        simp only [Option.map_some, Option.some.injEq] at hi
        subst hi
        exact accepts_iff.mpr (h i w t h1 h2)

namespace Writer

theorem mem_lastSteps {n : Nat} {H : List Timestep} (hn : n ≤ H.length) {step : Timestep} :
    step ∈ lastSteps n H ↔ ∃ i < n, H.reverse[i]? = some step := by
  have e : lastSteps n H = (H.reverse.take n).reverse := by
    rw [List.take_reverse]
    simp [lastSteps]
  rw [e, List.mem_reverse]
  constructor
  · intro h
    obtain ⟨i, hi⟩ := List.mem_iff_getElem?.mp h
    rw [List.getElem?_take] at hi
    split at hi
    · exact ⟨i, by assumption, hi⟩
    · cases hi
  · rintro ⟨i, h1, h2⟩
    exact List.mem_iff_getElem?.mpr ⟨i, by rw [List.getElem?_take, if_pos h1, h2]⟩

/-- The comparison is right. -/
theorem checkSignature_iff {H : List Timestep} {w : Writer} (hr : RingInv H w) {n : Nat} (hn : n ≤ H.length) (hm : n ≤ w.maxTimesteps) (table : String) :
    (w.checkSignature table n = .ok () ↔ Signatures.Allow w.sigs table (lastSteps n H)) ∧
    (w.checkSignature table n = .ok () ∨ w.checkSignature table n = .err .invalidArgument) := by
  unfold checkSignature signature Signatures.Allow
  cases hs : w.sigs with
  | none => simp
  | some s =>
    cases hg : s.get? table with
    | none => simp [hg]
    | some sig =>
      cases sig with
      | none => simp [hg]
      | some want =>
        dsimp only
        have hspec : ∀ i < n, ∃ step, H.reverse[i]? = some step ∧ w.specAt i = some (step.map Tensor.spec) := by
          intro i hi
          have hlt : i < H.reverse.length := by simp; omega
          refine ⟨H.reverse[i], List.getElem?_eq_getElem hlt, ?_⟩
          rw [hr.spec i (by omega), List.getElem?_eq_getElem hlt]
          rfl
        constructor
        · rw [hg]
          dsimp only
          rw [checkSteps_ok]
          simp only [Option.some.injEq, forall_eq', hg, exists_eq_left']
          constructor
          · intro h step hst
            obtain ⟨i, h1, h2⟩ := (mem_lastSteps hn).mp hst
            obtain ⟨got, g1, g2⟩ := h i (Nat.zero_le _) (by omega)
            obtain ⟨step', g3, g4⟩ := hspec i h1
            rw [h2] at g3
            cases g3
            rw [g1] at g4
            cases g4
            exact stepFits_iff.mp g2
          · intro h i _ h2
            obtain ⟨step, g3, g4⟩ := hspec i (by omega)
            exact ⟨_, g4, stepFits_iff.mpr (h step ((mem_lastSteps hn).mpr ⟨i, by omega, g3⟩))⟩
        · rw [hg]
          refine checkSteps_err fun i _ h2 => ?_
          obtain ⟨step, _, g4⟩ := hspec i (by omega)
          rw [g4]
          simp

end Writer
end Verif
