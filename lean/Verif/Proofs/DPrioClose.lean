import Verif.Proofs.DPrioWalk
import Verif.Props.C05_Prioritized
/-
The prioritized selector with rounding after any history of calls.
-/
namespace Verif
namespace DPrio

/-- The tolerance of the selector as a number. -/
theorem maxError_fin : ∃ m, maxError = .fin m ∧ 0 ≤ m ∧ 2 * m ≤ 1 / 4000 := by
  refine ⟨7378697629483821 / 2 ^ 66, ?_, ?_, ?_⟩ <;> decide +kernel

theorem Moderate.pos {w : PowD} {N : Nat} {M : Rat} {cs : List DCall} (h : Moderate w N M cs) : 1 ≤ 2000 * M := by
  have h1 := h.notTiny
  have h2 : ((1 : Nat) : Rat) ≤ N := by exact_mod_cast h.some
  have h3 : ((1 : Nat) : Rat) = 1 := rfl
  grind

/-- The errors of a history of calls with moderate weights. -/
theorem Moderate.scale {w : PowD} {N : Nat} {M : Rat} {cs : List DCall} (h : Moderate w N M cs) :
    ∃ η B, Scale (2 * M) η B N ∧ 2 * B + 2 * η ≤ drift M ∧ N * drift M ≤ M := by
  have hM := Moderate.pos h
  obtain ⟨m, m1, m2, m3⟩ := maxError_fin
  have hp : pow2 (-53) = 1 / 2 ^ 53 := by decide +kernel
  have hη : 32 * (2 * M) * pow2 (-53) = M / 2 ^ 47 := by
    rw [hp]
    grind
  have hroom : (N : Rat) * drift M ≤ M := by
    have h1 := h.notTiny
    have h2 : (N : Rat) ≤ 2 ^ 43 := by exact_mod_cast h.few
    have h3 : (N : Rat) * (M / 2 ^ 44) ≤ 2 ^ 43 * (M / 2 ^ 44) := Rat.mul_le_mul_of_nonneg_right h2 (by grind)
    have h4 : (N : Rat) * drift M = N / 4000 + N * (M / 2 ^ 44) := by
      unfold drift
      grind
    rw [h4]
    generalize (N : Rat) * (M / 2 ^ 44) = x at *
    grind
  have hsum : 2 * (m + 3 * (M / 2 ^ 47)) + 2 * (M / 2 ^ 47) ≤ drift M := by
    unfold drift
    grind
  refine ⟨M / 2 ^ 47, m + 3 * (M / 2 ^ 47), ⟨?_, ?_, hη, ⟨m, m1, m2, Rat.le_refl⟩, ?_, h.some⟩, hsum, hroom⟩
  · have : pow2 (-1022) ≤ 1 / 2000 := by decide +kernel
    grind
  · have h1 := h.notHuge
    have h2 : pow2 1020 = pow2 20 * pow2 1000 := pow2_add 20 1000
    have h3 : pow2 20 = 1048576 := by decide +kernel
    have h4 := pow2_pos 1000
    rw [h2, h3]
    grind
  · have h1 : (N : Rat) * (2 * (m + 3 * (M / 2 ^ 47))) ≤ N * drift M := Rat.mul_le_mul_of_nonneg_left (by grind) Rat.natCast_nonneg
    grind

theorem Moderate.finite {w : PowD} {N : Nat} {M : Rat} {cs : List DCall} (h : Moderate w N M cs) {pre : List DCall} (hp : pre <+: cs) : Finite pre := by
  obtain ⟨suf, rfl⟩ := hp
  intro c hc p hp ha
  obtain ⟨q, _, hq, _⟩ := h.numbers c (by simp [hc]) p hp ha
  exact ⟨q, hq⟩

theorem Moderate.facts {w : PowD} {N : Nat} {M : Rat} {cs : List DCall} (h : Moderate w N M cs) {pre : List DCall} (hp : pre <+: cs) :
    Prio.WF (prioAfter w.exact (pre.map DCall.exact)) ∧ (prioAfter w.exact (pre.map DCall.exact)).sum 0 ≤ M ∧
      (prioAfter w.exact (pre.map DCall.exact)).n ≤ N := by
  obtain ⟨l, hl⟩ := leaves_exists pre
  have hf := Moderate.finite h hp
  obtain ⟨f1, _, _, f4, f5⟩ := C05.facts w.exact (pre.map DCall.exact) l ((enumerates_iff pre hf l).mpr hl)
  obtain ⟨k1, k2⟩ := h.keys pre hp l hl
  refine ⟨f1, ?_, by omega⟩
  rw [f4, total_eq w pre hf]
  exact k2

theorem Near.run {w : PowD} {N : Nat} {M η B : Rat} {cs : List DCall} (h : Moderate w N M cs) (sc : Scale (2 * M) η B N) :
    ∀ (suf pre : List DCall), pre ++ suf = cs →
    (∃ S, Near B (DPrio.after w pre) (prioAfter w.exact (pre.map DCall.exact)) S ∧ (DPrio.after w pre).pow = w ∧
      (prioAfter w.exact (pre.map DCall.exact)).pow = w.exact) →
    ∃ S, Near B (DPrio.after w cs) (prioAfter w.exact (cs.map DCall.exact)) S := by
  intro suf
  induction suf with
  | nil =>
    rintro pre hp ⟨S, hb, _, _⟩
    rw [List.append_nil] at hp
    subst hp
    exact ⟨S, hb⟩
  | cons c suf ih =>
    rintro pre hp ⟨S, hb, hb1, hb2⟩
    have hstep : ∀ {S C O : Type} (f : S → C → S × O) (s : S) (a : List C) (c : C),
        (a ++ [c]).foldl (fun s c => (f s c).1) s = (f (a.foldl (fun s c => (f s c).1) s) c).1 := by
      intro S C O f s a c
      rw [List.foldl_append]
      rfl
    have e1 : DPrio.after w (pre ++ [c]) = ((DPrio.after w pre).apply c).1 := hstep DPrio.apply _ _ _
    have e2 : prioAfter w.exact ((pre ++ [c]).map DCall.exact) = ((prioAfter w.exact (pre.map DCall.exact)).apply c.exact).1 := by
      rw [List.map_append]
      exact hstep Prio.apply _ _ _
    have p1 : pre <+: cs := ⟨c :: suf, hp⟩
    have p2 : pre ++ [c] <+: cs := ⟨suf, by rw [← hp]; simp⟩
    obtain ⟨f1, f2, f3⟩ := Moderate.facts h p1
    obtain ⟨g1, g2, g3⟩ := Moderate.facts h p2
    refine ih (pre ++ [c]) (by rw [← hp]; simp) ?_
    rw [e1, e2]
    rw [e2] at g1 g2 g3
    exact hb.step sc hb1 hb2 f1 c (h.numbers c (by rw [← hp]; simp)) (by grind) f3 g1 (by grind) g3

theorem Near.after {w : PowD} {N : Nat} {M η B : Rat} {cs : List DCall} (h : Moderate w N M cs) (sc : Scale (2 * M) η B N) :
    ∃ S, Near B (DPrio.after w cs) (prioAfter w.exact (cs.map DCall.exact)) S := by
  refine Near.run h sc cs [] rfl ⟨fun _ => 0, ⟨⟨rfl, rfl, rfl⟩, ⟨fun _ => rfl, fun _ => rfl⟩, fun _ => Rat.le_refl, fun _ _ => sc.b_nonneg, ?_⟩, rfl, rfl⟩
  intro j hj
  have : j < 0 := hj
  omega

end DPrio
end Verif
