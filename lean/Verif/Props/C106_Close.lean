import Verif.Proofs.DPrioClose
import Verif.Props.C106_PrioDouble
/-
C106 for weights that are any numbers: how far rounding moves the chances of the keys.
-/
namespace Verif

/-- C106, weights that are any numbers: after any history of calls the selector works with a total `T'` that differs from the total of the weights by at
most `drift` for every key, and each key has an interval from `a` to `b` whose length is its weight up to `45 * drift`. Up to the same margin, the key is
drawn if `u * T'` is in the interval. The probability that is reported is the double next to weight/T'. (With weights up to a total of a million, `drift` is
about 0.00025 and 45 times of it 0.012, whatever the number of calls and of keys.) -/
theorem C106_close (w : PowD) (N : Nat) (M : Rat) (cs : List DCall) (h : Moderate w N M cs) (l : List Key) (hl : LeavesKeys cs l)
    (hpos : N * drift M < totalOf w cs l) :
    ∃ T' : Rat, 0 < T' ∧ Within T' (totalOf w cs l) (N * drift M) ∧
      ∀ k ∈ l, ∃ a b : Rat, Within (b - a) (weightOf w cs k) (45 * drift M) ∧ ∀ u, UniformDraw u →
        (∀ pr, (DPrio.after w cs).sampleAt u = .ok (k, pr) →
          pr = Dbl.round (weightOf w cs k / T') ∧ a - 45 * drift M ≤ u * T' ∧ u * T' < b + 45 * drift M) ∧
        (a + 45 * drift M ≤ u * T' → u * T' < b - 45 * drift M →
          (DPrio.after w cs).sampleAt u = .ok (k, Dbl.round (weightOf w cs k / T'))) := by
  have hfin : DPrio.Finite cs := DPrio.Moderate.finite h (List.prefix_refl cs)
  obtain ⟨η, B, sc, hd, hroom⟩ := DPrio.Moderate.scale h
  obtain ⟨S, hb⟩ := DPrio.Near.after h sc
  have hl' := (DPrio.enumerates_iff cs hfin l).mpr hl
  obtain ⟨hwf, h2, h3, hsum, hn⟩ := C05.facts w.exact (cs.map DCall.exact) l hl'
  obtain ⟨_, hTM, hnN⟩ := DPrio.Moderate.facts h (List.prefix_refl cs)
  have hT : totalOf w cs l = (prioAfter w.exact (cs.map DCall.exact)).sum 0 := by
    rw [← DPrio.total_eq w cs hfin]
    exact hsum.symm
  have hkey : ∀ k ∈ l, ∃ i, (prioAfter w.exact (cs.map DCall.exact)).index.get? k = some i ∧ i < (prioAfter w.exact (cs.map DCall.exact)).n ∧
      (prioAfter w.exact (cs.map DCall.exact)).keyAt i = k ∧ weightOf w cs k = (prioAfter w.exact (cs.map DCall.exact)).value i := by
    intro k hk
    obtain ⟨en, he⟩ := (hl'.2 k).mp hk
    obtain ⟨i, hi, hin, hkey, hval⟩ := h2 k en he
    refine ⟨i, hi, hin, hkey, ?_⟩
    rw [← DPrio.keyWeight_eq w cs hfin]
    simp [Spec.keyWeight, he, hval]
  rw [hT] at hpos ⊢
  have hfew := h.few
  clear h2 h3 hsum hn hl' hT hfin
  generalize DPrio.after w cs = d at *
  generalize prioAfter w.exact (cs.map DCall.exact) = s at *
  have hX := sc.x_pos
  have he := sc.eta_le
  have he0 := sc.eta_nonneg
  have hB := sc.b_nonneg
  have hdn := hb.toSkel.n
  have h2X := hb.two sc hwf.tree hnN (by grind)
  have hdr : 0 ≤ drift M := by grind
  have hN0 : 0 ≤ (N : Rat) * drift M := Rat.mul_nonneg Rat.natCast_nonneg hdr
  have hs0 : 0 < s.n := by
    by_cases hc : s.n = 0
    · have := hwf.tree.sum_zero 0 (by omega)
      grind
    · omega
  have hnear : Within (S 0) (s.sum 0) (N * drift M) := by
    obtain ⟨q1, q2⟩ := DPrio.near_sum hwf.tree (E := 2 * B) (by grind) (i₀ := 0) (fun j _ => hb.err j) s.n 0 (by omega) (by omega)
    rw [DPrio.kid_lt hs0] at q1 q2
    have q3 : (DPrio.cnt s.n 0 : Rat) * (2 * B) ≤ N * (2 * B) := DPrio.mul_le_of_le (Nat.le_trans (DPrio.cnt_le _ _) hnN) (by grind)
    have q4 : (N : Rat) * (2 * B) ≤ N * drift M := Rat.mul_le_mul_of_nonneg_left (by grind) Rat.natCast_nonneg
    constructor <;> grind
  have hS0 : 0 < S 0 := by
    obtain ⟨q1, q2⟩ := hnear
    grind
  refine ⟨S 0, hS0, hnear, fun k hk => ?_⟩
  obtain ⟨i, hi, hin, hkey, hval⟩ := hkey k hk
  rw [hval]
  have hlen : Within (DPrio.top s.n S i - (DPrio.off s.n S i + DPrio.kid s.n S (2 * i + 1) + DPrio.kid s.n S (2 * i + 2))) (s.value i) (45 * drift M) := by
    obtain ⟨j, j1, j2⟩ := DPrio.top_ge hb.nonneg hwf.tree.value_nonneg hB hb.err i hin
    have hj : j ≤ 43 := (Nat.pow_le_pow_iff_right (by omega : 1 < 2)).mp (by omega)
    have hjB := DPrio.mul_le_of_le (n := j) (N := 43) (E := 2 * B) hj (by grind)
    have : ((43 : Nat) : Rat) = 43 := rfl
    rw [this] at hjB
    have ht := DPrio.top_le_self (n := s.n) (S := S) i
    obtain ⟨g1, g2⟩ := hb.err i hin
    unfold DPrio.gap at g1 g2
    generalize (j : Rat) * (2 * B) = x at *
    generalize DPrio.kid s.n S (2 * i + 1) = L at *
    generalize DPrio.kid s.n S (2 * i + 2) = R at *
    clear h2X hnear hkey hpos hTM hN0
    constructor <;> grind
  refine ⟨_, _, hlen, fun u hu => ?_⟩
  have hu1 : u ≤ 1 := by
    have : (0 : Rat) ≤ 1 / 2 ^ 53 := by decide +kernel
    have := hu.2
    grind
  have hus : u * S 0 ≤ S 0 := by
    have := Rat.mul_le_mul_of_nonneg_right hu1 (Rat.le_of_lt hS0)
    grind
  have hus0 : 0 ≤ u * S 0 := Rat.mul_nonneg hu.1 (Rat.le_of_lt hS0)
  have h20 := h2X 0
  obtain ⟨t, ht, t1, t2⟩ := sc.round (a := u * S 0) ⟨by grind, by grind⟩
  have t0 := Dbl.round_fin_nonneg hus0 ht
  have hmul : (Dbl.fin u).mul (.fin (S 0)) = .fin t := ht
  have hsample : d.sampleAt u = match d.walk 0 (.fin t) with
      | none => .died
      | some j => if j < d.n then .ok (d.keyAt j, (d.value j).div (.fin (S 0))) else .died := by
    unfold DPrio.sampleAt
    rw [if_neg (by omega), hb.has.sum 0, if_neg (by simp only [Dbl.isZero, decide_eq_true_eq]; grind), hmul]
    cases d.walk 0 (.fin t) <;> rfl
  have hdiv : ∀ j, (d.value j).div (.fin (S 0)) = Dbl.round (s.value j / S 0) := by
    intro j
    rw [hb.has.value]
    simp only [Dbl.div]
    rw [if_neg (by grind)]
  rw [hsample]
  constructor
  · intro pr hpr
    cases hw : d.walk 0 (.fin t) with
    | none =>
      rw [hw] at hpr
      cases hpr
    | some g =>
      rw [hw] at hpr
      simp only at hpr
      split at hpr
      · next hg =>
        simp only [Res.ok.injEq, Prod.mk.injEq] at hpr
        obtain ⟨p1, p2⟩ := hpr
        rw [hb.keys] at p1
        have hgi : g = i := by
          have := (hwf.bij k g).mpr ⟨by omega, p1⟩
          rw [hi] at this
          simpa using this.symm
        subst hgi
        rw [hdiv] at p2
        refine ⟨p2.symm, ?_⟩
        have hz : ((0 : Nat) : Rat) = 0 := rfl
        have := hb.has.walk_sound sc hb.nonneg h2X (by omega) (t := u * S 0) (by grind) d.n 0 0 t g (by omega) (by omega) (by omega)
          (by
            rw [DPrio.off_zero, hz]
            constructor <;> grind) t0 (by
            rw [DPrio.top_zero, hz]
            by_cases hpe : η = 0
            · have e1 : 32 * (2 * M) * pow2 (-53) = 0 := sc.eta.trans hpe
              have e2 : 0 < 32 * (2 * M) * pow2 (-53) := Rat.mul_pos (by grind) (pow2_pos _)
              grind
            · grind) hw
        rw [hdn] at this
        obtain ⟨w1, w2⟩ := this
        constructor
        · grind
        · grind
      · cases hpr
  · intro hlo hhi
    have hw := hb.has.walk_ends sc hb.nonneg h2X (by omega) (t := u * S 0) (by grind) ⟨t1, t2⟩ t0 (g := i) (by omega) (by rw [hdn]; grind)
      (by rw [hdn]; grind)
    rw [hw]
    simp only
    rw [if_pos (by omega), hb.keys, hkey, hdiv]

/-- C106: which histories are moderate. All those with keys from a list and weights up to a number `W`, however many calls there are. -/
theorem C106_moderate (w : PowD) (ks : List Key) (W : Rat) (cs : List DCall)
    (hk : ∀ k p, .insert k p ∈ cs → k ∈ ks)
    (h : ∀ c ∈ cs, ∀ p, c.priority = some p → p.accepted = true → ∃ q r, p = .fin q ∧ w.power p = .fin r ∧ r ≤ W)
    (h1 : ks ≠ []) (h2 : ks.length ≤ 2 ^ 43) (h3 : 1 / 2000 ≤ W) (h4 : ks.length * W ≤ pow2 1000) :
    Moderate w ks.length (ks.length * W) cs := by
  have hW : 0 ≤ W := by grind
  refine ⟨?_, List.length_pos_iff.mpr h1, h2, ?_, h4, ?_⟩
  · intro c hc p hp ha
    obtain ⟨q, r, e1, e2, _⟩ := h c hc p hp ha
    exact ⟨q, r, e1, e2⟩
  · have := Rat.mul_le_mul_of_nonneg_left h3 (Rat.natCast_nonneg (a := ks.length))
    grind
  · intro pre hpre l hl
    have hw : ∀ k, weightOf w pre k ≤ W := by
      intro k
      unfold weightOf
      cases hk : holds pre k with
      | none => exact hW
      | some p =>
        rcases C106.holds_from pre (fun _ => none) k p hk with h1 | ⟨⟨c, h2, h3⟩, h4⟩
        · cases h1
        · obtain ⟨q, r, rfl, hz2, hz1⟩ := h c (hpre.subset h2) p h3 h4
          simp only [PowD.weight]
          split
          · exact hW
          · rename_i hq
            have : w.f (.fin q) = .fin r := by
              unfold PowD.power Dbl.isZero at hz2
              rw [if_neg (by simpa using hq)] at hz2
              exact hz2
            rw [this]
            exact hz1
    have hll : l.length ≤ ks.length := by
      apply List.Nodup.length_le_of_subset hl.1
      intro k hk'
      rcases C106.holds_inserted pre (fun _ => none) k ((hl.2 k).mp hk') with h1 | h1
      · cases h1
      · obtain ⟨c, c1, c2⟩ := List.mem_filterMap.mp h1
        cases c <;> simp only [C106.keyOf, Option.some.injEq, reduceCtorEq] at c2
        subst c2
        exact hk _ _ (hpre.subset c1)
    refine ⟨hll, ?_⟩
    have h1 := C106.sum_le hw l
    exact Rat.le_trans h1 (DPrio.mul_le_of_le hll hW)

namespace PrioCloseDemo

/-- Priorities that are not exact in binary, with an update from a large number to a small one. -/
def calls : List DCall :=
  [.insert 1 (Dbl.round (1 / 10)), .insert 2 (Dbl.round (3 / 10)), .insert 3 (.fin 1000), .update 3 (Dbl.round (7 / 10)), .delete 1, .insert 4 .nan]

/-- The double next to a number. -/
def dbl (q : Rat) : Rat := match Dbl.round q with
  | .fin r => r
  | _ => 0

/-- The hypotheses of `C106_close` hold for these calls. -/
theorem moderate : Moderate PrioDoubleDemo.expOne 4 (4 * 1000) calls := by
  refine C106_moderate PrioDoubleDemo.expOne [1, 2, 3, 4] 1000 calls ?_ ?_ (by simp) (by decide) (by decide +kernel) (by decide +kernel)
  · intro k p hc
    simp only [calls, List.mem_cons, DCall.insert.injEq, reduceCtorEq, List.not_mem_nil, or_false, false_or] at hc
    rcases hc with h | h | h | h <;> simp [h.1]
  · have : ∀ c ∈ calls, ∀ p, c.priority = some p → p.accepted = true →
        p = .fin (dbl (1 / 10)) ∨ p = .fin (dbl (3 / 10)) ∨ p = .fin 1000 ∨ p = .fin (dbl (7 / 10)) := by
      have e1 : Dbl.round (1 / 10) = .fin (dbl (1 / 10)) := by decide +kernel
      have e2 : Dbl.round (3 / 10) = .fin (dbl (3 / 10)) := by decide +kernel
      have e3 : Dbl.round (7 / 10) = .fin (dbl (7 / 10)) := by decide +kernel
      intro c hc p hp ha
      simp only [calls, List.mem_cons, List.not_mem_nil, or_false, e1, e2, e3] at hc
      rcases hc with rfl | rfl | rfl | rfl | rfl | rfl <;> simp only [DCall.priority, Option.some.injEq, reduceCtorEq] at hp <;> subst hp <;>
        first | (cases ha; done) | simp
    intro c hc p hp ha
    rcases this c hc p hp ha with rfl | rfl | rfl | rfl
    · exact ⟨_, dbl (1 / 10), rfl, by decide +kernel, by decide +kernel⟩
    · exact ⟨_, dbl (3 / 10), rfl, by decide +kernel, by decide +kernel⟩
    · exact ⟨_, 1000, rfl, by decide +kernel, by decide +kernel⟩
    · exact ⟨_, dbl (7 / 10), rfl, by decide +kernel, by decide +kernel⟩

theorem leaves : LeavesKeys calls [2, 3] := by
  refine ⟨by decide, fun k => ?_⟩
  by_cases h1 : k = 1
  · subst h1; decide +kernel
  by_cases h2 : k = 2
  · subst h2; decide +kernel
  by_cases h3 : k = 3
  · subst h3; decide +kernel
  by_cases h4 : k = 4
  · subst h4; decide +kernel
  simp [holds, calls, Holds.step, h1, h2, h3, h4]

/-- There is enough weight for the theorem, and the sum of the selector is not the exact one. -/
theorem total : 4 * drift (4 * 1000) < totalOf PrioDoubleDemo.expOne calls [2, 3] ∧
    (DPrio.after PrioDoubleDemo.expOne calls).sum 0 ≠ .fin (totalOf PrioDoubleDemo.expOne calls [2, 3]) := by decide +kernel

example : ∃ T' : Rat, 0 < T' ∧ Within T' (totalOf PrioDoubleDemo.expOne calls [2, 3]) (1 / 900) := by
  obtain ⟨T', h1, ⟨h2, h3⟩, _⟩ := C106_close PrioDoubleDemo.expOne 4 (4 * 1000) calls moderate [2, 3] leaves total.1
  have : ((4 : Nat) : Rat) * drift (4 * 1000) ≤ 1 / 900 := by decide +kernel
  exact ⟨T', h1, by grind, by grind⟩

end PrioCloseDemo
end Verif
