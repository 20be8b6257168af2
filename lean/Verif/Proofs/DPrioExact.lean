import Verif.Proofs.DPrio
/-
With weights of few digits the selector computes without rounding.
-/
namespace Verif
open Spec (Call)

/-- Multiples of a power of two. -/
def Grid (e : Int) (q : Rat) : Prop := ∃ z : Int, q = (z : Rat) * pow2 e

theorem Grid.zero (e : Int) : Grid e 0 := ⟨0, by grind⟩

theorem Grid.add {e : Int} {a b : Rat} (ha : Grid e a) (hb : Grid e b) : Grid e (a + b) := by
  obtain ⟨x, rfl⟩ := ha
  obtain ⟨y, rfl⟩ := hb
  exact ⟨x + y, by rw [Rat.intCast_add]; grind⟩

theorem Grid.neg {e : Int} {a : Rat} (ha : Grid e a) : Grid e (-a) := by
  obtain ⟨x, rfl⟩ := ha
  exact ⟨-x, by rw [Rat.intCast_neg]; grind⟩

theorem Grid.sub {e : Int} {a b : Rat} (ha : Grid e a) (hb : Grid e b) : Grid e (a - b) := by
  have := ha.add hb.neg
  rw [Rat.sub_eq_add_neg]
  exact this

theorem Grid.finer {e e' : Int} {a : Rat} (ha : Grid e a) (h : e' ≤ e) : Grid e' a := by
  obtain ⟨x, rfl⟩ := ha
  refine ⟨x * 2 ^ (e - e').toNat, ?_⟩
  rw [show pow2 e = pow2 ((e - e').toNat : Int) * pow2 e' by rw [← pow2_add]; congr 1; omega, pow2_nat, Rat.intCast_mul, Rat.intCast_pow,
    Rat.natCast_pow, ← Rat.mul_assoc]
  rfl

/-- A multiple of a power of two that is not too large is not rounded. -/
theorem Grid.round {e : Int} {a : Rat} (ha : Grid e a) (hl : -1074 ≤ e) (hh : e ≤ 970) (h1 : -pow2 (e + 53) ≤ a) (h2 : a ≤ pow2 (e + 53)) :
    Dbl.round a = .fin a := by
  obtain ⟨z, rfl⟩ := ha
  have hp := pow2_pos e
  have e1 : pow2 (e + 53) = (((2 ^ 53 : Nat) : Int) : Rat) * pow2 e := by
    rw [Rat.intCast_natCast, ← pow2_nat, ← pow2_add]
    congr 1
    omega
  rw [e1] at h1 h2
  have g2 : (z : Rat) ≤ (((2 ^ 53 : Nat) : Int) : Rat) := Rat.le_of_mul_le_mul_right h2 hp
  have g1 : ((-((2 ^ 53 : Nat) : Int) : Int) : Rat) ≤ (z : Rat) := by
    refine Rat.le_of_mul_le_mul_right (c := pow2 e) ?_ hp
    rw [Rat.intCast_neg]
    grind
  have g2' := Rat.intCast_le_intCast.mp g2
  have g1' := Rat.intCast_le_intCast.mp g1
  exact Dbl.round_exact (by omega) (by omega) hl hh

theorem Grid.addD {e : Int} {a b : Rat} (h : Grid e (a + b)) (hl : -1074 ≤ e) (hh : e ≤ 970) (h1 : -pow2 (e + 53) ≤ a + b)
    (h2 : a + b ≤ pow2 (e + 53)) : (Dbl.fin a).add (.fin b) = .fin (a + b) := h.round hl hh h1 h2

theorem Grid.subD {e : Int} {a b : Rat} (h : Grid e (a - b)) (hl : -1074 ≤ e) (hh : e ≤ 970) (h1 : -pow2 (e + 53) ≤ a - b)
    (h2 : a - b ≤ pow2 (e + 53)) : (Dbl.fin a).sub (.fin b) = .fin (a - b) := by
  show Dbl.round (a + -b) = _
  rw [← Rat.sub_eq_add_neg]
  exact h.round hl hh h1 h2

namespace DPrio

/-- The same numbers in both selectors. -/
structure Twin (d : DPrio) (s : Prio) : Prop extends Skel d s where
  sum : ∀ i, d.sum i = .fin (s.sum i)
  value : ∀ i, d.value i = .fin (s.value i)

theorem Twin.nodeSum {d : DPrio} {s : Prio} (h : Twin d s) (i : Nat) : d.nodeSum i = .fin (s.nodeSum i) := by
  unfold DPrio.nodeSum Prio.nodeSum
  rw [h.toSkel.n]
  split
  · exact h.sum i
  · rfl

/-- `UPDATE_SUM` without rounding. -/
theorem Twin.addTo {d : DPrio} {s : Prio} {e : Int} (h : Twin d s) (hl : -1074 ≤ e) (hh : e ≤ 970) {i : Nat} {δ : Rat} (hi : i < s.n)
    (hz : ∀ i, s.n ≤ i → s.sum i = 0) (hnn : ∀ j, j ≠ i → 0 ≤ s.sum j) (hv : 0 ≤ s.value i)
    (hs : ∀ j, Grid e (s.sum j)) (hg : Grid e (s.value i))
    (hM : s.sum i + δ ≤ pow2 (e + 53)) (heq : s.sum i + δ = s.value i + s.sum (2 * i + 1) + s.sum (2 * i + 2)) :
    Twin (d.addTo i (.fin δ)) (s.updateSum i δ).1 ∧ (d.addTo i (.fin δ)).errorAt i = .fin 0 := by
  have h1 := hnn (2 * i + 1) (by omega)
  have h2 := hnn (2 * i + 2) (by omega)
  have g1 := hs (2 * i + 1)
  have g2 := hs (2 * i + 2)
  have gx : Grid e (s.sum i + δ) := by
    rw [heq]
    exact (hg.add g1).add g2
  have hM0 := pow2_pos (e + 53)
  have hadd : (d.sum i).add (.fin δ) = .fin (s.sum i + δ) := by
    rw [h.sum i]
    exact gx.addD hl hh (by grind) hM
  have hcl : clamped ((d.sum i).add (.fin δ)) = .fin (s.sum i + δ) := by
    rw [hadd]
    unfold clamped
    rw [if_neg]
    simp only [Dbl.lt, decide_eq_true_eq]
    grind
  have ht : Twin (d.addTo i (.fin δ)) (s.updateSum i δ).1 := by
    rw [Prio.updateSum_eq hi hz hnn hv heq]
    refine ⟨⟨h.cap, h.keys, h.index⟩, fun j => ?_, h.value⟩
    unfold DPrio.addTo
    simp only
    split
    · exact hcl
    · exact h.sum j
  refine ⟨ht, ?_⟩
  have n1 : (d.addTo i (.fin δ)).nodeSum (2 * i + 1) = .fin (s.sum (2 * i + 1)) := by
    have e1 : 2 * i + 1 ≠ i := by omega
    unfold DPrio.nodeSum DPrio.n
    rw [(addTo_same d i _).index]
    have hn : d.index.size = s.n := h.toSkel.n
    rw [hn]
    split
    · show (if 2 * i + 1 = i then _ else d.sum (2 * i + 1)) = _
      rw [if_neg e1, h.sum]
    · rw [hz _ (by omega)]
  have n2 : (d.addTo i (.fin δ)).nodeSum (2 * i + 2) = .fin (s.sum (2 * i + 2)) := by
    have e1 : 2 * i + 2 ≠ i := by omega
    unfold DPrio.nodeSum DPrio.n
    rw [(addTo_same d i _).index]
    have hn : d.index.size = s.n := h.toSkel.n
    rw [hn]
    split
    · show (if 2 * i + 2 = i then _ else d.sum (2 * i + 2)) = _
      rw [if_neg e1, h.sum]
    · rw [hz _ (by omega)]
  have n3 : (d.addTo i (.fin δ)).sum i = .fin (s.sum i + δ) := by
    show (if i = i then _ else _) = _
    rw [if_pos rfl, hcl]
  have n4 : (d.addTo i (.fin δ)).value i = .fin (s.value i) := h.value i
  unfold errorAt
  rw [n1, n2, n3, n4, (gx.sub g1).subD hl hh (by grind) (by grind), ((gx.sub g1).sub g2).subD hl hh (by grind) (by grind),
    (((gx.sub g1).sub g2).sub hg).subD hl hh (by grind) (by grind)]
  have e0 : s.sum i + δ - s.sum (2 * i + 1) - s.sum (2 * i + 2) - s.value i = 0 := by grind
  rw [e0]
  rfl

theorem zero_le_maxError : (Dbl.fin 0).le maxError = true := by decide +kernel

theorem maxError_lt_zero : maxError.lt (.fin 0) = false := by decide +kernel

theorem Twin.updateParents {e : Int} (hl : -1074 ≤ e) (hh : e ≤ 970) {δ : Rat} (i : Nat) : ∀ {d : DPrio} {s : Prio}, Twin d s →
    Prio.Pending s i δ → (∀ j, Grid e (s.sum j)) → (∀ j, Grid e (s.value j)) → (∀ j, j < i → s.sum j + δ ≤ pow2 (e + 53)) →
    Twin (d.updateParents (.fin 0) i (.fin δ)).1 (s.updateParents 0 i δ).1 ∧ (d.updateParents (.fin 0) i (.fin δ)).2 = .fin 0 := by
  induction i using Nat.strongRecOn with
  | _ i ih =>
  intro d s h hp hs hg hM
  unfold DPrio.updateParents Prio.updateParents
  by_cases h0 : i = 0
  · subst h0
    simp only [ne_eq, not_true_eq_false, false_and, dite_false]
    exact ⟨h, trivial⟩
  · have hc : i ≠ 0 ∧ (Dbl.fin 0).le maxError = true := ⟨h0, zero_le_maxError⟩
    have hc' : i ≠ 0 ∧ (0 : Rat) ≤ Prio.maxError := ⟨h0, by decide +kernel⟩
    rw [dif_pos hc, dif_pos hc']
    have hlt := hp.lt
    have hoff := hp.off _ h0 rfl
    obtain ⟨t1, t2⟩ := h.addTo hl hh (i := (i - 1) / 2) (by omega) hp.sum_zero (fun j _ => hp.sum_nonneg j) (hp.value_nonneg _) hs (hg _)
      (hM _ (by omega)) hoff
    have hu := Prio.updateSum_eq (d := δ) (i := (i - 1) / 2) (s := s) (by omega) hp.sum_zero (fun j _ => hp.sum_nonneg j)
      (hp.value_nonneg _) hoff
    rw [t2]
    rw [hu] at t1 ⊢
    have hpp := Prio.pending_parent h0 hp
    refine ih ((i - 1) / 2) (by omega) t1 hpp ?_ hg ?_
    · intro j
      simp only
      split
      · rw [hoff]
        exact ((hg _).add (hs _)).add (hs _)
      · exact hs j
    · intro j hj
      have : j ≠ (i - 1) / 2 := by omega
      simp only [this, if_false]
      exact hM j (by omega)

/-- The sums of a tree with weights on a grid are on the grid. -/
theorem grid_sums {s : Prio} (h : Prio.Tree s) {e : Int} (hg : ∀ j, Grid e (s.value j)) : ∀ (m i : Nat), s.n ≤ i + m → Grid e (s.sum i) := by
  intro m
  induction m with
  | zero =>
    intro i hi
    rw [h.sum_zero i hi]
    exact Grid.zero e
  | succ m ih =>
    intro i hi
    rw [h.eq i]
    exact ((hg i).add (ih _ (by omega))).add (ih _ (by omega))

/-- No sum exceeds the total. -/
theorem sum_le_total {s : Prio} (h : Prio.Tree s) (i : Nat) : s.sum i ≤ s.sum 0 := by
  induction i using Nat.strongRecOn with
  | _ i ih =>
  by_cases h0 : i = 0
  · subst h0
    exact Rat.le_refl
  · have h1 := ih ((i - 1) / 2) (by omega)
    have h2 := h.eq ((i - 1) / 2)
    have h3 := h.value_nonneg ((i - 1) / 2)
    have h4 := h.sum_nonneg (2 * ((i - 1) / 2) + 1)
    have h5 := h.sum_nonneg (2 * ((i - 1) / 2) + 2)
    have : i = 2 * ((i - 1) / 2) + 1 ∨ i = 2 * ((i - 1) / 2) + 2 := by omega
    rcases this with hc | hc
    · rw [← hc] at h2 h4
      grind
    · rw [← hc] at h2 h5
      grind

theorem value_le_total {s : Prio} (h : Prio.Tree s) (i : Nat) : s.value i ≤ s.sum 0 := by
  have h1 := sum_le_total h i
  have h2 := h.eq i
  have h4 := h.sum_nonneg (2 * i + 1)
  have h5 := h.sum_nonneg (2 * i + 2)
  grind

/-- `SetNode` without rounding. -/
theorem Twin.setNode {d : DPrio} {s : Prio} {e : Int} (h : Twin d s) (ht : Prio.Tree s) (hl : -1074 ≤ e) (hh : e ≤ 970) {i : Nat} {v : Rat}
    (hi : i < s.n) (hv : 0 ≤ v) (hgv : Grid e v) (hg : ∀ j, Grid e (s.value j)) (h1 : s.sum 0 ≤ pow2 (e + 53)) (h2 : v ≤ pow2 (e + 53))
    (h3 : s.sum 0 + (v - s.value i) ≤ pow2 (e + 53)) : Twin (d.setNode i (.fin v)) (s.setNode i v) := by
  have hs : ∀ j, Grid e (s.sum j) := fun j => grid_sums ht hg s.n j (by omega)
  have hvi := ht.value_nonneg i
  have hvt := value_le_total ht i
  have hdiff : (Dbl.fin v).sub (d.value i) = .fin (v - s.value i) := by
    rw [h.value i]
    exact (hgv.sub (hg i)).subD hl hh (by grind) (by grind)
  have hst := sum_le_total ht i
  have htw : Twin { d with value := fun j => if j = i then .fin v else d.value j }
      { s with value := fun j => if j = i then v else s.value j } := by
    refine ⟨⟨h.cap, h.keys, h.index⟩, h.sum, fun j => ?_⟩
    simp only
    split
    · rfl
    · exact h.value j
  have heq : s.sum i + (v - s.value i) = v + s.sum (2 * i + 1) + s.sum (2 * i + 2) := by
    have := ht.eq i
    grind
  obtain ⟨t1, t2⟩ := htw.addTo (e := e) hl hh (i := i) (δ := v - s.value i) hi ht.sum_zero (fun j _ => ht.sum_nonneg j)
    (by simpa using hv) hs (by simpa using hgv) (show s.sum i + _ ≤ _ by grind) (by simpa using heq)
  have hu := Prio.updateSum_eq (d := v - s.value i) (i := i) (s := { s with value := fun j => if j = i then v else s.value j }) hi ht.sum_zero
    (fun j _ => ht.sum_nonneg j) (by simpa using hv) (by simpa using heq)
  have hp := Prio.pending_start hi hv ht
  rw [hu] at t1
  have hgs : ∀ j, Grid e ((fun j => if j = i then s.sum i + (v - s.value i) else s.sum j) j) := by
    intro j
    simp only
    split
    · rw [heq]
      exact (hgv.add (hs _)).add (hs _)
    · exact hs j
  have hgv' : ∀ j, Grid e ((fun j => if j = i then v else s.value j) j) := by
    intro j
    simp only
    split
    · exact hgv
    · exact hg j
  obtain ⟨q1, q2⟩ := Twin.updateParents hl hh i t1 hp hgs hgv' (fun j hj => by
    have : j ≠ i := by omega
    simp only [this, if_false]
    have := sum_le_total ht j
    grind)
  have hpath : d.pathSums i (.fin v) = (({ d with value := fun j => if j = i then .fin v else d.value j } : DPrio).addTo i
      (.fin (v - s.value i))).updateParents (.fin 0) i (.fin (v - s.value i)) := by
    unfold pathSums
    simp only [hdiff, t2]
  unfold DPrio.setNode
  rw [hpath, q2, maxError_lt_zero]
  simp only [Bool.false_eq_true, if_false]
  obtain ⟨f, hf, _⟩ := Prio.updateParents_ok rfl hp
  have hset : s.setNode i v = (Prio.updateParents { s with
      value := fun j => if j = i then v else s.value j
      sum := fun j => if j = i then s.sum i + (v - s.value i) else s.sum j } 0 i (v - s.value i)).1 := by
    simp only [Prio.setNode]
    rw [hu]
    simp only
    rw [hf]
    have : ¬ (Prio.maxError < (0 : Rat)) := by decide +kernel
    simp [this]
  rw [hset]
  exact q1

end DPrio

/-- The total after `SetNode`. -/
theorem DPrio.setNode_total {s : Prio} (h : Prio.Tree s) {i : Nat} {v : Rat} (hi : i < s.n) (hv : 0 ≤ v) :
    (s.setNode i v).sum 0 = s.sum 0 + (v - s.value i) := by
  obtain ⟨f, hf, ht⟩ := Prio.setNode_ok hi hv h
  have h1 := Prio.order_sum h 0
  have h2 := Prio.order_sum ht 0
  rw [hf]
  show f 0 = _
  have h3 : Prio.wsum (fun j => if j = i then v else s.value j) (Prio.order s.n 0) = f 0 := h2
  rw [← h3, ← h1]
  have hmem : i ∈ Prio.order s.n 0 := Prio.mem_order_zero.mpr hi
  have hnd := Prio.order_nodup s.n 0
  generalize Prio.order s.n 0 = l at *
  clear h1 h2 h3
  induction l with
  | nil => cases hmem
  | cons x l ih =>
    simp only [Prio.wsum]
    obtain ⟨n1, n2⟩ := List.nodup_cons.mp hnd
    by_cases hx : x = i
    · subst hx
      have : Prio.wsum (fun j => if j = x then v else s.value j) l = Prio.wsum s.value l := by
        clear ih hmem hnd n2
        induction l with
        | nil => rfl
        | cons y l ih =>
          have hy : y ≠ x := fun hc => n1 (by simp [hc])
          simp only [Prio.wsum, hy, if_false]
          rw [ih (fun hc => n1 (by simp [hc]))]
      rw [this]
      simp only [if_true]
      grind
    · rw [if_neg hx, ih (by simpa [Ne.symm hx] using hmem) n2]
      grind

/-- The priority in exact arithmetic; what is not accepted stays so. -/
def Dbl.exact : Dbl → Pri
  | .fin q => .val q
  | _ => .nan

/-- The call in exact arithmetic. -/
def DCall.exact : DCall → Call
  | .insert k p => .insert k p.exact
  | .update k p => .update k p.exact
  | .delete k => .delete k
  | .clear => .clear

/-- `std::pow` as a function of rationals. -/
def PowD.exact (w : PowD) : PowFn where
  f q := match w.f (.fin q) with
    | .fin r => r
    | _ => 0
  nonneg q h := by
    have := w.nonneg (.fin q) (Rat.le_of_lt h)
    cases hf : w.f (.fin q) with
    | fin r =>
      rw [hf] at this
      exact this
    | _ => exact Rat.le_refl

theorem PowD.exact_power {w : PowD} {q v : Rat} (h : w.power (.fin q) = .fin v) : w.exact.power q = v := by
  unfold PowD.power Dbl.isZero at h
  unfold PowFn.power PowD.exact
  by_cases h0 : q = 0
  · rw [if_pos (by simpa using h0)] at h
    rw [if_pos h0]
    simpa using h
  · rw [if_neg (by simpa using h0)] at h
    rw [if_neg h0]
    simp only [h]

namespace DPrio

theorem tree_of {s s' : Prio} (h : Prio.Tree s) (h1 : s'.sum = s.sum) (h2 : s'.value = s.value) (h3 : s.n ≤ s'.n) : Prio.Tree s' := by
  refine ⟨?_, ?_, ?_, ?_, ?_⟩
  · rw [h1, h2]; exact h.eq
  · rw [h2]; exact h.value_nonneg
  · rw [h1]; exact h.sum_nonneg
  · intro i hi; rw [h2]; exact h.value_zero i (by omega)
  · intro i hi; rw [h1]; exact h.sum_zero i (by omega)

/-- The relation between both selectors in a history with weights of few digits. -/
structure Both (w : PowD) (e : Int) (d : DPrio) (s : Prio) : Prop extends Twin d s where
  dpow : d.pow = w
  spow : s.pow = w.exact
  grid : ∀ i, Grid e (s.value i)

theorem pow53 (e : Int) : pow2 (e + 53) = 2 * pow2 (e + 52) := by
  rw [show e + 53 = e + 52 + 1 by omega, pow2_succ]

theorem Both.step {w : PowD} {e : Int} {d : DPrio} {s : Prio} (h : Both w e d s) (hwf : Prio.WF s) (hl : -1074 ≤ e) (hh : e ≤ 970) (c : DCall)
    (hc : ∀ p, c.priority = some p → p.accepted = true → ∃ q, p = .fin q ∧ ∃ z : Nat, w.power p = .fin (z * pow2 e))
    (h1 : s.sum 0 ≤ pow2 (e + 52)) (hwf' : Prio.WF (s.apply c.exact).1) (h2 : (s.apply c.exact).1.sum 0 ≤ pow2 (e + 52)) :
    Both w e (d.apply c).1 (s.apply c.exact).1 ∧ (d.apply c).2 = (s.apply c.exact).2 := by
  have hn := h.toSkel.n
  have hB := pow53 e
  have hBp := pow2_pos (e + 52)
  have hval : ∀ p : Dbl, p.accepted = true → ∀ q, p = .fin q → 0 ≤ q := by
    rintro p hp q rfl
    simpa [Dbl.accepted] using hp
  have hrej : ∀ p : Dbl, p.accepted = false → Prio.checkPriority p.exact = none := by
    intro p hp
    cases p with
    | fin q =>
      simp only [Dbl.accepted, decide_eq_false_iff_not] at hp
      simp only [Dbl.exact, Prio.checkPriority]
      rw [if_pos (by grind)]
    | pinf => cases hp
    | _ => rfl
  cases c with
  | insert k p =>
    by_cases ha : p.accepted = true
    · obtain ⟨q, rfl, z, hz⟩ := hc p rfl ha
      have hq := hval _ ha q rfl
      have hpw : s.pow.power q = z * pow2 e := by
        rw [h.spow]
        exact PowD.exact_power hz
      have hcp : Prio.checkPriority (.val q) = some q := by simp [Prio.checkPriority]; grind
      have hg : Twin d.grown (if s.n = s.capacity then { s with capacity := s.capacity * 2 } else s) := by
        unfold grown
        rw [hn, h.cap]
        split
        · exact ⟨⟨rfl, h.keys, h.index⟩, h.sum, h.value⟩
        · exact h.toTwin
      have hgp : d.grown.pow = d.pow := by unfold grown; split <;> rfl
      cases hget : s.index.get? k with
      | some i =>
        simp only [DPrio.apply, DPrio.insert, DCall.exact, Dbl.exact, Prio.apply, Prio.insert, validPriority_eq, ha, if_true, hcp, h.index]
        have hi : (if s.n = s.capacity then { s with capacity := s.capacity * 2 } else s : Prio).index = s.index := by split <;> rfl
        have hv : (if s.n = s.capacity then { s with capacity := s.capacity * 2 } else s : Prio).value = s.value := by split <;> rfl
        have hp : (if s.n = s.capacity then { s with capacity := s.capacity * 2 } else s : Prio).pow = s.pow := by split <;> rfl
        generalize (if s.n = s.capacity then { s with capacity := s.capacity * 2 } else s : Prio) = s' at *
        rw [hi, hget]
        exact ⟨⟨hg, hgp.trans h.dpow, hp.trans h.spow, by rw [hv]; exact h.grid⟩, rfl⟩
      | none =>
        obtain ⟨f, cap, he, _⟩ := Prio.insert_ok hwf hq hget
        have happ : s.apply (DCall.insert k (.fin q)).exact = s.insert k (.val q) := rfl
        rw [happ] at hwf' h2 ⊢
        have hvz : 0 ≤ (z : Rat) * pow2 e := by rw [← hpw]; exact s.pow.power_nonneg hq
        have hvB : (z : Rat) * pow2 e ≤ pow2 (e + 52) := by
          have := value_le_total hwf'.tree s.n
          rw [he] at this h2
          simp only [if_true, hpw] at this
          exact Rat.le_trans this h2
        have hgrid : ∀ i, Grid e ((s.insert k (.val q)).1.value i) := by
          intro i
          rw [he]
          simp only
          split
          · rw [hpw]
            exact ⟨z, by rw [Rat.intCast_natCast]⟩
          · exact h.grid i
        have hp' : (s.insert k (.val q)).1.pow = s.pow := by rw [he]
        have hsz : (s.index.insert k s.n).size = s.n + 1 := AMap.size_insert_of_none _ hget
        have hrep : (s.insert k (.val q)).2 = .ok () := by rw [he]
        simp only [DPrio.apply, DPrio.insert, validPriority_eq, ha, if_true, h.index, hget]
        have hcapE : d.grown.capacity = (if s.n = s.capacity then { s with capacity := s.capacity * 2 } else s : Prio).capacity := hg.cap
        have hlt : d.n < d.grown.capacity := by
          rw [hcapE, hn]
          have c1 := hwf.cap
          have c2 := hwf.cap_pos
          split
          · show s.n < s.capacity * 2
            omega
          · omega
        rw [if_pos hlt]
        refine ⟨⟨?_, ?_, hp'.trans h.spow, hgrid⟩, hrep.symm⟩
        · have hins : (s.insert k (.val q)).1 = Prio.setNode { (if s.n = s.capacity then { s with capacity := s.capacity * 2 } else s : Prio) with
              index := s.index.insert k s.n
              keyAt := fun j => if j = s.n then k else s.keyAt j } s.n (s.pow.power q) := by
            have hlt' : s.n < (if s.n = s.capacity then { s with capacity := s.capacity * 2 } else s : Prio).capacity := by
              rw [← hcapE, ← hn]
              exact hlt
            have hi : (if s.n = s.capacity then { s with capacity := s.capacity * 2 } else s : Prio).index = s.index := by split <;> rfl
            have hk : (if s.n = s.capacity then { s with capacity := s.capacity * 2 } else s : Prio).keyAt = s.keyAt := by split <;> rfl
            have hp : (if s.n = s.capacity then { s with capacity := s.capacity * 2 } else s : Prio).pow = s.pow := by split <;> rfl
            simp only [Prio.insert, hcp]
            generalize (if s.n = s.capacity then { s with capacity := s.capacity * 2 } else s : Prio) = s' at *
            rw [hi, hget]
            simp only
            rw [if_pos hlt', hk, hp]
          rw [hins, hpw, h.dpow, hz]
          have hs1 : (if s.n = s.capacity then { s with capacity := s.capacity * 2 } else s : Prio).sum = s.sum := by split <;> rfl
          have hs2 : (if s.n = s.capacity then { s with capacity := s.capacity * 2 } else s : Prio).value = s.value := by split <;> rfl
          generalize (if s.n = s.capacity then { s with capacity := s.capacity * 2 } else s : Prio) = s' at *
          rw [hn]
          refine Twin.setNode (e := e) (d := { d.grown with
              keyAt := fun j => if j = s.n then k else d.keyAt j
              index := s.index.insert k s.n }) (s := { s' with index := s.index.insert k s.n, keyAt := fun j => if j = s.n then k else s.keyAt j })
            ⟨⟨hg.cap, by simp only [h.keys], rfl⟩, hg.sum, hg.value⟩ (tree_of hwf.tree hs1 hs2 ?_) hl hh ?_ hvz
            ⟨z, by rw [Rat.intCast_natCast]⟩ ?_ ?_ ?_ ?_
          · show s.n ≤ (s.index.insert k s.n).size
            omega
          · show s.n < (s.index.insert k s.n).size
            omega
          · intro j
            show Grid e (s'.value j)
            rw [hs2]
            exact h.grid j
          · show s'.sum 0 ≤ _
            rw [hs1]
            grind
          · grind
          · show s'.sum 0 + (_ - s'.value s.n) ≤ _
            rw [hs1, hs2]
            have := hwf.tree.value_nonneg s.n
            grind
        · rw [(setNode_same _ _ _).1.pow]
          exact hgp.trans h.dpow
    · have ha : p.accepted = false := by simpa using ha
      simp only [DPrio.apply, DPrio.insert, DCall.exact, Prio.apply, Prio.insert, validPriority_eq, ha, hrej p ha]
      exact ⟨h, rfl⟩
  | update k p =>
    by_cases ha : p.accepted = true
    · obtain ⟨q, rfl, z, hz⟩ := hc p rfl ha
      have hq := hval _ ha q rfl
      have hpw : s.pow.power q = z * pow2 e := by
        rw [h.spow]
        exact PowD.exact_power hz
      have hcp : Prio.checkPriority (.val q) = some q := by simp [Prio.checkPriority]; grind
      cases hget : s.index.get? k with
      | none =>
        simp only [DPrio.apply, DPrio.update, DCall.exact, Dbl.exact, Prio.apply, Prio.update, validPriority_eq, ha, if_true, hcp, h.index, hget]
        exact ⟨h, trivial⟩
      | some i =>
        obtain ⟨f, he, _⟩ := Prio.update_ok hwf hq hget
        have happ : s.apply (DCall.update k (.fin q)).exact = s.update k (.val q) := rfl
        have hup : s.update k (.val q) = (s.setNode i (s.pow.power q), .ok ()) := by simp [Prio.update, hcp, hget]
        rw [happ] at hwf' h2 ⊢
        have hvz : 0 ≤ (z : Rat) * pow2 e := by rw [← hpw]; exact s.pow.power_nonneg hq
        have hvB : (z : Rat) * pow2 e ≤ pow2 (e + 52) := by
          have := value_le_total hwf'.tree i
          rw [he] at this h2
          simp only [if_true, hpw] at this
          exact Rat.le_trans this h2
        have hgrid : ∀ i, Grid e ((s.update k (.val q)).1.value i) := by
          intro j
          rw [he]
          simp only
          split
          · rw [hpw]
            exact ⟨z, by rw [Rat.intCast_natCast]⟩
          · exact h.grid j
        have hp' : (s.update k (.val q)).1.pow = s.pow := by rw [he]
        simp only [DPrio.apply, DPrio.update, validPriority_eq, ha, if_true, h.index, hget]
        refine ⟨⟨?_, ?_, hp'.trans h.spow, hgrid⟩, by rw [hup]⟩
        · rw [hup, hpw, h.dpow, hz]
          refine h.toTwin.setNode hwf.tree hl hh ((hwf.bij k i).mp hget).1 hvz ⟨z, by rw [Rat.intCast_natCast]⟩ h.grid (by grind) (by grind) ?_
          have := hwf.tree.value_nonneg i
          grind
        · rw [(setNode_same _ _ _).1.pow]
          exact h.dpow
    · have ha : p.accepted = false := by simpa using ha
      simp only [DPrio.apply, DPrio.update, DCall.exact, Prio.apply, Prio.update, validPriority_eq, ha, hrej p ha]
      exact ⟨h, rfl⟩
  | delete k =>
    have happ : s.apply (DCall.delete k).exact = s.delete k := rfl
    rw [happ] at hwf' h2 ⊢
    cases hget : s.index.get? k with
    | none =>
      simp only [DPrio.apply, DPrio.delete, Prio.delete, h.index, hget]
      exact ⟨h, trivial⟩
    | some i =>
      obtain ⟨s', he, _, hpow', ⟨f, hdel⟩, _, _⟩ := Prio.delete_ok hwf hget
      have hi := ((hwf.bij k i).mp hget).1
      have hgrid : ∀ j, Grid e ((s.delete k).1.value j) := by
        intro j
        rw [he, hdel]
        unfold Prio.deleted
        split
        · simp only
          split
          · exact Grid.zero e
          · exact h.grid j
        · simp only
          split
          · exact Grid.zero e
          · split
            · exact h.grid _
            · exact h.grid j
      have hrep : (s.delete k).2 = .ok () := by rw [he]
      have hp' : (s.delete k).1.pow = s.pow := by rw [he]; exact hpow'
      simp only [DPrio.apply, DPrio.delete, h.index, hget]
      refine ⟨⟨?_, ?_, hp'.trans h.spow, hgrid⟩, hrep.symm⟩
      · -- the intermediate state
        have hlast := value_le_total hwf.tree (s.n - 1)
        have hlast0 := hwf.tree.value_nonneg (s.n - 1)
        have hi0 := hwf.tree.value_nonneg i
        obtain ⟨g, hg, htg⟩ := Prio.setNode_ok (i := i) (v := s.value (s.n - 1)) hi hlast0 hwf.tree
        have hmid : ∃ s1 : Prio, (s.delete k).1 = { s1.setNode (s.n - 1) 0 with index := s1.index.erase k } ∧ Twin (d.replaceByLast i) s1 ∧
            Prio.Tree s1 ∧ s1.n = s.n ∧ (∀ j, Grid e (s1.value j)) ∧ s1.sum 0 ≤ pow2 (e + 53) := by
          have hlk : s.index.get? (s.keyAt (s.n - 1)) = some (s.n - 1) := (hwf.bij _ _).mpr ⟨by omega, rfl⟩
          by_cases hil : i = s.n - 1
          · refine ⟨s, ?_, ?_, hwf.tree, rfl, h.grid, by grind⟩
            · simp only [Prio.delete, hget]
              rw [if_neg (by simpa using hil)]
              rw [(Prio.setNode_same s (s.n - 1) 0).index]
            · unfold replaceByLast
              rw [hn, if_neg (by simpa using hil)]
              exact h.toTwin
          · have htw : Twin (d.setNode i (d.value (s.n - 1))) (s.setNode i (s.value (s.n - 1))) := by
              rw [h.value]
              exact h.toTwin.setNode hwf.tree hl hh hi hlast0 (h.grid _) h.grid (by grind) (by grind) (by grind)
            have hsame := Prio.setNode_same s i (s.value (s.n - 1))
            have hsz1 : (s.index.insert (s.keyAt (s.n - 1)) i).size = s.n := AMap.size_insert_of_some _ hlk
            refine ⟨{ s.setNode i (s.value (s.n - 1)) with
              keyAt := fun j => if j = i then s.keyAt (s.n - 1) else s.keyAt j
              index := s.index.insert (s.keyAt (s.n - 1)) i }, ?_, ?_, ?_, ?_, ?_, ?_⟩
            · simp only [Prio.delete, hget]
              rw [if_pos hil]
              simp only [hsame.keys, hsame.index]
              rw [(Prio.setNode_same _ (s.n - 1) 0).index]
            · unfold replaceByLast
              rw [hn, if_pos hil]
              exact ⟨⟨htw.cap, by simp only [h.keys], by simp only [h.keys, h.index]⟩, htw.sum, htw.value⟩
            · refine tree_of (s := s.setNode i (s.value (s.n - 1))) (by rw [hg]; exact htg) rfl rfl ?_
              show (s.setNode i (s.value (s.n - 1))).index.size ≤ _
              rw [hsame.index]
              show s.n ≤ (s.index.insert (s.keyAt (s.n - 1)) i).size
              omega
            · exact hsz1
            · intro j
              show Grid e ((s.setNode i (s.value (s.n - 1))).value j)
              rw [hg]
              simp only
              split
              · exact h.grid _
              · exact h.grid j
            · show (s.setNode i (s.value (s.n - 1))).sum 0 ≤ _
              have := setNode_total hwf.tree hi hlast0
              grind
        obtain ⟨s1, m1, m2, m3, m4, m5, m6⟩ := hmid
        rw [m1, hn]
        have m7 := m3.value_nonneg (s.n - 1)
        have := Twin.setNode m2 m3 hl hh (i := s.n - 1) (v := 0) (by omega) Rat.le_refl (Grid.zero e) m5 m6 (by grind) (by grind)
        exact ⟨⟨this.cap, this.keys, by simp only [m2.index]⟩, this.sum, this.value⟩
      · show ((d.replaceByLast i).setNode (d.n - 1) (.fin 0)).pow = w
        rw [(setNode_same _ _ _).1.pow]
        unfold replaceByLast
        split
        · show (d.setNode _ _).pow = w
          rw [(setNode_same _ _ _).1.pow]
          exact h.dpow
        · exact h.dpow
  | clear =>
    refine ⟨⟨⟨⟨h.cap, h.keys, rfl⟩, fun j => ?_, fun j => ?_⟩, h.dpow, h.spow, fun j => ?_⟩, rfl⟩
    · simp only [DPrio.apply, DPrio.clear, DCall.exact, Prio.apply, Prio.clear, hn]
      split
      · rfl
      · exact h.sum j
    · simp only [DPrio.apply, DPrio.clear, DCall.exact, Prio.apply, Prio.clear, hn]
      split
      · rfl
      · exact h.value j
    · simp only [DCall.exact, Prio.apply, Prio.clear]
      split
      · exact Grid.zero e
      · exact h.grid j

/-- Accepted priorities are finite. -/
def Finite (cs : List DCall) : Prop := ∀ c ∈ cs, ∀ p : Dbl, c.priority = some p → p.accepted = true → ∃ q, p = .fin q

theorem book_exact (cs : List DCall) (hf : Finite cs) : ∀ (t : Nat) (b : Spec.Book) (h : Holds),
    (∀ k, (b k).map (·.pri) = (h k).map Dbl.exact) → ∀ k,
    (Spec.Book.runFrom Spec.acceptNonneg t b (cs.map DCall.exact) k).map (·.pri) = (cs.foldl Holds.step h k).map Dbl.exact := by
  induction cs with
  | nil => intro t b h hb k; exact hb k
  | cons c cs ih =>
    intro t b h hb k
    refine ih (fun c hc => hf c (by simp [hc])) (t + 1) _ _ (fun k' => ?_) k
    have ha : ∀ p : Dbl, c.priority = some p → Spec.acceptNonneg p.exact = p.accepted := by
      intro p hp
      cases p with
      | fin q => simp [Spec.acceptNonneg, Dbl.exact, Dbl.accepted]
      | pinf =>
        obtain ⟨q, hq⟩ := hf c (by simp) _ hp rfl
        cases hq
      | _ => rfl
    have hnone : ∀ k, b k = none ↔ h k = none := by
      intro k
      have := hb k
      cases h1 : b k <;> cases h2 : h k <;> simp_all
    cases c with
    | insert k0 p =>
      simp only [DCall.exact, Spec.Book.step, Holds.step, ha p rfl, hnone]
      split
      · rfl
      · exact hb k'
    | update k0 p =>
      simp only [DCall.exact, Spec.Book.step, Holds.step, ha p rfl]
      by_cases hk : k' = k0
      · subst hk
        cases hp : p.accepted
        · simp [hb]
        · have := hb k'
          cases h1 : b k' <;> cases h2 : h k' <;> simp_all
      · simp [hk, hb]
    | delete k0 =>
      simp only [DCall.exact, Spec.Book.step, Holds.step]
      split
      · rfl
      · exact hb k'
    | clear => rfl

theorem book_of (cs : List DCall) (hf : Finite cs) (k : Key) :
    (Spec.book Spec.acceptNonneg (cs.map DCall.exact) k).map (·.pri) = (holds cs k).map Dbl.exact :=
  book_exact cs hf 0 _ _ (fun _ => rfl) k

theorem enumerates_iff (cs : List DCall) (hf : Finite cs) (l : List Key) : Spec.Enumerates l (cs.map DCall.exact) ↔ LeavesKeys cs l := by
  unfold Spec.Enumerates LeavesKeys
  have : ∀ k, (∃ e, Spec.book Spec.acceptNonneg (cs.map DCall.exact) k = some e) ↔ (holds cs k).isSome := by
    intro k
    have := book_of cs hf k
    cases h1 : Spec.book Spec.acceptNonneg (cs.map DCall.exact) k <;> cases h2 : holds cs k <;> simp_all
  simp only [this]

theorem keyWeight_eq (w : PowD) (cs : List DCall) (hf : Finite cs) (k : Key) : Spec.keyWeight w.exact (cs.map DCall.exact) k = weightOf w cs k := by
  unfold Spec.keyWeight weightOf
  have := book_of cs hf k
  cases h1 : Spec.book Spec.acceptNonneg (cs.map DCall.exact) k with
  | none =>
    cases h2 : holds cs k with
    | none => rfl
    | some p => simp_all
  | some en =>
    cases h2 : holds cs k with
    | none => simp_all
    | some p =>
      rw [h1, h2] at this
      simp only [Option.map_some, Option.some.injEq] at this
      simp only [Spec.weight, this]
      cases p with
      | fin q => rfl
      | _ => rfl

theorem total_eq (w : PowD) (cs : List DCall) (hf : Finite cs) (l : List Key) : Spec.total w.exact (cs.map DCall.exact) l = totalOf w cs l := by
  unfold Spec.total totalOf
  congr 1
  apply List.map_congr_left
  intro k _
  exact keyWeight_eq w cs hf k

theorem leaves_exists (cs : List DCall) : ∃ l, LeavesKeys cs l := by
  let w : PowD := ⟨fun _ => .fin 0, fun _ _ => Rat.le_refl⟩
  refine ⟨(DPrio.after w cs).index.keys, AMap.keys_nodup _, fun k => ?_⟩
  rw [AMap.mem_keys_iff, ← (keys_of w cs).2.1 k, Option.isSome_iff_exists]

theorem Both.run {w : PowD} {e : Int} {cs : List DCall} (h : FewDigits w e cs) : ∀ (suf pre : List DCall), pre ++ suf = cs →
    Both w e (DPrio.after w pre) (prioAfter w.exact (pre.map DCall.exact)) →
    Both w e (DPrio.after w cs) (prioAfter w.exact (cs.map DCall.exact)) := by
  intro suf
  induction suf with
  | nil =>
    intro pre hp hb
    rw [List.append_nil] at hp
    subst hp
    exact hb
  | cons c suf ih =>
    intro pre hp hb
    have hfin : ∀ pre, pre <+: cs → Finite pre := by
      rintro pre ⟨suf, rfl⟩ c hc p hp ha
      obtain ⟨q, hq, _⟩ := h.digits c (by simp [hc]) p hp ha
      exact ⟨q, hq⟩
    have facts : ∀ pre, pre <+: cs → Prio.WF (prioAfter w.exact (pre.map DCall.exact)) ∧
        (prioAfter w.exact (pre.map DCall.exact)).sum 0 ≤ pow2 (e + 52) := by
      intro pre hpre
      obtain ⟨l, hl⟩ := leaves_exists pre
      obtain ⟨f1, _, _, f4, _⟩ := C05.facts w.exact (pre.map DCall.exact) l ((enumerates_iff pre (hfin pre hpre) l).mpr hl)
      refine ⟨f1, ?_⟩
      rw [f4, total_eq w pre (hfin pre hpre)]
      have := h.small pre hpre l hl
      rw [Int.add_comm, pow2_add]
      exact this
    have hstep : ∀ {S C O : Type} (f : S → C → S × O) (s : S) (a : List C) (c : C),
        (a ++ [c]).foldl (fun s c => (f s c).1) s = (f (a.foldl (fun s c => (f s c).1) s) c).1 := by
      intro S C O f s a c
      rw [List.foldl_append]
      rfl
    have e1 : DPrio.after w (pre ++ [c]) = ((DPrio.after w pre).apply c).1 := hstep DPrio.apply _ _ _
    have e2 : prioAfter w.exact ((pre ++ [c]).map DCall.exact) = ((prioAfter w.exact (pre.map DCall.exact)).apply c.exact).1 := by
      rw [List.map_append]
      exact hstep Prio.apply _ _ _
    have p1 : pre <+: cs := ⟨c :: suf, hp⟩
    have p2 : pre ++ [c] <+: cs := ⟨suf, by rw [← hp]; simp⟩
    have f1 := facts pre p1
    have f2 := facts (pre ++ [c]) p2
    refine ih (pre ++ [c]) (by rw [← hp]; simp) ?_
    rw [e1, e2]
    rw [e2] at f2
    have hlow := h.low
    exact (hb.step f1.1 (by omega) h.high c (h.digits c (by rw [← hp]; simp)) f1.2 f2.1 f2.2).1

theorem both {w : PowD} {e : Int} {cs : List DCall} (h : FewDigits w e cs) :
    Both w e (DPrio.after w cs) (prioAfter w.exact (cs.map DCall.exact)) :=
  Both.run h cs [] rfl ⟨⟨⟨rfl, rfl, rfl⟩, fun _ => rfl, fun _ => rfl⟩, rfl, rfl, fun _ => Grid.zero e⟩

/-- The walk without rounding. -/
theorem Twin.walk {d : DPrio} {s : Prio} (h : Twin d s) (ht : Prio.Tree s) {g : Int} (hl : -1074 ≤ g) (hh : g ≤ 970) (hg : ∀ j, Grid g (s.sum j))
    (i : Nat) (t : Rat) (t0 : 0 ≤ t) (t1 : t ≤ pow2 (g + 53)) (tg : Grid g t) : d.walk i (.fin t) = (s.walk i t).map Prod.fst := by
  have hn := h.toSkel.n
  have hsub : ∀ t : Rat, 0 ≤ t → t ≤ pow2 (g + 53) → Grid g t → ∀ j, ¬ t < s.nodeSum j → (Dbl.fin t).sub (.fin (s.nodeSum j)) = .fin (t - s.nodeSum j) ∧
      0 ≤ t - s.nodeSum j ∧ t - s.nodeSum j ≤ pow2 (g + 53) ∧ Grid g (t - s.nodeSum j) := by
    intro t t0 t1 tg j hj
    rw [Prio.nodeSum_eq ht.sum_zero] at hj ⊢
    have h1 := ht.sum_nonneg j
    have hG := Grid.sub tg (hg j)
    have hp := pow2_pos (g + 53)
    exact ⟨Grid.subD hG hl hh (by grind) (by grind), by grind, by grind, hG⟩
  fun_induction Prio.walk s i t with
  | case1 i t h1 h2 ih =>
    unfold DPrio.walk
    rw [h.nodeSum]
    simp only [Dbl.lt, h1, decide_true, if_true, hn, h2, dif_pos]
    exact ih t0 t1 tg
  | case2 i t h1 h2 =>
    unfold DPrio.walk
    rw [h.nodeSum]
    simp only [Dbl.lt, h1, decide_true, if_true, hn, h2, dif_neg, not_false_iff]
    rfl
  | case3 i t h1 t1' h2 h3 ih =>
    obtain ⟨e1, e2, e3, e4⟩ := hsub t t0 t1 tg _ h1
    unfold DPrio.walk
    rw [h.nodeSum, h.nodeSum]
    have e0 : (Dbl.fin t).lt (.fin (s.nodeSum (2 * i + 1))) = false := by simpa [Dbl.lt] using h1
    have e5 : (Dbl.fin (t - s.nodeSum (2 * i + 1))).lt (.fin (s.nodeSum (2 * i + 2))) = true := by simpa [Dbl.lt] using h2
    simp only [e0, e1, e5, hn, h3, Bool.false_eq_true, if_false, if_true, dif_pos]
    exact ih e2 e3 e4
  | case4 i t h1 t1' h2 h3 =>
    obtain ⟨e1, e2, e3, e4⟩ := hsub t t0 t1 tg _ h1
    unfold DPrio.walk
    rw [h.nodeSum, h.nodeSum]
    have e0 : (Dbl.fin t).lt (.fin (s.nodeSum (2 * i + 1))) = false := by simpa [Dbl.lt] using h1
    have e5 : (Dbl.fin (t - s.nodeSum (2 * i + 1))).lt (.fin (s.nodeSum (2 * i + 2))) = true := by simpa [Dbl.lt] using h2
    simp only [e0, e1, e5, hn, h3, Bool.false_eq_true, if_false, if_true, dif_neg, not_false_iff]
    rfl
  | case5 i t h1 t1' h2 =>
    obtain ⟨e1, e2, e3, e4⟩ := hsub t t0 t1 tg _ h1
    unfold DPrio.walk
    rw [h.nodeSum, h.nodeSum]
    have e0 : (Dbl.fin t).lt (.fin (s.nodeSum (2 * i + 1))) = false := by simpa [Dbl.lt] using h1
    have e5 : (Dbl.fin (t - s.nodeSum (2 * i + 1))).lt (.fin (s.nodeSum (2 * i + 2))) = false := by simpa [Dbl.lt] using h2
    simp only [e0, e1, e5, Bool.false_eq_true, if_false]
    rfl

/-- A rounded product with the total is on a grid on which the walk is exact. -/
theorem draw_grid {a t : Rat} {e : Int} (ha : 0 ≤ a) (h : Dbl.round a = .fin t) (hl : -1074 ≤ e) (ht : t ≤ pow2 (e + 53)) :
    ∃ g, -1074 ≤ g ∧ g ≤ e ∧ Grid g t ∧ t ≤ pow2 (g + 53) := by
  by_cases h0 : a = 0
  · subst h0
    cases h
    exact ⟨e, hl, Int.le_refl _, Grid.zero e, ht⟩
  · have hp : 0 < a := by grind
    rw [Dbl.round_pos hp] at h
    obtain ⟨z, f, z0, z1, f1, rfl⟩ := Dbl.roundPos_digits hp h
    by_cases hfe : f ≤ e
    · refine ⟨f, f1, hfe, ⟨z, rfl⟩, ?_⟩
      rw [Int.add_comm, pow2_add]
      exact Rat.mul_le_mul_of_nonneg_right (int_le_pow53 z1) (Rat.le_of_lt (pow2_pos f))
    · exact ⟨e, hl, Int.le_refl _, Grid.finer ⟨z, rfl⟩ (by omega), ht⟩

end DPrio
end Verif
