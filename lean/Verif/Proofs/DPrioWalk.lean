import Verif.Proofs.DPrioHist
/-
The walk down a tree of sums with small errors, with rounding.
-/
namespace Verif
namespace DPrio

variable {X η B : Rat} {N : Nat}

/-- Where the interval of a subtree starts. -/
def off (n : Nat) (S : Nat → Rat) (i : Nat) : Rat :=
  if h : i = 0 then 0
  else if i % 2 = 1 then off n S ((i - 1) / 2) else off n S ((i - 1) / 2) + kid n S (2 * ((i - 1) / 2) + 1)
termination_by i

/-- Where the interval of a subtree ends. -/
def top (n : Nat) (S : Nat → Rat) (i : Nat) : Rat :=
  if h : i = 0 then S 0
  else if top n S ((i - 1) / 2) ≤ off n S i + S i then top n S ((i - 1) / 2) else off n S i + S i
termination_by i

theorem off_zero (n : Nat) (S : Nat → Rat) : off n S 0 = 0 := by
  rw [off, dif_pos rfl]

theorem off_left (n : Nat) (S : Nat → Rat) (i : Nat) : off n S (2 * i + 1) = off n S i := by
  rw [off, dif_neg (by omega), if_pos (by omega), show (2 * i + 1 - 1) / 2 = i by omega]

theorem off_right (n : Nat) (S : Nat → Rat) (i : Nat) : off n S (2 * i + 2) = off n S i + kid n S (2 * i + 1) := by
  rw [off, dif_neg (by omega), if_neg (by omega), show (2 * i + 2 - 1) / 2 = i by omega]

theorem top_zero (n : Nat) (S : Nat → Rat) : top n S 0 = S 0 := by
  rw [top, dif_pos rfl]

theorem top_child {n : Nat} {S : Nat → Rat} {i c : Nat} (hc : c = 2 * i + 1 ∨ c = 2 * i + 2) :
    top n S c = if top n S i ≤ off n S c + S c then top n S i else off n S c + S c := by
  rw [top, dif_neg (by omega), show (c - 1) / 2 = i by omega]

theorem top_le {n : Nat} {S : Nat → Rat} {i c : Nat} (hc : c = 2 * i + 1 ∨ c = 2 * i + 2) : top n S c ≤ top n S i ∧ top n S c ≤ off n S c + S c := by
  rw [top_child hc]
  split
  · next h => exact ⟨Rat.le_refl, h⟩
  · next h => exact ⟨by grind, Rat.le_refl⟩

theorem off_nonneg {n : Nat} {S : Nat → Rat} (h0 : ∀ j, 0 ≤ S j) (i : Nat) : 0 ≤ off n S i := by
  induction i using Nat.strongRecOn with
  | _ i ih =>
  rw [off]
  split
  · exact Rat.le_refl
  · have h1 := ih ((i - 1) / 2) (by omega)
    have h2 : 0 ≤ kid n S (2 * ((i - 1) / 2) + 1) := by
      unfold kid
      split
      · exact h0 _
      · exact Rat.le_refl
    split
    · exact h1
    · grind

theorem top_le_self {n : Nat} {S : Nat → Rat} (i : Nat) : top n S i ≤ off n S i + S i := by
  by_cases h0 : i = 0
  · subst h0
    rw [top_zero, off_zero]
    grind
  · exact (top_le (i := (i - 1) / 2) (by omega)).2

theorem kid_nonneg {n : Nat} {S : Nat → Rat} (h0 : ∀ j, 0 ≤ S j) (i : Nat) : 0 ≤ kid n S i := by
  unfold kid
  split
  · exact h0 _
  · exact Rat.le_refl

theorem kid_lt {n i : Nat} {S : Nat → Rat} (h : i < n) : kid n S i = S i := by
  unfold kid
  rw [if_pos h]

theorem cast_succ (k : Nat) : ((k + 1 : Nat) : Rat) = (k : Rat) + 1 := by
  rw [Rat.natCast_add]
  rfl

/-- Errors of the sums cut off at most `2 B` for each level. -/
theorem top_ge {n : Nat} {S V : Nat → Rat} (h0 : ∀ j, 0 ≤ S j) (hV : ∀ j, 0 ≤ V j) (hB : 0 ≤ B) (herr : ∀ j, j < n → Within (gap n S V j) 0 (2 * B)) (i : Nat)
    (hi : i < n) : ∃ k : Nat, 2 ^ k ≤ i + 1 ∧ off n S i + S i - k * (2 * B) ≤ top n S i := by
  induction i using Nat.strongRecOn with
  | _ i ih =>
  by_cases hz : i = 0
  · subst hz
    refine ⟨0, by omega, ?_⟩
    rw [top_zero, off_zero]
    have : ((0 : Nat) : Rat) = 0 := rfl
    grind
  · obtain ⟨k, k1, k2⟩ := ih ((i - 1) / 2) (by omega) (by omega)
    refine ⟨k + 1, by rw [Nat.pow_succ]; omega, ?_⟩
    generalize hp : (i - 1) / 2 = p at *
    obtain ⟨e1, e2⟩ := herr p (by omega)
    unfold gap at e1 e2
    have hc : i = 2 * p + 1 ∨ i = 2 * p + 2 := by omega
    have l0 := kid_nonneg (n := n) h0 (2 * p + 1)
    have r0 := kid_nonneg (n := n) h0 (2 * p + 2)
    have v0 := hV p
    have hk0 : 0 ≤ (k : Rat) * (2 * B) := Rat.mul_nonneg Rat.natCast_nonneg (by grind)
    have hm : ((k + 1 : Nat) : Rat) * (2 * B) = k * (2 * B) + 2 * B := by
      rw [cast_succ]
      grind
    rw [hm, top_child hc]
    have hoff : off n S i + S i ≤ off n S p + kid n S (2 * p + 1) + kid n S (2 * p + 2) := by
      rcases hc with rfl | rfl
      · rw [off_left, kid_lt hi]
        grind
      · rw [off_right, kid_lt hi]
        grind
    generalize (k : Rat) * (2 * B) = x at *
    generalize kid n S (2 * p + 1) = L at *
    generalize kid n S (2 * p + 2) = R at *
    clear ih herr h0 hV
    split <;> grind

/-- The walk ends at a node only near the interval of the node. -/
theorem Has.walk_sound (sc : Scale X η B N) {d : DPrio} {S V : Nat → Rat} (h : Has d S V) (h0 : ∀ j, 0 ≤ S j) (h2 : ∀ j, S j ≤ 2 * X)
    (hN : d.n ≤ 2 ^ 43) {t : Rat} (ht : t ≤ 3 * X) (m : Nat) : ∀ (i k : Nat) (r : Rat) (g : Nat), d.n ≤ i + m → i < d.n → 2 ^ k ≤ i + 1 →
    Within r (t - off d.n S i) (((k : Rat) + 1) * η) → 0 ≤ r → t < top d.n S i + ((k : Rat) + 1) * η + η → d.walk i (.fin r) = some g →
    off d.n S g + kid d.n S (2 * g + 1) + kid d.n S (2 * g + 2) - 46 * η ≤ t ∧ t < top d.n S g + 46 * η := by
  have hX := sc.x_pos
  have he := sc.eta_le
  have he0 := sc.eta_nonneg
  induction m with
  | zero =>
    intro i k r g h1 h2
    omega
  | succ m ih =>
    intro i k r g hm hi hk hr hr0 htop hw
    obtain ⟨hr1, hr2⟩ := hr
    have hk43 : k ≤ 43 := (Nat.pow_le_pow_iff_right (by omega : 1 < 2)).mp (by omega)
    have hkη : ((k : Rat) + 1) * η ≤ 44 * η := by
      have := mul_le_of_le (n := k + 1) (N := 44) (E := η) (by omega) he0
      rw [cast_succ] at this
      exact this
    have hkη0 : 0 ≤ ((k : Rat) + 1) * η := Rat.mul_nonneg (by have := Rat.natCast_nonneg (a := k); grind) he0
    have hsucc : (((k + 1 : Nat) : Rat) + 1) * η = ((k : Rat) + 1) * η + η := by
      rw [cast_succ]
      grind
    have hoff := off_nonneg (n := d.n) h0 i
    have l0 := kid_nonneg (n := d.n) h0 (2 * i + 1)
    have r0 := kid_nonneg (n := d.n) h0 (2 * i + 2)
    obtain ⟨_, l2⟩ := kid_bounds (n := d.n) (K := 2 * X) (by grind) (fun j => ⟨h0 j, h2 j⟩) (2 * i + 1)
    unfold DPrio.walk at hw
    rw [h.nodeSum, h.nodeSum] at hw
    by_cases hL : r < kid d.n S (2 * i + 1)
    · have e0 : (Dbl.fin r).lt (.fin (kid d.n S (2 * i + 1))) = true := by simpa [Dbl.lt] using hL
      have hin : 2 * i + 1 < d.n := by
        by_cases hc : 2 * i + 1 < d.n
        · exact hc
        · unfold kid at hL
          rw [if_neg hc] at hL
          grind
      rw [if_pos e0, dif_pos hin] at hw
      refine ih (2 * i + 1) (k + 1) r g (by omega) hin (by rw [Nat.pow_succ]; omega) ?_ hr0 ?_ hw
      · rw [off_left, hsucc]
        constructor <;> grind
      · rw [hsucc, top_child (Or.inl rfl), off_left]
        rw [kid_lt hin] at hL
        split <;> grind
    · have e0 : (Dbl.fin r).lt (.fin (kid d.n S (2 * i + 1))) = false := by simpa [Dbl.lt] using hL
      obtain ⟨r1, e1, p1, q1⟩ := sc.sub (a := r) (b := kid d.n S (2 * i + 1)) ⟨by grind, by grind⟩
      have hr10 : 0 ≤ r1 := by
        refine Dbl.round_fin_nonneg (a := r - kid d.n S (2 * i + 1)) (by grind) ?_
        rw [← e1, show r - kid d.n S (2 * i + 1) = r + -kid d.n S (2 * i + 1) by grind]
        rfl
      rw [e0] at hw
      simp only [Bool.false_eq_true, if_false, e1] at hw
      by_cases hR : r1 < kid d.n S (2 * i + 2)
      · have e2 : (Dbl.fin r1).lt (.fin (kid d.n S (2 * i + 2))) = true := by simpa [Dbl.lt] using hR
        have hin : 2 * i + 2 < d.n := by
          by_cases hc : 2 * i + 2 < d.n
          · exact hc
          · unfold kid at hR
            rw [if_neg hc] at hR
            grind
        rw [if_pos e2, dif_pos hin] at hw
        refine ih (2 * i + 2) (k + 1) r1 g (by omega) hin (by rw [Nat.pow_succ]; omega) ?_ hr10 ?_ hw
        · rw [off_right, hsucc]
          constructor <;> grind
        · rw [hsucc, top_child (Or.inr rfl), off_right]
          rw [kid_lt hin] at hR
          split <;> grind
      · have e2 : (Dbl.fin r1).lt (.fin (kid d.n S (2 * i + 2))) = false := by simpa [Dbl.lt] using hR
        rw [e2] at hw
        simp only [Bool.false_eq_true, if_false, Option.some.injEq] at hw
        subst hw
        generalize kid d.n S (2 * i + 1) = L at *
        generalize kid d.n S (2 * i + 2) = R at *
        generalize ((k : Rat) + 1) * η = e at *
        clear ih h0 h2
        constructor <;> grind

/-- The walk passes a node well inside of its interval. -/
theorem Has.walk_passes (sc : Scale X η B N) {d : DPrio} {S V : Nat → Rat} (h : Has d S V) (h0 : ∀ j, 0 ≤ S j) (h2 : ∀ j, S j ≤ 2 * X)
    (hN : d.n ≤ 2 ^ 43) {t t0 : Rat} (ht : t ≤ 3 * X) (ht0 : Within t0 t η) (ht00 : 0 ≤ t0) (g : Nat) :
    g < d.n → off d.n S g + 46 * η ≤ t → t < top d.n S g - 46 * η →
    ∃ (k : Nat) (r : Rat), 2 ^ k ≤ g + 1 ∧ Within r (t - off d.n S g) (((k : Rat) + 1) * η) ∧ 0 ≤ r ∧ d.walk 0 (.fin t0) = d.walk g (.fin r) := by
  have hX := sc.x_pos
  have he := sc.eta_le
  have he0 := sc.eta_nonneg
  induction g using Nat.strongRecOn with
  | _ g ih =>
  intro hg hlo hhi
  by_cases hz : g = 0
  · subst hz
    refine ⟨0, t0, by omega, ?_, ht00, rfl⟩
    rw [off_zero]
    obtain ⟨a, b⟩ := ht0
    have : ((0 : Nat) : Rat) = 0 := rfl
    constructor <;> grind
  · have hc : g = 2 * ((g - 1) / 2) + 1 ∨ g = 2 * ((g - 1) / 2) + 2 := by omega
    have hpg : (g - 1) / 2 < g := by omega
    generalize (g - 1) / 2 = p at *
    obtain ⟨tl1, tl2⟩ := top_le (n := d.n) (S := S) hc
    have l0 := kid_nonneg (n := d.n) h0 (2 * p + 1)
    have hoffp := off_nonneg (n := d.n) h0 p
    have hop : off d.n S p ≤ off d.n S g := by
      rcases hc with rfl | rfl
      · rw [off_left]; exact Rat.le_refl
      · rw [off_right]; grind
    obtain ⟨k, r, k1, ⟨k2, k3⟩, k4, k5⟩ := ih p hpg (by omega) (by grind) (by grind)
    have hk43 : k ≤ 43 := (Nat.pow_le_pow_iff_right (by omega : 1 < 2)).mp (by omega)
    have hkη : ((k : Rat) + 1) * η ≤ 44 * η := by
      have := mul_le_of_le (n := k + 1) (N := 44) (E := η) (by omega) he0
      rw [cast_succ] at this
      exact this
    have hsucc : (((k + 1 : Nat) : Rat) + 1) * η = ((k : Rat) + 1) * η + η := by
      rw [cast_succ]
      grind
    obtain ⟨_, l2⟩ := kid_bounds (n := d.n) (K := 2 * X) (by grind) (fun j => ⟨h0 j, h2 j⟩) (2 * p + 1)
    rcases hc with rfl | rfl
    · refine ⟨k + 1, r, by rw [Nat.pow_succ]; omega, ?_, k4, ?_⟩
      · rw [off_left, hsucc]
        constructor <;> grind
      · rw [k5, DPrio.walk, h.nodeSum]
        rw [off_left] at tl2
        have hL : r < kid d.n S (2 * p + 1) := by
          rw [kid_lt hg]
          grind
        rw [if_pos (by simpa [Dbl.lt] using hL), dif_pos hg]
    · rw [off_right] at hlo tl2
      have hL : ¬ r < kid d.n S (2 * p + 1) := by grind
      obtain ⟨r1, e1, p1, q1⟩ := sc.sub (a := r) (b := kid d.n S (2 * p + 1)) ⟨by grind, by grind⟩
      have hr10 : 0 ≤ r1 := by
        refine Dbl.round_fin_nonneg (a := r - kid d.n S (2 * p + 1)) (by grind) ?_
        rw [← e1, show r - kid d.n S (2 * p + 1) = r + -kid d.n S (2 * p + 1) by grind]
        rfl
      refine ⟨k + 1, r1, by rw [Nat.pow_succ]; omega, ?_, hr10, ?_⟩
      · rw [off_right, hsucc]
        constructor <;> grind
      · rw [k5, DPrio.walk, h.nodeSum, h.nodeSum]
        have e0 : (Dbl.fin r).lt (.fin (kid d.n S (2 * p + 1))) = false := by simpa [Dbl.lt] using hL
        have hR : r1 < kid d.n S (2 * p + 2) := by
          rw [kid_lt hg]
          grind
        have e2 : (Dbl.fin r1).lt (.fin (kid d.n S (2 * p + 2))) = true := by simpa [Dbl.lt] using hR
        rw [e0]
        simp only [Bool.false_eq_true, if_false, e1]
        rw [if_pos e2, dif_pos hg]

/-- The walk ends at a node well inside of its own interval. -/
theorem Has.walk_ends (sc : Scale X η B N) {d : DPrio} {S V : Nat → Rat} (h : Has d S V) (h0 : ∀ j, 0 ≤ S j) (h2 : ∀ j, S j ≤ 2 * X)
    (hN : d.n ≤ 2 ^ 43) {t t0 : Rat} (ht : t ≤ 3 * X) (ht0 : Within t0 t η) (ht00 : 0 ≤ t0) {g : Nat} (hg : g < d.n)
    (hlo : off d.n S g + kid d.n S (2 * g + 1) + kid d.n S (2 * g + 2) + 46 * η ≤ t) (hhi : t < top d.n S g - 46 * η) :
    d.walk 0 (.fin t0) = some g := by
  have hX := sc.x_pos
  have he := sc.eta_le
  have he0 := sc.eta_nonneg
  have l0 := kid_nonneg (n := d.n) h0 (2 * g + 1)
  have r0 := kid_nonneg (n := d.n) h0 (2 * g + 2)
  obtain ⟨k, r, k1, ⟨k2, k3⟩, k4, k5⟩ := h.walk_passes sc h0 h2 hN ht ht0 ht00 g hg (by grind) hhi
  have hk43 : k ≤ 43 := (Nat.pow_le_pow_iff_right (by omega : 1 < 2)).mp (by omega)
  have hkη : ((k : Rat) + 1) * η ≤ 44 * η := by
    have := mul_le_of_le (n := k + 1) (N := 44) (E := η) (by omega) he0
    rw [cast_succ] at this
    exact this
  have hoffp := off_nonneg (n := d.n) h0 g
  obtain ⟨_, l2⟩ := kid_bounds (n := d.n) (K := 2 * X) (by grind) (fun j => ⟨h0 j, h2 j⟩) (2 * g + 1)
  have hL : ¬ r < kid d.n S (2 * g + 1) := by grind
  obtain ⟨r1, e1, p1, q1⟩ := sc.sub (a := r) (b := kid d.n S (2 * g + 1)) ⟨by grind, by grind⟩
  rw [k5, DPrio.walk, h.nodeSum, h.nodeSum]
  have e0 : (Dbl.fin r).lt (.fin (kid d.n S (2 * g + 1))) = false := by simpa [Dbl.lt] using hL
  have hR : ¬ r1 < kid d.n S (2 * g + 2) := by grind
  have e2 : (Dbl.fin r1).lt (.fin (kid d.n S (2 * g + 2))) = false := by simpa [Dbl.lt] using hR
  rw [e0]
  simp only [Bool.false_eq_true, if_false, e1, e2]

end DPrio
end Verif
