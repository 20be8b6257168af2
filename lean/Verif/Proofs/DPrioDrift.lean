import Verif.Proofs.DPrioExact
import Verif.Proofs.DblNear
/-
The sums of the prioritized selector with rounding: how far they are from the exact ones.
-/
namespace Verif
namespace DPrio

/-- `X` is a bound of the weights and totals, `η` of the rounding of numbers up to `32 X`, `B` of the error that a node may have when it has been
checked, `N` of the number of keys. -/
structure Scale (X η B : Rat) (N : Nat) : Prop where
  lo : pow2 (-1022) ≤ 32 * X
  hi : 32 * X ≤ pow2 1020
  eta : 32 * X * pow2 (-53) = η
  err : ∃ m, maxError = .fin m ∧ 0 ≤ m ∧ m + 3 * η ≤ B
  room : (N : Rat) * (2 * B) ≤ X
  some : 1 ≤ N

variable {X η B : Rat} {N : Nat}

theorem Scale.x_pos (h : Scale X η B N) : 0 < X := by
  have h1 := h.lo
  have h2 := pow2_pos (-1022)
  generalize pow2 (-1022) = y at *
  grind

theorem Scale.eta_nonneg (h : Scale X η B N) : 0 ≤ η := by
  rw [← h.eta]
  have := h.x_pos
  exact Rat.mul_nonneg (by grind) (Rat.le_of_lt (pow2_pos _))

theorem Scale.eta_le (h : Scale X η B N) : 1024 * η ≤ X := by
  rw [← h.eta]
  have h1 := h.x_pos
  have h2 : 32768 * pow2 (-53) ≤ 1 := by decide +kernel
  have h3 := Rat.mul_le_mul_of_nonneg_right h2 (Rat.le_of_lt h1)
  generalize pow2 (-53) = y at *
  have : 1024 * (32 * X * y) = 32768 * y * X := by grind
  rw [this]
  grind

theorem Scale.b_nonneg (h : Scale X η B N) : 0 ≤ B := by
  obtain ⟨m, _, h1, h2⟩ := h.err
  have := h.eta_nonneg
  grind

theorem Scale.eta_b (h : Scale X η B N) : 3 * η ≤ B := by
  obtain ⟨m, _, h1, h2⟩ := h.err
  grind

theorem mul_le_of_le {n N : Nat} {E : Rat} (h : n ≤ N) (hE : 0 ≤ E) : (n : Rat) * E ≤ N * E :=
  Rat.mul_le_mul_of_nonneg_right (by exact_mod_cast h) hE

theorem Scale.b_le (h : Scale X η B N) : 2 * B ≤ X := by
  have h1 := mul_le_of_le h.some (E := 2 * B) (by have := h.b_nonneg; grind)
  have h2 := h.room
  have : ((1 : Nat) : Rat) * (2 * B) = 2 * B := by
    have : ((1 : Nat) : Rat) = 1 := rfl
    rw [this]
    grind
  grind

theorem Scale.round (h : Scale X η B N) {a : Rat} (ha : Within a 0 (32 * X)) : ∃ r, Dbl.round a = .fin r ∧ Within r a η := by
  rw [← h.eta]
  exact Dbl.round_near ha h.lo h.hi

theorem Scale.add (h : Scale X η B N) {a b : Rat} (ha : Within (a + b) 0 (32 * X)) :
    ∃ r, (Dbl.fin a).add (.fin b) = .fin r ∧ Within r (a + b) η := h.round ha

theorem Scale.sub (h : Scale X η B N) {a b : Rat} (ha : Within (a - b) 0 (32 * X)) :
    ∃ r, (Dbl.fin a).sub (.fin b) = .fin r ∧ Within r (a - b) η := by
  rw [← h.eta]
  exact Dbl.sub_near ha h.lo h.hi

/-- The sum of a child. -/
def kid (n : Nat) (S : Nat → Rat) (i : Nat) : Rat := if i < n then S i else 0

/-- The error of a sum. -/
def gap (n : Nat) (S V : Nat → Rat) (i : Nat) : Rat := S i - kid n S (2 * i + 1) - kid n S (2 * i + 2) - V i

/-- The selector has these sums and values. -/
structure Has (d : DPrio) (S V : Nat → Rat) : Prop where
  sum : ∀ i, d.sum i = .fin (S i)
  value : ∀ i, d.value i = .fin (V i)

theorem Has.nodeSum {d : DPrio} {S V : Nat → Rat} (h : Has d S V) (i : Nat) : d.nodeSum i = .fin (kid d.n S i) := by
  unfold DPrio.nodeSum kid
  split
  · exact h.sum i
  · rfl

theorem kid_bounds {n : Nat} {S : Nat → Rat} {K : Rat} (hK : 0 ≤ K) (h : ∀ j, 0 ≤ S j ∧ S j ≤ K) (i : Nat) : 0 ≤ kid n S i ∧ kid n S i ≤ K := by
  unfold kid
  split
  · exact h i
  · exact ⟨Rat.le_refl, hK⟩

/-- The error as it is computed. -/
theorem Has.errorAt {d : DPrio} {S V : Nat → Rat} (h : Has d S V) (sc : Scale X η B N) (hS : ∀ j, 0 ≤ S j ∧ S j ≤ 8 * X) {i : Nat} (hV : 0 ≤ V i)
    (hV' : V i ≤ X) : ∃ x, d.errorAt i = .fin x ∧ Within (gap d.n S V i) 0 (x + 3 * η) := by
  have hX := sc.x_pos
  have he := sc.eta_le
  have he0 := sc.eta_nonneg
  obtain ⟨a1, a2⟩ := hS i
  obtain ⟨l1, l2⟩ := kid_bounds (n := d.n) (K := 8 * X) (by grind) hS (2 * i + 1)
  obtain ⟨r1, r2⟩ := kid_bounds (n := d.n) (K := 8 * X) (by grind) hS (2 * i + 2)
  unfold DPrio.errorAt
  rw [h.sum, h.nodeSum, h.nodeSum, h.value]
  unfold gap
  generalize kid d.n S (2 * i + 1) = L at *
  generalize kid d.n S (2 * i + 2) = R at *
  generalize V i = v at *
  generalize S i = s at *
  obtain ⟨x1, e1, p1, q1⟩ := sc.sub (a := s) (b := L) ⟨by grind, by grind⟩
  obtain ⟨x2, e2, p2, q2⟩ := sc.sub (a := x1) (b := R) ⟨by grind, by grind⟩
  obtain ⟨x3, e3, p3, q3⟩ := sc.sub (a := x2) (b := v) ⟨by grind, by grind⟩
  refine ⟨if x3 < 0 then -x3 else x3, ?_, ?_⟩
  · rw [e1, e2, e3]
    rfl
  · constructor
    · split <;> grind
    · split <;> grind

/-- An error that passes the check. -/
theorem Scale.checked (sc : Scale X η B N) {x g : Rat} (h : (Dbl.fin x).le maxError = true) (hg : Within g 0 (x + 3 * η)) : Within g 0 B := by
  obtain ⟨m, h1, h2, h3⟩ := sc.err
  rw [h1] at h
  have h4 : x ≤ m := by simpa [Dbl.le] using h
  obtain ⟨g1, g2⟩ := hg
  constructor <;> grind

theorem Scale.unchecked (sc : Scale X η B N) {x : Rat} (h : (Dbl.fin x).le maxError = false) : maxError.lt (.fin x) = true := by
  obtain ⟨m, h1, h2, h3⟩ := sc.err
  rw [h1] at h ⊢
  have h4 : ¬ x ≤ m := by simpa [Dbl.le] using h
  simp only [Dbl.lt, decide_eq_true_eq]
  grind

/-- `UPDATE_SUM`. -/
theorem Has.addTo {d : DPrio} {S V : Nat → Rat} (h : Has d S V) (sc : Scale X η B N) {i : Nat} (h0 : 0 ≤ S i) (h1 : S i ≤ 2 * X) {δ : Rat}
    (hδ : Within δ 0 (2 * X)) : ∃ y, 0 ≤ y ∧ y ≤ 8 * X ∧ Has (d.addTo i (.fin δ)) (fun j => if j = i then y else S j) V := by
  have hX := sc.x_pos
  have he := sc.eta_le
  have he0 := sc.eta_nonneg
  obtain ⟨d1, d2⟩ := hδ
  obtain ⟨r, e1, p1, q1⟩ := sc.add (a := S i) (b := δ) ⟨by grind, by grind⟩
  refine ⟨if r < 0 then 0 else r, by split <;> grind, by split <;> grind, fun j => ?_, fun j => h.value j⟩
  simp only [DPrio.addTo]
  split
  · rw [h.sum, e1]
    simp only [clamped, Dbl.lt, decide_eq_true_eq]
    split <;> rfl
  · exact h.sum j

/-- The loop over the ancestors. -/
theorem Has.updateParents (sc : Scale X η B N) {V : Nat → Rat} (hV : ∀ j, 0 ≤ V j ∧ V j ≤ X) {δ : Rat} (hδ : Within δ 0 (2 * X)) (i : Nat) :
    ∀ {d : DPrio} {S : Nat → Rat} {x : Rat}, Has d S V → (∀ j, 0 ≤ S j ∧ S j ≤ 8 * X) → (∀ j, j < i → S j ≤ 2 * X) →
    ∃ S' x', Has (d.updateParents (.fin x) i (.fin δ)).1 S' V ∧ (d.updateParents (.fin x) i (.fin δ)).2 = .fin x' ∧
      (∀ j, 0 ≤ S' j ∧ S' j ≤ 8 * X) ∧ (∀ j, i ≤ j → S' j = S j) ∧
      ((Dbl.fin x').le maxError = true → (Dbl.fin x).le maxError = true ∧ (i = 0 ∨ Within (gap d.n S' V ((i - 1) / 2)) 0 B) ∧
        ∀ j, Within (gap d.n S' V j) 0 B ∨ (S' j = S j ∧ S' (2 * j + 1) = S (2 * j + 1) ∧ S' (2 * j + 2) = S (2 * j + 2))) := by
  induction i using Nat.strongRecOn with
  | _ i ih =>
  intro d S x h hS hlow
  unfold DPrio.updateParents
  by_cases hc : i ≠ 0 ∧ (Dbl.fin x).le maxError = true
  · rw [dif_pos hc]
    obtain ⟨hi, hx⟩ := hc
    have hp : (i - 1) / 2 < i := by omega
    obtain ⟨y, y0, y1, h'⟩ := h.addTo sc (i := (i - 1) / 2) (hS _).1 (hlow _ hp) hδ
    generalize hpe : (i - 1) / 2 = p at *
    have hS' : ∀ j, 0 ≤ (fun j => if j = p then y else S j) j ∧ (fun j => if j = p then y else S j) j ≤ 8 * X := by
      intro j
      simp only
      split
      · exact ⟨y0, y1⟩
      · exact hS j
    obtain ⟨x1, e1, g1⟩ := h'.errorAt sc hS' (hV p).1 (hV p).2
    rw [e1]
    obtain ⟨S', x', a1, a2, a3, a4, a5⟩ := ih p hp (x := x1) h' hS' (fun j hj => by
      have : j ≠ p := by omega
      simp only [this, if_false]
      exact hlow j (by omega))
    refine ⟨S', x', a1, a2, a3, fun j hj => ?_, fun hle => ⟨hx, Or.inr ?_, fun j => ?_⟩⟩
    · have := a4 j (by omega)
      rw [this]
      have : j ≠ p := by omega
      simp only [this, if_false]
    · obtain ⟨b1, _, _⟩ := a5 hle
      have hg := sc.checked b1 g1
      have hn : (d.addTo p (.fin δ)).n = d.n := rfl
      rw [hn] at hg
      have : gap d.n S' V p = gap d.n (fun j => if j = p then y else S j) V p := by
        unfold gap kid
        rw [a4 p (by omega), a4 (2 * p + 1) (by omega), a4 (2 * p + 2) (by omega)]
      rw [this]
      exact hg
    · obtain ⟨b1, b2, b3⟩ := a5 hle
      have hn : (d.addTo p (.fin δ)).n = d.n := rfl
      rw [hn] at b2 b3
      have hg := sc.checked b1 g1
      rw [hn] at hg
      by_cases hjp : j = p
      · subst hjp
        left
        have : gap d.n S' V j = gap d.n (fun k => if k = j then y else S k) V j := by
          unfold gap kid
          rw [a4 j (by omega), a4 (2 * j + 1) (by omega), a4 (2 * j + 2) (by omega)]
        rw [this]
        exact hg
      · by_cases hjq : 2 * j + 1 = p ∨ 2 * j + 2 = p
        · left
          rcases b2 with h0 | h0
          · omega
          · have : (p - 1) / 2 = j := by omega
            rw [this] at h0
            exact h0
        · rcases b3 j with hb | ⟨c1, c2, c3⟩
          · exact Or.inl hb
          · right
            have e1 : 2 * j + 1 ≠ p := fun hc => hjq (Or.inl hc)
            have e2 : 2 * j + 2 ≠ p := fun hc => hjq (Or.inr hc)
            simp only [hjp, e1, e2, if_false] at c1 c2 c3
            exact ⟨c1, c2, c3⟩
  · rw [dif_neg hc]
    refine ⟨S, x, h, rfl, hS, fun _ _ => rfl, fun hle => ⟨hle, ?_, fun j => Or.inr ⟨rfl, rfl, rfl⟩⟩⟩
    left
    by_cases h0 : i = 0
    · exact h0
    · exact absurd ⟨h0, hle⟩ hc

/-- The number of nodes of a subtree. -/
def cnt (n i : Nat) : Nat := (Prio.order n i).length

theorem cnt_lt {n i : Nat} (h : i < n) : cnt n i = cnt n (2 * i + 1) + cnt n (2 * i + 2) + 1 := by
  unfold cnt
  rw [Prio.order, if_pos h]
  simp
  omega

theorem cnt_ge {n i : Nat} (h : n ≤ i) : cnt n i = 0 := by
  unfold cnt
  rw [Prio.order, if_neg (by omega)]
  rfl

theorem cnt_le (n i : Nat) : cnt n i ≤ n := by
  have h := (Prio.order_nodup n i).length_le_of_subset (l₂ := List.range n) (fun j hj => by
    have := Prio.mem_order_bounds hj
    simp
    omega)
  simpa [cnt] using h

/-- Sums whose errors are at most `E` are as far from the exact sums as there are nodes in the subtree. -/
theorem near_sum {s : Prio} (h : Prio.Tree s) {S : Nat → Rat} {E : Rat} {i₀ : Nat} (hE : 0 ≤ E)
    (hg : ∀ j, i₀ ≤ j → j < s.n → Within (gap s.n S s.value j) 0 E) :
    ∀ (m i : Nat), s.n ≤ i + m → i₀ ≤ i → Within (kid s.n S i) (s.sum i) (cnt s.n i * E) := by
  intro m
  induction m with
  | zero =>
    intro i hi _
    unfold kid
    rw [if_neg (by omega), cnt_ge (by omega), h.sum_zero i (by omega)]
    have : ((0 : Nat) : Rat) = 0 := rfl
    constructor <;> grind
  | succ m ih =>
    intro i hi hi0
    by_cases hin : i < s.n
    · obtain ⟨a1, a2⟩ := ih (2 * i + 1) (by omega) (by omega)
      obtain ⟨b1, b2⟩ := ih (2 * i + 2) (by omega) (by omega)
      obtain ⟨c1, c2⟩ := hg i hi0 hin
      have he := h.eq i
      have hc : (cnt s.n i : Rat) * E = cnt s.n (2 * i + 1) * E + cnt s.n (2 * i + 2) * E + E := by
        rw [cnt_lt hin, Rat.natCast_add, Rat.natCast_add]
        have : ((1 : Nat) : Rat) = 1 := rfl
        grind
      rw [hc]
      unfold gap at c1 c2
      have hk : kid s.n S i = S i := by unfold kid; rw [if_pos hin]
      rw [hk]
      generalize kid s.n S (2 * i + 1) = L at *
      generalize kid s.n S (2 * i + 2) = R at *
      generalize (cnt s.n (2 * i + 1) : Rat) * E = u at *
      generalize (cnt s.n (2 * i + 2) : Rat) * E = v at *
      clear ih hg hc h
      constructor <;> grind
    · unfold kid
      rw [if_neg hin, cnt_ge (by omega), h.sum_zero i (by omega)]
      have : ((0 : Nat) : Rat) = 0 := rfl
      constructor <;> grind

/-- Sums are within bounds. -/
theorem sum_bound {s : Prio} (h : Prio.Tree s) (sc : Scale X η B N) (hn : s.n ≤ N) (hT : s.sum 0 ≤ X) {S : Nat → Rat} {i₀ : Nat}
    (hg : ∀ j, i₀ ≤ j → j < s.n → Within (gap s.n S s.value j) 0 (2 * B)) (hgone : ∀ j, s.n ≤ j → S j ≤ B) {i : Nat} (hi : i₀ ≤ i) :
    S i ≤ 2 * X := by
  have hb := sc.b_nonneg
  have hX := sc.x_pos
  by_cases hin : i < s.n
  · obtain ⟨h1, _⟩ := near_sum h (E := 2 * B) (by grind) hg s.n i (by omega) hi
    have h2 := sum_le_total h i
    have h3 : (cnt s.n i : Rat) * (2 * B) ≤ N * (2 * B) := mul_le_of_le (Nat.le_trans (cnt_le _ _) hn) (by grind)
    have h4 := sc.room
    have hk : kid s.n S i = S i := by unfold kid; rw [if_pos hin]
    rw [hk] at h1
    generalize (cnt s.n i : Rat) * (2 * B) = u at *
    generalize (N : Rat) * (2 * B) = v at *
    clear hg hgone
    grind
  · have := hgone i (by omega)
    have := sc.b_le
    grind

theorem kid_set {n c i : Nat} {S : Nat → Rat} {x : Rat} (h : c ≠ i) : kid n (fun k => if k = i then x else S k) c = kid n S c := by
  unfold kid
  simp only [h, if_false]

/-- `ReinitializeSumTree`. -/
theorem Has.reinit (sc : Scale X η B N) {s : Prio} (ht : Prio.Tree s) (hn : s.n ≤ N) (hT : s.sum 0 ≤ X) (m : Nat) :
    ∀ {d : DPrio} {S : Nat → Rat}, Has d S s.value → d.n = s.n → (∀ j, m ≤ j → 0 ≤ S j) → (∀ j, m ≤ j → s.n ≤ j → S j ≤ B) →
    (∀ j, m ≤ j → j < s.n → Within (gap s.n S s.value j) 0 B) →
    ∃ S', Has (d.reinit m) S' s.value ∧ (∀ j, 0 ≤ S' j) ∧ (∀ j, s.n ≤ j → S' j ≤ B) ∧ ∀ j, j < s.n → Within (gap s.n S' s.value j) 0 B := by
  have hb := sc.b_nonneg
  have hX := sc.x_pos
  have he := sc.eta_le
  have he0 := sc.eta_nonneg
  have heb := sc.eta_b
  induction m with
  | zero =>
    intro d S h _ h1 h2 h3
    exact ⟨S, h, fun j => h1 j (by omega), fun j => h2 j (by omega), fun j => h3 j (by omega)⟩
  | succ i ih =>
    intro d S h hdn h1 h2 h3
    unfold DPrio.reinit
    have hkid : ∀ c, i < c → 0 ≤ kid s.n S c ∧ kid s.n S c ≤ 2 * X := by
      intro c hc
      by_cases hcn : c < s.n
      · unfold kid
        rw [if_pos hcn]
        refine ⟨h1 c (by omega), ?_⟩
        obtain ⟨q1, _⟩ := near_sum ht (E := B) hb (i₀ := i + 1) (fun j hj => h3 j (by omega)) s.n c (by omega) (by omega)
        have q2 := sum_le_total ht c
        have q3 : (cnt s.n c : Rat) * B ≤ N * B := mul_le_of_le (Nat.le_trans (cnt_le _ _) hn) hb
        have q4 := sc.room
        have hk : kid s.n S c = S c := by unfold kid; rw [if_pos hcn]
        rw [hk] at q1
        have q5 : (N : Rat) * (2 * B) = 2 * (N * B) := by grind
        have q6 : 0 ≤ (N : Rat) * B := Rat.mul_nonneg Rat.natCast_nonneg hb
        rw [q5] at q4
        generalize (cnt s.n c : Rat) * B = u at *
        generalize (N : Rat) * B = v at *
        clear ih h1 h2 h3
        grind
      · unfold kid
        rw [if_neg hcn]
        exact ⟨Rat.le_refl, by grind⟩
    obtain ⟨l1, l2⟩ := hkid (2 * i + 1) (by omega)
    obtain ⟨r1, r2⟩ := hkid (2 * i + 2) (by omega)
    have v1 := ht.value_nonneg i
    have v2 := value_le_total ht i
    rw [h.nodeSum, h.nodeSum, h.value, hdn]
    obtain ⟨x1, e1, p1, q1⟩ := sc.add (a := s.value i) (b := kid s.n S (2 * i + 1)) ⟨by grind, by grind⟩
    obtain ⟨x2, e2, p2, q2⟩ := sc.add (a := x1) (b := kid s.n S (2 * i + 2)) ⟨by grind, by grind⟩
    have x10 : 0 ≤ x1 := Dbl.round_fin_nonneg (a := s.value i + kid s.n S (2 * i + 1)) (by grind) e1
    have x20 : 0 ≤ x2 := Dbl.round_fin_nonneg (a := x1 + kid s.n S (2 * i + 2)) (by grind) e2
    rw [e1, e2]
    refine ih (S := fun j => if j = i then x2 else S j) ⟨fun j => ?_, h.value⟩ hdn ?_ ?_ ?_
    · simp only
      split
      · rfl
      · exact h.sum j
    · intro j hj
      split
      · exact x20
      · exact h1 j (by omega)
    · intro j hj hjn
      split
      · next hji =>
        subst hji
        have z1 : kid s.n S (2 * j + 1) = 0 := by unfold kid; rw [if_neg (by omega)]
        have z2 : kid s.n S (2 * j + 2) = 0 := by unfold kid; rw [if_neg (by omega)]
        have z3 := ht.value_zero j hjn
        have h0 : (Dbl.fin 0).add (.fin 0) = .fin 0 := by decide +kernel
        rw [z1, z3, h0] at e1
        have e4 : x1 = 0 := by simpa using e1.symm
        rw [z2, e4, h0] at e2
        have e3 : x2 = 0 := by simpa using e2.symm
        rw [e3]
        exact hb
      · exact h2 j (by omega) hjn
    · intro j hj hjn
      by_cases hji : j = i
      · subst hji
        have k1 : kid s.n (fun k => if k = j then x2 else S k) (2 * j + 1) = kid s.n S (2 * j + 1) := kid_set (by omega)
        have k2 : kid s.n (fun k => if k = j then x2 else S k) (2 * j + 2) = kid s.n S (2 * j + 2) := kid_set (by omega)
        unfold gap
        rw [k1, k2]
        simp only [if_true]
        generalize kid s.n S (2 * j + 1) = L at *
        generalize kid s.n S (2 * j + 2) = R at *
        clear ih h1 h2 h3 hkid
        constructor <;> grind
      · have k : ∀ c, i < c → kid s.n (fun k => if k = i then x2 else S k) c = kid s.n S c := by
          intro c hc
          exact kid_set (by omega)
        unfold gap
        rw [k _ (by omega), k _ (by omega)]
        simp only [hji, if_false]
        exact h3 j (by omega) hjn

/-- The selector with rounding beside the exact one: the same keys and weights, and sums with small errors. -/
structure Near (B : Rat) (d : DPrio) (s : Prio) (S : Nat → Rat) : Prop extends Skel d s where
  has : Has d S s.value
  nonneg : ∀ j, 0 ≤ S j
  gone : ∀ j, s.n ≤ j → S j ≤ B
  err : ∀ j, j < s.n → Within (gap s.n S s.value j) 0 (2 * B)

/-- `SetNode`. -/
theorem Near.setNode (sc : Scale X η B N) {d : DPrio} {s : Prio} {S : Nat → Rat} (hk : Skel d s) (h : Has d S s.value) (ht : Prio.Tree s) (hn : s.n ≤ N)
    (hcap : s.n ≤ s.capacity) {i : Nat} {v : Rat} (hi : i < s.n) (hv : 0 ≤ v) (hT : s.sum 0 ≤ X) (hT' : s.sum 0 + (v - s.value i) ≤ X)
    (h0 : ∀ j, 0 ≤ S j) (h2X : ∀ j, S j ≤ 2 * X) (hgone : ∀ j, s.n ≤ j → S j ≤ B)
    (herr : ∀ j, j < s.n → j ≠ i → (i ≠ 0 → j ≠ (i - 1) / 2) → Within (gap s.n S s.value j) 0 (2 * B)) :
    ∃ S', Near B (d.setNode i (.fin v)) (s.setNode i v) S' ∧ Within (gap s.n S' (s.setNode i v).value i) 0 B ∧
      (i ≠ 0 → Within (gap s.n S' (s.setNode i v).value ((i - 1) / 2)) 0 B) := by
  have hb := sc.b_nonneg
  have hX := sc.x_pos
  have he := sc.eta_le
  have he0 := sc.eta_nonneg
  have hvi := ht.value_nonneg i
  have hvt := value_le_total ht i
  have hvX : v ≤ X := by grind
  obtain ⟨f, hset, ht'⟩ := Prio.setNode_ok hi hv ht
  have htot := setNode_total ht hi hv
  have hV : ∀ j, 0 ≤ (fun j => if j = i then v else s.value j) j ∧ (fun j => if j = i then v else s.value j) j ≤ X := by
    intro j
    simp only
    split
    · exact ⟨hv, hvX⟩
    · exact ⟨ht.value_nonneg j, Rat.le_trans (value_le_total ht j) hT⟩
  obtain ⟨δ, e1, p1, q1⟩ := sc.sub (a := v) (b := s.value i) ⟨by grind, by grind⟩
  have hδ : Within δ 0 (2 * X) := ⟨by grind, by grind⟩
  have hdn := hk.n
  have hd1 : Has { d with value := fun j => if j = i then .fin v else d.value j } S (fun j => if j = i then v else s.value j) := by
    refine ⟨h.sum, fun j => ?_⟩
    simp only
    split
    · rfl
    · exact h.value j
  obtain ⟨y, y0, y1, hd2⟩ := hd1.addTo sc (i := i) (h0 i) (h2X i) hδ
  have hS1 : ∀ j, 0 ≤ (fun j => if j = i then y else S j) j ∧ (fun j => if j = i then y else S j) j ≤ 8 * X := by
    intro j
    simp only
    split
    · exact ⟨y0, y1⟩
    · exact ⟨h0 j, by have := h2X j; grind⟩
  obtain ⟨x1, e2, g1⟩ := hd2.errorAt sc hS1 (hV i).1 (hV i).2
  obtain ⟨S', x', a1, a2, a3, a4, a5⟩ := Has.updateParents sc hV hδ i (x := x1) hd2 hS1 (fun j hj => by
    have : j ≠ i := by omega
    simp only [this, if_false]
    exact h2X j)
  have hpath : d.pathSums i (.fin v) = (({ d with value := fun j => if j = i then .fin v else d.value j } : DPrio).addTo i (.fin δ)).updateParents
      (.fin x1) i (.fin δ) := by
    have e1' : (Dbl.fin v).sub (d.value i) = .fin δ := by rw [h.value]; exact e1
    unfold pathSums
    simp only [e1', e2]
  have hsame := (setNode_same d i (.fin v)).1
  have hskel : Skel (d.setNode i (.fin v)) (s.setNode i v) := hk.setNode i (.fin v) v
  have hn1 : (({ d with value := fun j => if j = i then .fin v else d.value j } : DPrio).addTo i (.fin δ)).n = s.n := hdn
  rw [hn1] at a5 g1
  have hn2 : (s.setNode i v).n = s.n := by rw [hset]; rfl
  have hval : (s.setNode i v).value = fun j => if j = i then v else s.value j := by rw [hset]
  have key : ∃ S', Has (d.setNode i (.fin v)) S' (fun j => if j = i then v else s.value j) ∧ (∀ j, 0 ≤ S' j) ∧ (∀ j, s.n ≤ j → S' j ≤ B) ∧
      (∀ j, j < s.n → Within (gap s.n S' (fun j => if j = i then v else s.value j) j) 0 (2 * B)) ∧
      Within (gap s.n S' (fun j => if j = i then v else s.value j) i) 0 B ∧
      (i ≠ 0 → Within (gap s.n S' (fun j => if j = i then v else s.value j) ((i - 1) / 2)) 0 B) := by
    have hgone' : ∀ j, s.n ≤ j → S' j ≤ B := by
      intro j hj
      rw [a4 j (by omega)]
      have : j ≠ i := by omega
      simp only [this, if_false]
      exact hgone j hj
    unfold DPrio.setNode
    rw [hpath, a2]
    cases hle : (Dbl.fin x').le maxError with
    | true =>
      obtain ⟨b1, b2, b3⟩ := a5 hle
      have hlt : maxError.lt (.fin x') = false := by
        obtain ⟨m, m1, m2, m3⟩ := sc.err
        rw [m1] at hle ⊢
        have : x' ≤ m := by simpa [Dbl.le] using hle
        simp only [Dbl.lt, decide_eq_false_iff_not]
        grind
      rw [hlt]
      simp only [Bool.false_eq_true, if_false]
      have hgi : Within (gap s.n S' (fun j => if j = i then v else s.value j) i) 0 B := by
        have := sc.checked b1 g1
        have e : gap s.n S' (fun j => if j = i then v else s.value j) i =
            gap s.n (fun j => if j = i then y else S j) (fun j => if j = i then v else s.value j) i := by
          unfold gap kid
          rw [a4 i (by omega), a4 (2 * i + 1) (by omega), a4 (2 * i + 2) (by omega)]
        rw [e]
        exact this
      have hgp : i ≠ 0 → Within (gap s.n S' (fun j => if j = i then v else s.value j) ((i - 1) / 2)) 0 B := by
        intro hi0
        rcases b2 with h | h
        · exact absurd h hi0
        · exact h
      have wide : ∀ {g : Rat}, Within g 0 B → Within g 0 (2 * B) := by
        rintro g ⟨w1, w2⟩
        constructor <;> grind
      refine ⟨S', a1, fun j => (a3 j).1, hgone', fun j hj => ?_, hgi, hgp⟩
      by_cases hji : j = i
      · rw [hji]
        exact wide hgi
      · by_cases hjp : i ≠ 0 ∧ j = (i - 1) / 2
        · obtain ⟨hi0, rfl⟩ := hjp
          exact wide (hgp hi0)
        · rcases b3 j with hb3 | ⟨c1, c2, c3⟩
          · exact wide hb3
          · have k1 : 2 * j + 1 ≠ i := by
              intro hc
              exact hjp ⟨by omega, by omega⟩
            have k2 : 2 * j + 2 ≠ i := by
              intro hc
              exact hjp ⟨by omega, by omega⟩
            simp only [hji, k1, k2, if_false] at c1 c2 c3
            have e : gap s.n S' (fun j => if j = i then v else s.value j) j = gap s.n S s.value j := by
              unfold gap kid
              rw [c1, c2, c3]
              simp only [hji, if_false]
            rw [e]
            exact herr j hj hji (fun hi0 hc => hjp ⟨hi0, hc⟩)
    | false =>
      rw [sc.unchecked hle]
      simp only [if_true]
      have hn3 : ((({ d with value := fun j => if j = i then .fin v else d.value j } : DPrio).addTo i (.fin δ)).updateParents
          (.fin x1) i (.fin δ)).1.n = s.n := by
        have := (updateParents_same (({ d with value := fun j => if j = i then .fin v else d.value j } : DPrio).addTo i (.fin δ)) (.fin x1) i
          (.fin δ)).1.index
        unfold DPrio.n at hn1 ⊢
        rw [this]
        exact hn1
      have hcap' : s.n ≤ d.capacity := by rw [hk.cap]; exact hcap
      obtain ⟨S'', r1, r2, r3, r4⟩ := Has.reinit sc (s := { s with sum := f, value := fun j => if j = i then v else s.value j }) ht' hn
        (by rw [hset] at htot; have : f 0 = _ := htot; show f 0 ≤ X; grind) d.capacity a1 hn3 (fun j _ => (a3 j).1)
        (fun j _ hj => hgone' j hj) (fun j h1 h2 => by
          have : j < s.n := h2
          omega)
      have r4' : ∀ j, j < s.n → Within (gap s.n S'' (fun j => if j = i then v else s.value j) j) 0 B := r4
      refine ⟨S'', r1, r2, r3, fun j hj => ?_, r4' i hi, fun _ => r4' _ (by omega)⟩
      obtain ⟨w1, w2⟩ := r4' j hj
      constructor <;> grind
  obtain ⟨S'', r1, r2, r3, r4, r5, r6⟩ := key
  refine ⟨S'', ⟨hskel, ?_, r2, ?_, ?_⟩, ?_, ?_⟩
  · rw [hval]; exact r1
  · rw [hn2]; exact r3
  · rw [hn2, hval]; exact r4
  · rw [hval]; exact r5
  · rw [hval]; exact r6

end DPrio
end Verif
