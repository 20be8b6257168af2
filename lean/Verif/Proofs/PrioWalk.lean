import Verif.Proofs.Prio
namespace Verif
namespace Prio

/-- The indices of the subtree of `i` in the order in which the walk assigns weight to them. -/
def order (n i : Nat) : List Nat :=
  if i < n then order n (2 * i + 1) ++ order n (2 * i + 2) ++ [i] else []
termination_by n - i

/-- Sum of a function over a list of indices. -/
def wsum (v : Nat → Rat) : List Nat → Rat
  | [] => 0
  | i :: l => v i + wsum v l

theorem wsum_append (v : Nat → Rat) (a b : List Nat) : wsum v (a ++ b) = wsum v a + wsum v b := by
  induction a with
  | nil => simp [wsum]; grind
  | cons x a ih => simp only [List.cons_append, wsum, ih]; grind

theorem wsum_nonneg {v : Nat → Rat} (h : ∀ i, 0 ≤ v i) (l : List Nat) : 0 ≤ wsum v l := by
  induction l with
  | nil => simp [wsum]
  | cons x a ih => simp only [wsum]; have := h x; grind

theorem wsum_perm (v : Nat → Rat) {a b : List Nat} (h : a.Perm b) : wsum v a = wsum v b := by
  induction h with
  | nil => rfl
  | cons x _ ih => simp [wsum, ih]
  | swap x y l => simp only [wsum]; grind
  | trans _ _ h1 h2 => exact h1.trans h2

/-- Linear search for the index whose interval contains `t`. -/
def pick (v : Nat → Rat) : List Nat → Rat → Option Nat
  | [], _ => none
  | i :: l, t => if t < v i then some i else pick v l (t - v i)

theorem pick_append {v : Nat → Rat} (h : ∀ i, 0 ≤ v i) (a b : List Nat) (t : Rat) (ht : 0 ≤ t) :
    pick v (a ++ b) t = if t < wsum v a then pick v a t else pick v b (t - wsum v a) := by
  induction a generalizing t with
  | nil =>
    have : ¬ (t < 0) := by grind
    have e : t - 0 = t := by grind
    simp [wsum, this, e]
  | cons x a ih =>
    have hx := h x
    have ha := wsum_nonneg h a
    simp only [List.cons_append, pick, wsum]
    by_cases h1 : t < v x
    · have h2 : t < v x + wsum v a := by grind
      simp [h1, h2]
    · rw [if_neg h1, ih (t - v x) (by grind)]
      by_cases h2 : t < v x + wsum v a
      · have h3 : t - v x < wsum v a := by grind
        simp only [h1, h2, h3, if_true, if_false]
      · have h3 : ¬ t - v x < wsum v a := by grind
        simp only [h2, h3, if_false]
        congr 1; grind

theorem pick_mem {v : Nat → Rat} {l : List Nat} {t : Rat} {j : Nat} (h : pick v l t = some j) : j ∈ l := by
  induction l generalizing t with
  | nil => simp [pick] at h
  | cons x l ih =>
    simp only [pick] at h
    split at h
    · simp at h; simp [h]
    · exact List.mem_cons_of_mem _ (ih h)

theorem pick_total {v : Nat → Rat} {l : List Nat} {t : Rat} (h : t < wsum v l) (ht : 0 ≤ t) :
    ∃ j, pick v l t = some j := by
  induction l generalizing t with
  | nil => simp [wsum] at h; grind
  | cons x l ih =>
    simp only [pick]
    by_cases h1 : t < v x
    · exact ⟨x, by simp [h1]⟩
    · simp only [h1, if_false]
      exact ih (by simp [wsum] at h; grind) (by grind)

/-- Total weight before `j`. -/
def before (v : Nat → Rat) : List Nat → Nat → Rat
  | [], _ => 0
  | x :: l, j => if j = x then 0 else v x + before v l j

theorem before_nonneg {v : Nat → Rat} (h : ∀ i, 0 ≤ v i) (l : List Nat) (j : Nat) : 0 ≤ before v l j := by
  induction l with
  | nil => simp [before]
  | cons x l ih =>
    simp only [before]
    split
    · grind
    · have := h x; grind

theorem before_le {v : Nat → Rat} (h : ∀ i, 0 ≤ v i) {l : List Nat} {j : Nat} (hj : j ∈ l) :
    before v l j + v j ≤ wsum v l := by
  induction l with
  | nil => simp at hj
  | cons x l ih =>
    simp only [before, wsum]
    have hw := wsum_nonneg h l
    split
    · rename_i hc; subst hc; grind
    · rename_i hc
      have := ih (by simpa [hc] using hj)
      grind

theorem pick_iff {v : Nat → Rat} (h : ∀ i, 0 ≤ v i) {l : List Nat} (hn : l.Nodup) {j : Nat} (hj : j ∈ l)
    {t : Rat} (ht : 0 ≤ t) :
    pick v l t = some j ↔ before v l j ≤ t ∧ t < before v l j + v j := by
  induction l generalizing t with
  | nil => simp at hj
  | cons x l ih =>
    simp only [List.nodup_cons] at hn
    simp only [pick, before]
    by_cases hc : j = x
    · subst hc
      simp only [if_true]
      by_cases h1 : t < v j
      · simp only [h1, if_true, true_iff]; grind
      · simp only [h1, if_false]
        constructor
        · intro hp; exact absurd (pick_mem hp) hn.1
        · intro hp; grind
    · have hjl : j ∈ l := by simpa [hc] using hj
      have hb := before_nonneg h l j
      have hx := h x
      have hvj := h j
      by_cases h1 : t < v x
      · simp only [h1, if_true, hc, if_false, Option.some.injEq]
        constructor
        · intro he; exact absurd he.symm hc
        · intro he; grind
      · simp only [h1, if_false, hc]
        rw [ih hn.2 hjl (by grind)]
        grind

theorem mem_order_bounds {n i j : Nat} (h : j ∈ order n i) : i ≤ j ∧ j < n := by
  fun_induction order n i with
  | case1 i hi ih1 ih2 =>
    simp only [List.mem_append, List.mem_singleton] at h
    rcases h with (h | h) | h
    · have := ih1 h; omega
    · have := ih2 h; omega
    · omega
  | case2 i hi => simp at h

theorem order_root_mem {n i : Nat} (h : i < n) : i ∈ order n i := by
  unfold order; simp [h]

/-- Children of members are members. -/
theorem order_child {n i j c : Nat} (hj : j ∈ order n i) (hc : c = 2 * j + 1 ∨ c = 2 * j + 2) (hcn : c < n) :
    c ∈ order n i := by
  fun_induction order n i with
  | case1 i hi ih1 ih2 =>
    simp only [List.mem_append, List.mem_singleton] at hj ⊢
    rcases hj with (h | h) | h
    · exact Or.inl (Or.inl (ih1 h))
    · exact Or.inl (Or.inr (ih2 h))
    · subst h
      rcases hc with hc | hc
      · subst hc; exact Or.inl (Or.inl (order_root_mem hcn))
      · subst hc; exact Or.inl (Or.inr (order_root_mem hcn))
  | case2 i hi => simp at hj

/-- Parents of members other than the root are members. -/
theorem order_parent {n i j : Nat} (hj : j ∈ order n i) (hne : j ≠ i) : (j - 1) / 2 ∈ order n i := by
  fun_induction order n i with
  | case1 i hi ih1 ih2 =>
    simp only [List.mem_append, List.mem_singleton] at hj ⊢
    rcases hj with (h | h) | h
    · by_cases hc : j = 2 * i + 1
      · right; omega
      · exact Or.inl (Or.inl (ih1 h hc))
    · by_cases hc : j = 2 * i + 2
      · right; omega
      · exact Or.inl (Or.inr (ih2 h hc))
    · exact absurd h hne
  | case2 i hi => simp at hj

theorem order_disjoint {n i : Nat} : ∀ j, j ∈ order n (2 * i + 1) → j ∈ order n (2 * i + 2) → False := by
  intro j
  induction j using Nat.strongRecOn with
  | _ j ih =>
    intro h1 h2
    have b1 := mem_order_bounds h1
    have b2 := mem_order_bounds h2
    by_cases hc : j = 2 * i + 2
    · subst hc
      have := mem_order_bounds (order_parent h1 (by omega))
      omega
    · exact ih ((j - 1) / 2) (by omega) (order_parent h1 (by omega)) (order_parent h2 hc)

theorem order_nodup (n i : Nat) : (order n i).Nodup := by
  fun_induction order n i with
  | case1 i hi ih1 ih2 =>
    rw [List.nodup_append, List.nodup_append]
    refine ⟨⟨ih1, ih2, ?_⟩, by simp, ?_⟩
    · intro a ha b hb hab; subst hab; exact order_disjoint a ha hb
    · intro a ha b hb hab
      subst hab
      simp only [List.mem_singleton] at hb
      subst hb
      rcases List.mem_append.mp ha with h | h
      · have := mem_order_bounds h; omega
      · have := mem_order_bounds h; omega
  | case2 i hi => simp

theorem mem_order_zero {n j : Nat} : j ∈ order n 0 ↔ j < n := by
  constructor
  · intro h; exact (mem_order_bounds h).2
  · induction j using Nat.strongRecOn with
    | _ j ih =>
      intro hj
      by_cases h0 : j = 0
      · subst h0; exact order_root_mem hj
      · exact order_child (ih ((j - 1) / 2) (by omega) (by omega)) (by omega) hj

theorem order_sum {s : Prio} (h : Tree s) (i : Nat) : wsum s.value (order s.n i) = s.sum i := by
  fun_induction order s.n i with
  | case1 i hi ih1 ih2 =>
    rw [wsum_append, wsum_append, ih1, ih2, h.eq i]
    simp only [wsum]; grind
  | case2 i hi => rw [h.sum_zero i (by omega)]; rfl

theorem walk_eq {s : Prio} (h : Tree s) : ∀ (i : Nat) (t : Rat), i < s.n → 0 ≤ t → t < s.sum i →
    ∃ j r, s.walk i t = some (j, r) ∧ pick s.value (order s.n i) t = some j := by
  intro i
  induction hm : s.n - i using Nat.strongRecOn generalizing i with
  | _ m ih =>
    intro t hi ht hs
    unfold walk
    unfold order
    rw [nodeSum_eq h.sum_zero, nodeSum_eq h.sum_zero]
    simp only [hi, if_true]
    rw [pick_append h.value_nonneg _ _ _ ht, wsum_append, pick_append h.value_nonneg _ _ _ ht,
      order_sum h, order_sum h]
    have hl := h.sum_nonneg (2 * i + 1)
    have hr := h.sum_nonneg (2 * i + 2)
    have heq := h.eq i
    by_cases h1 : t < s.sum (2 * i + 1)
    · have hlt : 2 * i + 1 < s.n := by
        apply Classical.byContradiction; intro hc
        have := h.sum_zero (2 * i + 1) (by omega)
        grind
      obtain ⟨j, r, hw, hp⟩ := ih (s.n - (2 * i + 1)) (by omega) (2 * i + 1) rfl t hlt ht h1
      refine ⟨j, r, by simp [h1, hlt, hw], ?_⟩
      rw [if_pos (by grind), if_pos h1]; exact hp
    · by_cases h2 : t - s.sum (2 * i + 1) < s.sum (2 * i + 2)
      · have hlt : 2 * i + 2 < s.n := by
          apply Classical.byContradiction; intro hc
          have := h.sum_zero (2 * i + 2) (by omega)
          grind
        obtain ⟨j, r, hw, hp⟩ := ih (s.n - (2 * i + 2)) (by omega) (2 * i + 2) rfl
          (t - s.sum (2 * i + 1)) hlt (by grind) h2
        refine ⟨j, r, by simp [h1, h2, hlt, hw], ?_⟩
        rw [if_pos (by grind), if_neg h1]; exact hp
      · refine ⟨i, t - s.sum (2 * i + 1) - s.sum (2 * i + 2), by simp only [h1, h2, if_false], ?_⟩
        rw [if_neg (by grind)]
        simp only [pick]
        rw [if_pos (by grind)]

end Prio
end Verif
