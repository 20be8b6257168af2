import Verif.Proofs.PrioWalk
namespace Verif
open Spec (Call Book Entry)
namespace Prio

/-- Tree plus key bookkeeping. -/
structure WF (s : Prio) : Prop where
  tree : Tree s
  cap_pos : 0 < s.capacity
  cap : s.n ≤ s.capacity
  bij : ∀ k i, s.index.get? k = some i ↔ (i < s.n ∧ s.keyAt i = k)

structure R (s : Prio) (b : Book) : Prop where
  wf : WF s
  present : ∀ k, (s.index.get? k).isSome = (b k).isSome
  weight : ∀ k i e, s.index.get? k = some i → b k = some e →
    ∃ q, e.pri = .val q ∧ 0 ≤ q ∧ s.value i = s.pow.power q

theorem WF.init (w : PowFn) : WF (init w) := by
  refine ⟨⟨?_, ?_, ?_, ?_, ?_⟩, by simp [Prio.init], by simp [Prio.init, n], ?_⟩
  · intro i; simp [Prio.init]; grind
  · intro i; simp [Prio.init]
  · intro i; simp [Prio.init]
  · intro i; simp [Prio.init]
  · intro i; simp [Prio.init]
  · intro k i; simp [Prio.init, n]

theorem R.init (w : PowFn) : R (init w) (fun _ => none) :=
  ⟨WF.init w, by simp [Prio.init], by simp [Prio.init]⟩

theorem WF.withCap {s : Prio} (h : WF s) (c : Nat) (hc : s.n ≤ c) (hp : 0 < c) :
    WF { s with capacity := c } :=
  ⟨⟨h.tree.eq, h.tree.value_nonneg, h.tree.sum_nonneg, h.tree.value_zero, h.tree.sum_zero⟩, hp, hc, h.bij⟩

/-- State after a successful insertion. -/
theorem insert_ok {s : Prio} (h : WF s) {k : Key} {q : Rat} (hq : 0 ≤ q) (hk : s.index.get? k = none) :
    ∃ f c, s.insert k (.val q) =
        ({ s with capacity := c, sum := f, value := fun j => if j = s.n then s.pow.power q else s.value j,
                  index := s.index.insert k s.n,
                  keyAt := fun j => if j = s.n then k else s.keyAt j }, .ok ()) ∧
      WF { s with capacity := c, sum := f, value := fun j => if j = s.n then s.pow.power q else s.value j,
                  index := s.index.insert k s.n,
                  keyAt := fun j => if j = s.n then k else s.keyAt j } := by
  have hcp : checkPriority (.val q) = some q := by simp [checkPriority]; grind
  obtain ⟨c, hc, hc1⟩ : ∃ c, (if s.n = s.capacity then { s with capacity := s.capacity * 2 } else s) =
      { s with capacity := c } ∧ s.n < c := by
    by_cases hcap : s.n = s.capacity
    · exact ⟨s.capacity * 2, by simp [hcap], by have := h.cap_pos; omega⟩
    · exact ⟨s.capacity, by simp [hcap], by have := h.cap; omega⟩
  have hsz : (s.index.insert k s.n).size = s.n + 1 := AMap.size_insert_of_none _ hk
  have ht : Tree { s with capacity := c, index := s.index.insert k s.n,
                          keyAt := fun j => if j = s.n then k else s.keyAt j } := by
    refine ⟨h.tree.eq, h.tree.value_nonneg, h.tree.sum_nonneg, ?_, ?_⟩
    · intro i hi
      have : s.n + 1 ≤ i := by rw [← hsz]; exact hi
      exact h.tree.value_zero i (by omega)
    · intro i hi
      have : s.n + 1 ≤ i := by rw [← hsz]; exact hi
      exact h.tree.sum_zero i (by omega)
  obtain ⟨f, hf, htf⟩ := setNode_ok (i := s.n) (v := s.pow.power q)
    (by show s.n < (s.index.insert k s.n).size; omega) (s.pow.power_nonneg hq) ht
  refine ⟨f, c, ?_, htf, ?_, ?_, ?_⟩
  · simp only [Prio.insert, hcp, hc, hk]
    rw [if_pos hc1, hf]
  · show 0 < c; omega
  · show (s.index.insert k s.n).size ≤ c; omega
  · intro k' i
    show (s.index.insert k s.n).get? k' = some i ↔ (i < (s.index.insert k s.n).size ∧ _)
    rw [hsz, AMap.get?_insert]
    simp only
    by_cases hi : i = s.n
    · subst hi
      by_cases hkk : k' = k
      · simp [hkk]
      · simp only [hkk, if_false, if_true, h.bij]
        constructor
        · rintro ⟨h1, _⟩; omega
        · rintro ⟨_, h2⟩; exact absurd h2.symm hkk
    · by_cases hkk : k' = k
      · subst hkk
        simp only [if_true, hi, if_false, Option.some.injEq]
        constructor
        · intro h1; exact absurd h1.symm hi
        · rintro ⟨h1, h2⟩
          have := (h.bij k' i).mpr ⟨by omega, h2⟩
          rw [hk] at this; simp at this
      · simp only [hkk, if_false, hi, h.bij]
        constructor
        · rintro ⟨h1, h2⟩; exact ⟨by omega, h2⟩
        · rintro ⟨h1, h2⟩; exact ⟨by omega, h2⟩

theorem insert_dup {s : Prio} {k : Key} {p : Pri} {i : Nat} (hk : s.index.get? k = some i) :
    ∃ c, s.insert k p = ({ s with capacity := c }, .err .invalidArgument) ∧ s.capacity ≤ c := by
  unfold Prio.insert
  cases checkPriority p with
  | none => exact ⟨s.capacity, rfl, Nat.le_refl _⟩
  | some q =>
    by_cases hcap : s.n = s.capacity
    · exact ⟨s.capacity * 2, by simp [hcap, hk], by omega⟩
    · exact ⟨s.capacity, by simp [hcap, hk], by omega⟩

theorem update_ok {s : Prio} (h : WF s) {k : Key} {q : Rat} {i : Nat} (hq : 0 ≤ q)
    (hk : s.index.get? k = some i) :
    ∃ f, s.update k (.val q) =
        ({ s with sum := f, value := fun j => if j = i then s.pow.power q else s.value j }, .ok ()) ∧
      WF { s with sum := f, value := fun j => if j = i then s.pow.power q else s.value j } := by
  have hcp : checkPriority (.val q) = some q := by simp [checkPriority]; grind
  obtain ⟨f, hf, htf⟩ := setNode_ok (i := i) (v := s.pow.power q) ((h.bij k i).mp hk).1
    (s.pow.power_nonneg hq) h.tree
  exact ⟨f, by simp [Prio.update, hcp, hk, hf], htf, h.cap_pos, h.cap, h.bij⟩

/-- The state after a successful deletion, with new sums `f`. -/
def deleted (s : Prio) (k : Key) (i : Nat) (f : Nat → Rat) : Prio :=
  if i = s.n - 1 then
    { s with sum := f, value := fun j => if j = i then 0 else s.value j, index := s.index.erase k }
  else
    { s with
      sum := f
      value := fun j => if j = s.n - 1 then 0 else if j = i then s.value (s.n - 1) else s.value j
      keyAt := fun j => if j = i then s.keyAt (s.n - 1) else s.keyAt j
      index := (s.index.insert (s.keyAt (s.n - 1)) i).erase k }

theorem delete_ok {s : Prio} (h : WF s) {k : Key} {i : Nat} (hk : s.index.get? k = some i) :
    ∃ s', s.delete k = (s', .ok ()) ∧ WF s' ∧ s'.pow = s.pow ∧ (∃ f, s' = s.deleted k i f) ∧
      (∀ k', (s'.index.get? k').isSome = (if k' = k then false else (s.index.get? k').isSome)) ∧
      (∀ k' j, s'.index.get? k' = some j → ∃ j', s.index.get? k' = some j' ∧ s'.value j = s.value j') := by
  obtain ⟨hin, hkey⟩ := (h.bij k i).mp hk
  have hsz : s.n = s.index.size := rfl
  have hdel : ∀ f, s.deleted k i f = s.deleted k i f := fun _ => rfl
  conv at hdel => intro f; rhs; unfold deleted
  generalize hl : s.n - 1 = last at *
  have hln : last < s.n := by omega
  have hne : s.n = last + 1 := by omega
  by_cases hil : i = last
  · -- the last element is removed
    subst hil
    obtain ⟨f, hf, htf⟩ := setNode_ok (i := i) (v := 0) hin (by grind) h.tree
    have hsz' : (s.index.erase k).size = i := by
      have := AMap.size_erase_of_some hk; omega
    refine ⟨{ s with sum := f, value := fun j => if j = i then 0 else s.value j,
                     index := s.index.erase k }, by simp [Prio.delete, hk, hl, hf], ⟨?_, h.cap_pos, ?_, ?_⟩,
      rfl, ⟨f, by rw [hdel]; simp⟩, ?_, ?_⟩
    · refine ⟨htf.eq, htf.value_nonneg, htf.sum_nonneg, ?_, ?_⟩
      · intro j hj
        have hj : i ≤ j := by simpa [n, hsz'] using hj
        by_cases hji : j = i
        · simp [hji]
        · simp only [hji, if_false]; exact h.tree.value_zero j (by omega)
      · intro j hj
        have hj : i ≤ j := by simpa [n, hsz'] using hj
        by_cases hji : j = i
        · subst hji
          have e := htf.eq j
          have e1 := htf.sum_zero (2 * j + 1) (by show s.n ≤ _; omega)
          have e2 := htf.sum_zero (2 * j + 2) (by show s.n ≤ _; omega)
          simp only [if_true] at e e1 e2 ⊢
          grind
        · exact htf.sum_zero j (by show s.n ≤ _; omega)
    · show (s.index.erase k).size ≤ s.capacity
      have := h.cap; omega
    · intro k' j
      show (s.index.erase k).get? k' = some j ↔ (j < (s.index.erase k).size ∧ s.keyAt j = k')
      rw [hsz', AMap.get?_erase]
      by_cases hkk : k' = k
      · subst hkk
        simp only [if_true, reduceCtorEq, false_iff]
        rintro ⟨h1, h2⟩
        have := (h.bij k' j).mpr ⟨by omega, h2⟩
        rw [hk] at this; simp at this; omega
      · simp only [hkk, if_false, h.bij]
        constructor
        · rintro ⟨h1, h2⟩
          refine ⟨?_, h2⟩
          have : j ≠ i := by intro hc; subst hc; rw [hkey] at h2; exact hkk h2.symm
          omega
        · rintro ⟨h1, h2⟩; exact ⟨by omega, h2⟩
    · intro k'; simp only [AMap.get?_erase]; split <;> simp
    · intro k' j hj
      simp only [AMap.get?_erase] at hj
      split at hj
      · simp at hj
      · rename_i hkk
        refine ⟨j, hj, ?_⟩
        have : j ≠ i := by
          intro hc; subst hc
          exact hkk ((((h.bij k' j).mp hj).2).symm.trans hkey)
        simp [this]
  · -- swap with the last element
    have hlk : s.index.get? (s.keyAt last) = some last := (h.bij _ _).mpr ⟨hln, rfl⟩
    have hlne : s.keyAt last ≠ k := by
      intro hc; rw [hc, hk] at hlk; simp at hlk; exact hil hlk
    obtain ⟨f, hf, htf⟩ := setNode_ok (i := i) (v := s.value last) hin (h.tree.value_nonneg _) h.tree
    have hsz1 : (s.index.insert (s.keyAt last) i).size = last + 1 := by
      rw [AMap.size_insert_of_some _ hlk]; omega
    have ht1 : Tree { s with sum := f, value := fun j => if j = i then s.value last else s.value j,
                             keyAt := fun j => if j = i then s.keyAt last else s.keyAt j,
                             index := s.index.insert (s.keyAt last) i } := by
      refine ⟨htf.eq, htf.value_nonneg, htf.sum_nonneg, ?_, ?_⟩
      · intro j hj
        have : last + 1 ≤ j := by simpa [n, hsz1] using hj
        exact htf.value_zero j (by show s.n ≤ j; omega)
      · intro j hj
        have : last + 1 ≤ j := by simpa [n, hsz1] using hj
        exact htf.sum_zero j (by show s.n ≤ j; omega)
    obtain ⟨g, hg, htg⟩ := setNode_ok (i := last) (v := 0)
      (by show last < (s.index.insert (s.keyAt last) i).size; omega) (by grind) ht1
    have hsz2 : ((s.index.insert (s.keyAt last) i).erase k).size = last := by
      have hkg : (s.index.insert (s.keyAt last) i).get? k = some i := by
        rw [AMap.get?_insert, if_neg (fun hc => hlne hc.symm)]; exact hk
      have := AMap.size_erase_of_some hkg; omega
    have hget : ∀ k' j, ((s.index.insert (s.keyAt last) i).erase k).get? k' = some j ↔
        (k' ≠ k ∧ ((k' = s.keyAt last ∧ j = i) ∨ (k' ≠ s.keyAt last ∧ s.index.get? k' = some j))) := by
      intro k' j
      rw [AMap.get?_erase, AMap.get?_insert]
      by_cases h1 : k' = k
      · simp [h1]
      · by_cases h2 : k' = s.keyAt last
        · simp [h2, hlne]
          exact eq_comm
        · simp [h1, h2]
    refine ⟨{ s with
        sum := g
        value := fun j => if j = last then 0 else if j = i then s.value last else s.value j
        keyAt := fun j => if j = i then s.keyAt last else s.keyAt j
        index := (s.index.insert (s.keyAt last) i).erase k }, ?_, ⟨?_, h.cap_pos, ?_, ?_⟩, rfl,
        ⟨g, by rw [hdel]; simp [hil]⟩, ?_, ?_⟩
    · simp [Prio.delete, hk, hl, hil, hf]
      have : ({ s with sum := f, value := fun j => if j = i then s.value last else s.value j } : Prio).keyAt last
          = s.keyAt last := rfl
      simp [hg]
    · refine ⟨htg.eq, htg.value_nonneg, htg.sum_nonneg, ?_, ?_⟩
      · intro j hj
        have hj : last ≤ j := by simpa [n, hsz2] using hj
        by_cases hji : j = last
        · simp [hji]
        · exact htg.value_zero j (by show (s.index.insert (s.keyAt last) i).size ≤ _; omega)
      · intro j hj
        have hj : last ≤ j := by simpa [n, hsz2] using hj
        have hz : ∀ j, last < j → g j = 0 := fun j hj =>
          htg.sum_zero j (by show (s.index.insert (s.keyAt last) i).size ≤ _; omega)
        by_cases hji : j = last
        · subst hji
          have e := htg.eq j
          have e1 := hz (2 * j + 1) (by omega)
          have e2 := hz (2 * j + 2) (by omega)
          simp only [if_true] at e ⊢
          grind
        · exact hz j (by omega)
    · show ((s.index.insert (s.keyAt last) i).erase k).size ≤ s.capacity
      have := h.cap; omega
    · intro k' j
      show ((s.index.insert (s.keyAt last) i).erase k).get? k' = some j ↔
        (j < ((s.index.insert (s.keyAt last) i).erase k).size ∧
          (if j = i then s.keyAt last else s.keyAt j) = k')
      rw [hget, hsz2]
      by_cases hji : j = i
      · subst hji
        simp only [if_true, and_true]
        constructor
        · rintro ⟨h1, h2 | h2⟩
          · exact ⟨by omega, h2.symm⟩
          · exact absurd ((h.bij _ _).mp h2.2).2 (by rw [hkey]; exact fun hc => h1 hc.symm)
        · rintro ⟨_, h2⟩
          exact ⟨by rw [← h2]; exact hlne, Or.inl h2.symm⟩
      · simp only [hji, if_false, and_false, false_or]
        constructor
        · rintro ⟨_, h2, h3⟩
          obtain ⟨h4, h5⟩ := (h.bij _ _).mp h3
          refine ⟨?_, h5⟩
          have : j ≠ last := by intro hc; subst hc; exact h2 h5.symm
          omega
        · rintro ⟨h1, h2⟩
          have hg' : s.index.get? k' = some j := (h.bij _ _).mpr ⟨by omega, h2⟩
          refine ⟨?_, ?_, hg'⟩
          · intro hc; subst hc; rw [hk] at hg'; simp at hg'; exact hji hg'.symm
          · intro hc; rw [hc, hlk] at hg'; simp at hg'; omega
    · intro k'
      simp only [AMap.get?_erase, AMap.get?_insert]
      by_cases h1 : k' = k
      · simp [h1]
      · by_cases h2 : k' = s.keyAt last
        · subst h2; simp [h1, hlk]
        · simp [h1, h2]
    · intro k' j hj
      rcases (hget k' j).mp hj with ⟨_, ⟨h2, h3⟩ | ⟨h2, h3⟩⟩
      · subst h2; subst h3
        exact ⟨last, hlk, by simp [hil]⟩
      · refine ⟨j, h3, ?_⟩
        obtain ⟨h4, h5⟩ := (h.bij _ _).mp h3
        have e1 : j ≠ last := by intro hc; subst hc; exact h2 h5.symm
        by_cases e2 : j = i
        · subst e2
          rw [hkey] at h5
          rename_i h1
          exact absurd h5.symm h1
        · simp [e1, e2]

theorem succeeds_false_insert {b : Book} {k : Key} {p : Pri} {a : Pri → Bool}
    (h : a p = false ∨ (b k).isSome) : Spec.succeeds a b (.insert k p) = false := by
  rcases h with h | h
  · simp [Spec.succeeds, h]
  · cases hb : b k <;> simp_all [Spec.succeeds]

theorem step_update_fail (a : Pri → Bool) (t : Nat) (b : Book) (k : Key) (p : Pri)
    (h : a p = false ∨ b k = none) : b.step a t (.update k p) = b := by
  funext k'
  simp only [Book.step]
  split
  · rename_i hc
    rcases h with h | h
    · rw [h] at hc; simp at hc
    · rw [hc.1, h]; rfl
  · rfl

theorem R.withCap {s : Prio} {b : Book} (h : R s b) (c : Nat) (hc : s.capacity ≤ c) :
    R { s with capacity := c } b :=
  ⟨h.wf.withCap c (by have := h.wf.cap; omega) (by have := h.wf.cap_pos; omega), h.present, h.weight⟩

theorem checkPriority_some {p : Pri} (h : Spec.acceptNonneg p = true) :
    ∃ q, p = .val q ∧ 0 ≤ q := by
  cases p with
  | nan => simp [Spec.acceptNonneg] at h
  | val q => exact ⟨q, rfl, by simpa [Spec.acceptNonneg] using h⟩

theorem checkPriority_none {p : Pri} (h : Spec.acceptNonneg p = false) : checkPriority p = none := by
  cases p with
  | nan => rfl
  | val q => simp [Spec.acceptNonneg] at h; simp [checkPriority]; grind

theorem R.step {s : Prio} {b : Book} (h : R s b) (t : Nat) (c : Call) :
    R (s.apply c).1 (b.step Spec.acceptNonneg t c) ∧
    (s.apply c).2 = (if Spec.succeeds Spec.acceptNonneg b c then .ok () else .err .invalidArgument) ∧
    ((s.apply c).2 ≠ .ok () → ∃ cap, s.capacity ≤ cap ∧ (s.apply c).1 = { s with capacity := cap }) ∧
    (s.apply c).1.pow = s.pow := by
  cases c with
  | insert k p =>
    simp only [Prio.apply]
    cases hk : s.index.get? k with
    | some i =>
      have hb : (b k).isSome := by rw [← h.present k, hk]; rfl
      obtain ⟨cap, he, hcap⟩ := insert_dup (p := p) hk
      rw [he, ListSel.sameSince_insert_fail _ _ _ _ _ (Or.inr hb), succeeds_false_insert (Or.inr hb)]
      exact ⟨h.withCap cap hcap, by simp, fun _ => ⟨cap, hcap, rfl⟩, rfl⟩
    | none =>
      have hb : b k = none := by
        have := h.present k; rw [hk] at this; cases hb : b k <;> simp_all
      by_cases ha : Spec.acceptNonneg p = true
      · obtain ⟨q, rfl, hq⟩ := checkPriority_some ha
        obtain ⟨f, cap, he, hwf⟩ := insert_ok h.wf hq hk
        rw [he]
        refine ⟨⟨hwf, ?_, ?_⟩, by simp [Spec.succeeds, ha, hb], by simp, rfl⟩
        · intro k'
          simp only [AMap.get?_insert, Book.step, ha, hb]
          by_cases hkk : k' = k
          · simp [hkk]
          · simp [hkk, h.present]
        · intro k' i e hi hbe
          simp only [AMap.get?_insert] at hi
          simp only [Book.step, ha, hb, and_true] at hbe
          by_cases hkk : k' = k
          · simp [hkk] at hi hbe
            subst hi; subst hbe
            exact ⟨q, rfl, hq, by simp⟩
          · simp [hkk] at hi hbe
            obtain ⟨q', h1, h2, h3⟩ := h.weight k' i e hi hbe
            refine ⟨q', h1, h2, ?_⟩
            have := ((h.wf.bij _ _).mp hi).1
            have hne : i ≠ s.n := by omega
            simp only [hne, if_false]; exact h3
      · have ha : Spec.acceptNonneg p = false := by simpa using ha
        have he : s.insert k p = (s, .err .invalidArgument) := by
          simp [Prio.insert, checkPriority_none ha]
        rw [he, ListSel.sameSince_insert_fail _ _ _ _ _ (Or.inl ha), succeeds_false_insert (Or.inl ha)]
        exact ⟨h, by simp, fun _ => ⟨s.capacity, Nat.le_refl _, rfl⟩, rfl⟩
  | update k p =>
    simp only [Prio.apply]
    by_cases ha : Spec.acceptNonneg p = true
    · obtain ⟨q, rfl, hq⟩ := checkPriority_some ha
      cases hk : s.index.get? k with
      | some i =>
        have hb : (b k).isSome := by rw [← h.present k, hk]; rfl
        obtain ⟨e0, he0⟩ := Option.isSome_iff_exists.mp hb
        obtain ⟨f, he, hwf⟩ := update_ok h.wf hq hk
        rw [he]
        refine ⟨⟨hwf, ?_, ?_⟩, by simp [Spec.succeeds, ha, he0], by simp, rfl⟩
        · intro k'
          simp only [Book.step, ha, and_true]
          by_cases hkk : k' = k
          · simp [hkk, hk, he0]
          · simp [hkk, h.present]
        · intro k' j e hj hbe
          simp only [Book.step, ha, and_true] at hbe
          by_cases hkk : k' = k
          · subst hkk
            have hj : s.index.get? k' = some j := hj
            rw [hk] at hj
            simp [he0] at hj hbe
            subst hj; subst hbe
            exact ⟨q, rfl, hq, by simp⟩
          · simp [hkk] at hbe
            obtain ⟨q', h1, h2, h3⟩ := h.weight k' j e hj hbe
            refine ⟨q', h1, h2, ?_⟩
            have hne : j ≠ i := by
              intro hc; subst hc
              have e1 := ((h.wf.bij _ _).mp hj).2
              have e2 := ((h.wf.bij _ _).mp hk).2
              exact hkk (e1.symm.trans e2)
            simp only [hne, if_false]; exact h3
      | none =>
        have hb : b k = none := by
          have := h.present k; rw [hk] at this; cases hb : b k <;> simp_all
        have he : s.update k (.val q) = (s, .err .invalidArgument) := by
          simp only [Prio.update, hk]; split <;> rfl
        rw [he, step_update_fail _ _ _ _ _ (Or.inr hb)]
        exact ⟨h, by simp [Spec.succeeds, hb], fun _ => ⟨s.capacity, Nat.le_refl _, rfl⟩, rfl⟩
    · have ha : Spec.acceptNonneg p = false := by simpa using ha
      have he : s.update k p = (s, .err .invalidArgument) := by
        simp [Prio.update, checkPriority_none ha]
      rw [he, step_update_fail _ _ _ _ _ (Or.inl ha)]
      exact ⟨h, by simp [Spec.succeeds, ha], fun _ => ⟨s.capacity, Nat.le_refl _, rfl⟩, rfl⟩
  | delete k =>
    simp only [Prio.apply]
    cases hk : s.index.get? k with
    | some i =>
      have hb : (b k).isSome := by rw [← h.present k, hk]; rfl
      obtain ⟨s', he, hwf, hpow, _, hpres, hval⟩ := delete_ok h.wf hk
      rw [he]
      refine ⟨⟨hwf, ?_, ?_⟩, by simp [Spec.succeeds, hb], by simp, hpow⟩
      · intro k'
        rw [hpres]
        simp only [Book.step]
        split
        · rfl
        · exact h.present k'
      · intro k' j e hj hbe
        obtain ⟨j', h1, h2⟩ := hval k' j hj
        have hkk : k' ≠ k := by
          intro hc
          have := hpres k'
          rw [hj, hc] at this; simp at this
        simp only [Book.step, hkk, if_false] at hbe
        obtain ⟨q', h3, h4, h5⟩ := h.weight k' j' e h1 hbe
        exact ⟨q', h3, h4, by rw [hpow, h2]; exact h5⟩
    | none =>
      have hb : b k = none := by
        have := h.present k; rw [hk] at this; cases hb : b k <;> simp_all
      have he : s.delete k = (s, .err .invalidArgument) := by simp [Prio.delete, hk]
      rw [he, ListSel.step_delete_absent _ _ _ _ hb]
      exact ⟨h, by simp [Spec.succeeds, hb], fun _ => ⟨s.capacity, Nat.le_refl _, rfl⟩, rfl⟩
  | clear =>
    simp only [Prio.apply]
    refine ⟨⟨⟨⟨?_, ?_, ?_, ?_, ?_⟩, h.wf.cap_pos, ?_, ?_⟩, ?_, ?_⟩, by simp [Spec.succeeds], by simp, rfl⟩
    · intro i
      have hz : ∀ i, s.clear.sum i = 0 := by
        intro i; simp only [clear]; split
        · rfl
        · exact h.wf.tree.sum_zero i (by omega)
      have hv : s.clear.value i = 0 := by
        simp only [clear]; split
        · rfl
        · exact h.wf.tree.value_zero i (by omega)
      rw [hz, hz, hz, hv]; grind
    · intro i; simp only [clear]; split
      · grind
      · exact h.wf.tree.value_nonneg i
    · intro i; simp only [clear]; split
      · grind
      · exact h.wf.tree.sum_nonneg i
    · intro i _; simp only [clear]; split
      · rfl
      · exact h.wf.tree.value_zero i (by omega)
    · intro i _; simp only [clear]; split
      · rfl
      · exact h.wf.tree.sum_zero i (by omega)
    · simp [clear, n]
    · intro k i; simp [clear, n]
    · intro k; simp [clear, Book.step]
    · intro k i e hi; simp [clear] at hi

theorem R.runFrom (cs : List Call) : ∀ {s b} (t : Nat), R s b →
    R (runCalls Prio.apply s cs) (Book.runFrom Spec.acceptNonneg t b cs) ∧
    (runCalls Prio.apply s cs).pow = s.pow := by
  induction cs with
  | nil => intro s b t h; exact ⟨h, rfl⟩
  | cons c cs ih =>
    intro s b t h
    obtain ⟨h1, _, _, h4⟩ := h.step t c
    obtain ⟨i1, i2⟩ := ih (t + 1) h1
    exact ⟨i1, i2.trans h4⟩

end Prio
end Verif
