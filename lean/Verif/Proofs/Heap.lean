import Verif.Model.Selector
import Verif.Proofs.ListSel
namespace Verif
open Spec (Call Book Entry)

/-- A node whose priority is a number. -/
def HNode.Valid (x : HNode) : Prop := x.pri ≠ .nan

/-- `x` does not come after `y`. -/
def HNode.le (x y : HNode) : Prop := y.lt x = false

theorem HNode.le_trans {x y z : HNode} (hx : x.Valid) (hy : y.Valid) (hz : z.Valid)
    (h1 : x.le y) (h2 : y.le z) : x.le z := by
  obtain ⟨kx, px, ux⟩ := x
  obtain ⟨ky, py, uy⟩ := y
  obtain ⟨kz, pz, uz⟩ := z
  simp only [HNode.Valid] at hx hy hz
  cases px <;> cases py <;> cases pz <;>
    simp_all [HNode.le, HNode.lt, Pri.lt, Pri.eqb]
  grind

theorem HNode.le_of_lt {x y : HNode} (h : x.lt y = true) : x.le y := by
  obtain ⟨kx, px, ux⟩ := x
  obtain ⟨ky, py, uy⟩ := y
  cases px <;> cases py <;> simp_all [HNode.le, HNode.lt, Pri.lt, Pri.eqb]
  grind

namespace HArr

/-- Links and vector agree. -/
def Cons (a : HArr) : Prop := ∀ k i, a.pos k = some i ↔ i < a.n ∧ (a.at_ i).key = k

/-- `x` is stored in the vector. -/
def In (a : HArr) (x : HNode) : Prop := ∃ i, i < a.n ∧ a.at_ i = x

/-- The heap property. -/
def Ord (a : HArr) : Prop :=
  ∀ i, 0 < i → i < a.n → (a.at_ ((i - 1) / 2)).le (a.at_ i)

/-- All stored priorities are numbers. -/
def AllValid (a : HArr) : Prop := ∀ i, i < a.n → (a.at_ i).Valid

theorem In.congr_valid {a b : HArr} (h : ∀ x, a.In x ↔ b.In x) (hv : a.AllValid) : b.AllValid := by
  intro i hi
  obtain ⟨j, hj, he⟩ := (h (b.at_ i)).mpr ⟨i, hi, rfl⟩
  rw [← he]; exact hv j hj

theorem Cons.uniq {a : HArr} (h : a.Cons) {i j : Nat} (hi : i < a.n) (hj : j < a.n)
    (hk : (a.at_ i).key = (a.at_ j).key) : i = j := by
  have h1 := (h (a.at_ i).key i).mpr ⟨hi, rfl⟩
  have h2 := (h (a.at_ i).key j).mpr ⟨hj, hk.symm⟩
  rw [h1] at h2; simpa using h2

@[simp] theorem put_n (a : HArr) (i t) : (a.put i t).n = a.n := rfl
@[simp] theorem put_at_self (a : HArr) (i t) : (a.put i t).at_ i = t := by simp [put]
theorem put_at (a : HArr) (i j t) : (a.put i t).at_ j = if j = i then t else a.at_ j := rfl
theorem put_pos (a : HArr) (i t k) :
    (a.put i t).pos k = if k = t.key then some i else a.pos k := rfl

/-- Moving the hole from `h` to `p` swaps two entries of the array with the hole filled. -/
theorem move_cons {a : HArr} {h p : Nat} {t : HNode} (hh : h < a.n) (hp : p < a.n) (hne : p ≠ h)
    (hc : (a.put h t).Cons) : ((a.put h (a.at_ p)).put p t).Cons := by
  have hkey : (a.at_ p).key ≠ t.key := by
    intro hk
    apply hne
    apply hc.uniq (i := p) (j := h) hp hh
    simp [put_at, hne, hk]
  intro k i
  have h0 := hc k i
  have h1 := hc k h
  have h2 := hc k p
  simp only [put_n, put_at, put_pos] at h0 h1 h2 ⊢
  by_cases hkt : k = t.key
  · subst hkt
    simp only [if_true, Option.some.injEq] at h0 h1 h2 ⊢
    by_cases hip : i = p
    · subst hip; simp [hp]
    · by_cases hih : i = h
      · subst hih
        simp only [hip, if_false, if_true]
        constructor
        · intro hc'; exact absurd hc'.symm hip
        · intro hc'; exact absurd hc'.2 hkey
      · simp only [hip, hih, if_false] at h0 ⊢
        constructor
        · intro hc'; exact absurd hc'.symm hip
        · intro hc'; exact absurd (h0.mpr hc').symm hih
  · simp only [hkt, if_false] at h0 h1 h2 ⊢
    by_cases hkp : k = (a.at_ p).key
    · subst hkp
      simp only [if_true, Option.some.injEq]
      by_cases hip : i = p
      · subst hip
        simp only [if_true]
        constructor
        · intro hc'; exact absurd hc'.symm hne
        · intro hc'; exact absurd hc'.2.symm hkt
      · by_cases hih : i = h
        · subst hih; simp [hip, hh]
        · simp only [hip, hih, if_false] at h0 ⊢
          constructor
          · intro hc'; exact absurd hc'.symm hih
          · intro hc'
            have := h0.mpr hc'
            simp only [hne, if_false, hp, and_self, iff_true] at h2
            rw [h2] at this; simp at this; exact absurd this.symm hip
    · simp only [hkp, if_false]
      by_cases hip : i = p
      · subst hip
        simp only [hne, if_false] at h0
        rw [h0]
        simp only [if_true]
        constructor
        · intro hc'; exact absurd hc'.2.symm hkp
        · intro hc'; exact absurd hc'.2.symm hkt
      · by_cases hih : i = h
        · subst hih
          simp only [if_true] at h0
          rw [h0]
          simp only [hip, if_false, if_true]
          constructor
          · intro hc'; exact absurd hc'.2.symm hkt
          · intro hc'; exact absurd hc'.2.symm hkp
        · simp only [hip, hih, if_false] at h0 ⊢
          exact h0

theorem move_in {a : HArr} {h p : Nat} {t : HNode} (hh : h < a.n) (hp : p < a.n) (hne : p ≠ h)
    (x : HNode) : ((a.put h (a.at_ p)).put p t).In x ↔ (a.put h t).In x := by
  simp only [In, put_n, put_at]
  constructor
  · rintro ⟨i, hi, he⟩
    by_cases hip : i = p
    · exact ⟨h, hh, by simpa [hip] using he⟩
    · by_cases hih : i = h
      · exact ⟨p, hp, by simpa [hip, hih, hne, Ne.symm hne] using he⟩
      · exact ⟨i, hi, by simpa [hip, hih] using he⟩
  · rintro ⟨i, hi, he⟩
    by_cases hip : i = p
    · exact ⟨h, hh, by subst hip; simpa [hne, Ne.symm hne] using he⟩
    · by_cases hih : i = h
      · exact ⟨p, hp, by simpa [hip, hih, hne] using he⟩
      · exact ⟨i, hi, by simpa [hip, hih] using he⟩

theorem fixUp_ok (a : HArr) (h : Nat) (t : HNode) (hh : h < a.n) (hc : (a.put h t).Cons) :
    (a.fixUp h t).n = a.n ∧ (a.fixUp h t).Cons ∧
      ∀ x, (a.fixUp h t).In x ↔ (a.put h t).In x := by
  fun_induction fixUp a h t with
  | case1 a => exact ⟨rfl, hc, fun _ => Iff.rfl⟩
  | case2 a h h0 hlt => exact ⟨rfl, hc, fun _ => Iff.rfl⟩
  | case3 a h h0 hlt ih =>
    have hp : (h - 1) / 2 < a.n := by omega
    have hne : (h - 1) / 2 ≠ h := by omega
    obtain ⟨i1, i2, i3⟩ := ih hp (move_cons hh hp hne hc)
    exact ⟨i1, i2, fun x => (i3 x).trans (move_in hh hp hne x)⟩

theorem minKid_cases (a : HArr) (h : Nat) (hk : 2 * h + 1 < a.n) :
    (a.minKid h = 2 * h + 1 ∨ a.minKid h = 2 * h + 2) ∧ a.minKid h < a.n := by
  unfold minKid
  split
  · rename_i hc; simp only [Bool.and_eq_true, decide_eq_true_eq] at hc; exact ⟨Or.inr rfl, hc.1⟩
  · exact ⟨Or.inl rfl, hk⟩

theorem fixDown_ok (a : HArr) (h : Nat) (t : HNode) (hh : h < a.n) (hc : (a.put h t).Cons) :
    (a.fixDown h t).n = a.n ∧ (a.fixDown h t).Cons ∧
      ∀ x, (a.fixDown h t).In x ↔ (a.put h t).In x := by
  fun_induction fixDown a h t with
  | case1 a h hk hlt => exact ⟨rfl, hc, fun _ => Iff.rfl⟩
  | case2 a h hk hlt ih =>
    obtain ⟨hm, hp⟩ := minKid_cases a h hk
    have hne : a.minKid h ≠ h := by omega
    obtain ⟨i1, i2, i3⟩ := ih hp (move_cons hh hp hne hc)
    exact ⟨i1, i2, fun x => (i3 x).trans (move_in hh hp hne x)⟩
  | case3 a h hk => exact ⟨rfl, hc, fun _ => Iff.rfl⟩

/-- Validity of the array with the hole filled. -/
theorem move_valid {a : HArr} {h p : Nat} {t : HNode} (hh : h < a.n) (hp : p < a.n) (hne : p ≠ h)
    (hv : (a.put h t).AllValid) : ((a.put h (a.at_ p)).put p t).AllValid :=
  In.congr_valid (fun x => (move_in hh hp hne x).symm) hv

theorem fixUp_ord (a : HArr) (h : Nat) (t : HNode) (hh : h < a.n) (hv : (a.put h t).AllValid)
    (u1 : ∀ i, 0 < i → i < a.n → i ≠ h → ((a.put h t).at_ ((i - 1) / 2)).le ((a.put h t).at_ i))
    (u2 : h ≠ 0 → ∀ i, 0 < i → i < a.n → (i - 1) / 2 = h →
      ((a.put h t).at_ ((h - 1) / 2)).le ((a.put h t).at_ i)) :
    (a.fixUp h t).Ord := by
  fun_induction fixUp a h t with
  | case1 a =>
    intro i hi hin
    exact u1 i hi hin (by omega)
  | case2 a h h0 hlt =>
    intro i hi hin
    by_cases hih : i = h
    · subst hih
      simp only [put_at]
      rw [if_neg (by omega)]; simp only [if_true]
      exact HNode.le_of_lt hlt
    · exact u1 i hi hin hih
  | case3 a h h0 hlt ih =>
    have hp : (h - 1) / 2 < a.n := by omega
    have hne : (h - 1) / 2 ≠ h := by omega
    have hle : t.le (a.at_ ((h - 1) / 2)) := by simpa [HNode.le] using hlt
    have hvt : t.Valid := by have := hv h hh; simpa using this
    have hvp : (a.at_ ((h - 1) / 2)).Valid := by
      have := hv ((h - 1) / 2) hp; simpa [put_at, hne] using this
    apply ih hp (move_valid hh hp hne hv)
    · intro i hi hin hip
      simp only [put_n] at hin
      simp only [put_at]
      by_cases hih : i = h
      · subst hih
        simp [hle, hip]
      · have h1 := u1 i hi hin hih
        simp only [put_at, hih, if_false] at h1
        simp only [hip, hih, if_false]
        by_cases hpi : (i - 1) / 2 = (h - 1) / 2
        · rw [if_pos hpi]
          rw [hpi] at h1
          simp only [hne, if_false] at h1
          refine HNode.le_trans hvt hvp ?_ hle h1
          have := hv i hin; simpa [put_at, hih] using this
        · rw [if_neg hpi]
          by_cases hph : (i - 1) / 2 = h
          · have h2 := u2 h0 i hi hin hph
            simp only [put_at, hne, hih, if_false] at h2
            rw [if_pos hph]; exact h2
          · rw [if_neg hph]; simpa [hph] using h1
    · intro hp0 i hi hin hip
      simp only [put_n] at hin
      have hpp : ((h - 1) / 2 - 1) / 2 ≠ (h - 1) / 2 := by omega
      have hpp2 : ((h - 1) / 2 - 1) / 2 ≠ h := by omega
      have hpar := u1 ((h - 1) / 2) (by omega) hp hne
      simp only [put_at, hpp2, hne, if_false] at hpar
      simp only [put_at, hpp, hpp2, if_false]
      by_cases hih : i = h
      · subst hih; rw [if_neg (by omega), if_pos rfl]; exact hpar
      · have h1 := u1 i hi hin hih
        simp only [put_at, hip, hih, hne, if_false] at h1
        rw [if_neg (by omega), if_neg hih]
        refine HNode.le_trans ?_ hvp ?_ hpar h1
        · have := hv (((h - 1) / 2 - 1) / 2) (by rw [put_n]; omega); simpa [put_at, hpp2] using this
        · have := hv i hin; simpa [put_at, hih] using this

theorem minKid_le (a : HArr) (h : Nat) (hk : 2 * h + 1 < a.n) (i : Nat) (hi : 0 < i) (hin : i < a.n)
    (hp : (i - 1) / 2 = h) (hne : i ≠ a.minKid h) : (a.at_ (a.minKid h)).le (a.at_ i) := by
  unfold minKid at *
  split at hne
  · rename_i hc
    simp only [hc, if_true]
    simp only [Bool.and_eq_true, decide_eq_true_eq] at hc
    have : i = 2 * h + 1 := by omega
    subst this
    exact HNode.le_of_lt hc.2
  · rename_i hc
    simp only [hc, if_false]
    have : i = 2 * h + 2 := by omega
    subst this
    simp only [Bool.and_eq_true, decide_eq_true_eq, not_and, Bool.not_eq_true] at hc
    exact hc hin

theorem fixDown_ord (a : HArr) (h : Nat) (t : HNode) (hh : h < a.n) (hv : (a.put h t).AllValid)
    (d1 : ∀ i, 0 < i → i < a.n → (i - 1) / 2 ≠ h →
      ((a.put h t).at_ ((i - 1) / 2)).le ((a.put h t).at_ i))
    (d2 : h ≠ 0 → ∀ i, 0 < i → i < a.n → (i - 1) / 2 = h →
      ((a.put h t).at_ ((h - 1) / 2)).le ((a.put h t).at_ i)) :
    (a.fixDown h t).Ord := by
  fun_induction fixDown a h t with
  | case1 a h hk hlt =>
    obtain ⟨hm, hp⟩ := minKid_cases a h hk
    intro i hi hin
    by_cases hph : (i - 1) / 2 = h
    · simp only [put_at, hph, if_true]
      rw [if_neg (by omega)]
      have hle := HNode.le_of_lt hlt
      by_cases him : i = a.minKid h
      · rw [him]; exact hle
      · refine HNode.le_trans ?_ ?_ ?_ hle (minKid_le a h hk i hi hin hph him)
        · have := hv h hh; simpa using this
        · have := hv _ hp; simp only [put_at] at this; rwa [if_neg (by omega)] at this
        · have := hv i hin; simp only [put_at] at this; rwa [if_neg (by omega)] at this
    · exact d1 i hi hin hph
  | case2 a h hk hlt ih =>
    obtain ⟨hm, hp⟩ := minKid_cases a h hk
    have hne : a.minKid h ≠ h := by omega
    have hle : (a.at_ (a.minKid h)).le t := by simpa [HNode.le] using hlt
    apply ih hp (move_valid hh hp hne hv)
    · intro i hi hin hpi
      simp only [put_n] at hin
      simp only [put_at]
      rw [if_neg hpi]
      by_cases hih : i = h
      · subst hih
        rw [if_neg (by omega : ¬ (i - 1) / 2 = i)]
        have h2 := d2 (by omega) (a.minKid i) (by omega) hp (by omega)
        simp only [put_at] at h2
        rw [if_neg (by omega : ¬ (i - 1) / 2 = i), if_neg hne] at h2
        rw [if_neg hne.symm, if_pos rfl]
        exact h2
      · by_cases hph : (i - 1) / 2 = h
        · rw [if_pos hph]
          by_cases him : i = a.minKid h
          · rw [if_pos him]; exact hle
          · rw [if_neg him, if_neg hih]
            exact minKid_le a h hk i hi hin hph him
        · rw [if_neg hph, if_neg (by omega : ¬ i = a.minKid h), if_neg hih]
          have h1 := d1 i hi hin hph
          simp only [put_at] at h1
          rwa [if_neg hph, if_neg hih] at h1
    · intro hm0 i hi hin hpi
      simp only [put_n] at hin
      have hpm : (a.minKid h - 1) / 2 = h := by omega
      simp only [put_at]
      rw [hpm, if_neg hne.symm, if_pos rfl, if_neg (by omega), if_neg (by omega)]
      have h1 := d1 i hi hin (by omega)
      simp only [put_at] at h1
      rwa [hpi, if_neg hne, if_neg (by omega)] at h1
  | case3 a h hk =>
    intro i hi hin
    simp only [put_n] at hin
    exact d1 i hi hin (by omega)

theorem Ord.root {a : HArr} (ho : a.Ord) (hv : a.AllValid) :
    ∀ i, i < a.n → (a.at_ 0).le (a.at_ i) := by
  intro i
  induction i using Nat.strongRecOn with
  | ind i ih =>
    intro hin
    by_cases h0 : i = 0
    · subst h0
      have := hv 0 hin
      generalize a.at_ 0 = x at *
      obtain ⟨k, p, u⟩ := x
      cases p <;> simp_all [HNode.le, HNode.lt, Pri.lt, Pri.eqb]
    · have h1 := ih ((i - 1) / 2) (by omega) (by omega)
      exact HNode.le_trans (hv 0 (by omega)) (hv _ (by omega)) (hv i hin) h1 (ho i (by omega) hin)

theorem push_ok {a : HArr} {t : HNode} (hc : a.Cons) (hnew : a.pos t.key = none) :
    (a.push t).n = a.n + 1 ∧ (a.push t).Cons ∧ (∀ x, (a.push t).In x ↔ x = t ∨ a.In x) ∧
      (a.Ord → a.AllValid → t.Valid → (a.push t).Ord) := by
  have hkey : ∀ i, i < a.n → (a.at_ i).key ≠ t.key := by
    intro i hi hk
    have := (hc t.key i).mpr ⟨hi, hk⟩
    simp [hnew] at this
  generalize hb : ({ a.put a.n t with n := a.n + 1 } : HArr) = b
  have hpush : a.push t = b.fixUp a.n t := by simp [push, hb]
  have hbn : b.n = a.n + 1 := by rw [← hb]
  have hbat : ∀ j, b.at_ j = if j = a.n then t else a.at_ j := by rw [← hb]; intro j; rfl
  have hbpos : ∀ k, b.pos k = if k = t.key then some a.n else a.pos k := by
    rw [← hb]; intro k; rfl
  have hcb : (b.put a.n t).Cons := by
    intro k i
    simp only [put_n, put_at, put_pos, hbn, hbat, hbpos]
    by_cases hk : k = t.key
    · subst hk
      simp only [if_true, Option.some.injEq]
      by_cases hi : i = a.n
      · simp [hi]
      · simp only [hi, if_false]
        constructor
        · intro h; exact absurd h.symm hi
        · intro h; exact absurd h.2 (hkey i (by omega))
    · simp only [hk, if_false, hc k i]
      by_cases hi : i = a.n
      · subst hi; simp only [if_true]
        constructor
        · intro h; exact absurd h.1 (by omega)
        · intro h; exact absurd h.2.symm hk
      · simp only [hi, if_false]
        constructor
        · rintro ⟨h1, h2⟩; exact ⟨by omega, h2⟩
        · rintro ⟨h1, h2⟩; exact ⟨by omega, h2⟩
  have hinb : ∀ x, (b.put a.n t).In x ↔ x = t ∨ a.In x := by
    intro x
    simp only [In, put_n, put_at, hbn, hbat]
    constructor
    · rintro ⟨i, hi, he⟩
      by_cases hia : i = a.n
      · left; simpa [hia] using he.symm
      · right; exact ⟨i, by omega, by simpa [hia] using he⟩
    · rintro (rfl | ⟨i, hi, he⟩)
      · exact ⟨a.n, by omega, by simp⟩
      · have hia : i ≠ a.n := by omega
        exact ⟨i, by omega, by simpa [hia] using he⟩
  obtain ⟨f1, f2, f3⟩ := fixUp_ok b a.n t (by omega) hcb
  rw [hpush]
  refine ⟨by omega, f2, fun x => (f3 x).trans (hinb x), ?_⟩
  intro ho hv ht
  apply fixUp_ord b a.n t (by omega)
  · intro i hi
    simp only [put_n, put_at, hbn, hbat] at *
    by_cases hia : i = a.n
    · simpa [hia] using ht
    · simpa [hia] using hv i (by omega)
  · intro i hi hin hia
    simp only [put_at, hbat]
    rw [if_neg (by omega), if_neg (by omega), if_neg hia, if_neg hia]
    exact ho i hi (by omega)
  · intro h0 i hi hin hip
    omega

theorem contains_of_pos {a : HArr} (hc : a.Cons) {t : HNode} {h : Nat} (hp : a.pos t.key = some h) :
    a.contains t = true ∧ h < a.n ∧ (a.at_ h).key = t.key := by
  have := (hc t.key h).mp hp
  simp [contains, hp, this]

theorem put_same_cons {a : HArr} (hc : a.Cons) {t : HNode} {h : Nat} (hp : a.pos t.key = some h) :
    (a.put h t).Cons := by
  obtain ⟨_, hlt, hkey⟩ := contains_of_pos hc hp
  intro k i
  have h0 := hc k i
  simp only [put_n, put_at, put_pos]
  by_cases hk : k = t.key
  · subst hk
    simp only [if_true, Option.some.injEq]
    by_cases hi : i = h
    · subst hi; simp [hlt]
    · simp only [hi, if_false, ← h0, hp, Option.some.injEq]
  · simp only [hk, if_false, h0]
    by_cases hi : i = h
    · subst hi
      simp only [if_true]
      constructor
      · rintro ⟨_, h2⟩; exact absurd (h2.symm.trans hkey) hk
      · rintro ⟨_, h2⟩; exact absurd h2.symm hk
    · simp only [hi, if_false]

theorem adjust_ok {a : HArr} {t : HNode} {h : Nat} (hc : a.Cons) (hp : a.pos t.key = some h) :
    ∃ b, a.adjust t = some b ∧ b.n = a.n ∧ b.Cons ∧
      (∀ x, b.In x ↔ (x = t ∨ (a.In x ∧ x.key ≠ t.key))) ∧
      ((∀ i, 0 < i → i < a.n → i ≠ h → (i - 1) / 2 ≠ h → (a.at_ ((i - 1) / 2)).le (a.at_ i)) →
       (h ≠ 0 → ∀ i, 0 < i → i < a.n → (i - 1) / 2 = h → (a.at_ ((h - 1) / 2)).le (a.at_ i)) →
       (∀ i, i < a.n → i ≠ h → (a.at_ i).Valid) → t.Valid → b.Ord) := by
  obtain ⟨hct, hlt, hkey⟩ := contains_of_pos hc hp
  have hcp := put_same_cons hc hp
  have hpp : ∀ s : HArr, ∀ i x, (s.put i x).put i x = s.put i x := by
    intro s i x; simp only [put]; congr 1
    · funext j; by_cases hj : j = i <;> simp [hj]
    · funext k; by_cases hk : k = x.key <;> simp [hk]
  have hin : ∀ x, (a.put h t).In x ↔ (x = t ∨ (a.In x ∧ x.key ≠ t.key)) := by
    intro x
    simp only [In, put_n, put_at]
    constructor
    · rintro ⟨i, hi, he⟩
      by_cases hih : i = h
      · left; simpa [hih] using he.symm
      · right
        simp only [hih, if_false] at he
        refine ⟨⟨i, hi, he⟩, ?_⟩
        intro hk
        apply hih
        apply hc.uniq hi hlt
        rw [he, hk, hkey]
    · rintro (rfl | ⟨⟨i, hi, he⟩, hk⟩)
      · exact ⟨h, hlt, by simp⟩
      · refine ⟨i, hi, ?_⟩
        rw [if_neg]
        · exact he
        · rintro rfl; exact hk (by rw [← he, hkey])
  have hvput : (∀ i, i < a.n → i ≠ h → (a.at_ i).Valid) → t.Valid → (a.put h t).AllValid := by
    intro hv ht i hi
    simp only [put_n] at hi
    simp only [put_at]
    by_cases hih : i = h
    · simpa [hih] using ht
    · simpa [hih] using hv i hi hih
  unfold adjust
  rw [hp]
  simp only [hct, if_true]
  split
  · rename_i hcond
    obtain ⟨h0, hlt'⟩ := hcond
    have hne : (h - 1) / 2 ≠ h := by omega
    have hle := HNode.le_of_lt hlt'
    simp only [put_at, hne, if_false] at hle
    obtain ⟨f1, f2, f3⟩ := fixUp_ok (a.put h t) h t hlt (by rw [hpp]; exact hcp)
    refine ⟨_, rfl, f1, f2, fun x => ?_, ?_⟩
    · rw [f3 x, hpp, hin x]
    · intro e1 e2 hv ht
      apply fixUp_ord (a.put h t) h t hlt
      · rw [hpp]; exact hvput hv ht
      · rw [hpp]
        intro i hi hin' hih
        simp only [put_n] at hin'
        simp only [put_at, hih, if_false]
        by_cases hph : (i - 1) / 2 = h
        · rw [if_pos hph]
          exact HNode.le_trans ht (hv _ (by omega) hne) (hv i hin' hih) hle (e2 h0 i hi hin' hph)
        · rw [if_neg hph]; exact e1 i hi hin' hih hph
      · rw [hpp]
        intro _ i hi hin' hph
        simp only [put_n] at hin'
        simp only [put_at]
        rw [if_neg hne, if_neg (by omega)]
        exact e2 h0 i hi hin' hph
  · rename_i hcond
    obtain ⟨f1, f2, f3⟩ := fixDown_ok (a.put h t) h t hlt (by rw [hpp]; exact hcp)
    refine ⟨_, rfl, f1, f2, fun x => ?_, ?_⟩
    · rw [f3 x, hpp, hin x]
    · intro e1 e2 hv ht
      apply fixDown_ord (a.put h t) h t hlt
      · rw [hpp]; exact hvput hv ht
      · rw [hpp]
        intro i hi hin' hph
        simp only [put_n] at hin'
        simp only [put_at, hph, if_false]
        by_cases hih : i = h
        · subst hih
          rw [if_pos rfl]
          have : ¬ t.lt ((a.put i t).at_ ((i - 1) / 2)) = true := fun hc' => hcond ⟨by omega, hc'⟩
          simp only [put_at, hph, if_false] at this
          simpa [HNode.le] using this
        · rw [if_neg hih]; exact e1 i hi hin' hih hph
      · rw [hpp]
        intro h0 i hi hin' hph
        simp only [put_n] at hin'
        simp only [put_at]
        rw [if_neg (by omega), if_neg (by omega)]
        exact e2 h0 i hi hin' hph

theorem remove_ok {a : HArr} {t : HNode} {h : Nat} (hc : a.Cons) (hp : a.pos t.key = some h) :
    ∃ b, a.remove t = some b ∧ b.n + 1 = a.n ∧ b.Cons ∧
      (∀ x, b.In x ↔ (a.In x ∧ x.key ≠ t.key)) ∧
      (a.Ord → a.AllValid → b.Ord) := by
  obtain ⟨hct, hlt, hkey⟩ := contains_of_pos hc hp
  have hposk : ∀ i, i < a.n → ((a.at_ i).key = t.key ↔ i = h) := by
    intro i hi
    constructor
    · intro hk; exact hc.uniq hi hlt (hk.trans hkey.symm)
    · rintro rfl; exact hkey
  unfold remove
  rw [hp]
  simp only [hct, if_true]
  by_cases hl : h = a.n - 1
  · rw [if_pos hl]
    refine ⟨_, rfl, ?_, ?_, ?_, ?_⟩
    · show a.n - 1 + 1 = a.n; omega
    · intro k i
      simp only
      have h0 := hc k i
      by_cases hk : k = t.key
      · subst hk
        simp only [if_true, reduceCtorEq, false_iff, not_and]
        intro hi hk'
        have := (hposk i (by omega)).mp hk'
        omega
      · simp only [hk, if_false, h0]
        constructor
        · rintro ⟨h1, h2⟩
          refine ⟨?_, h2⟩
          have : i ≠ h := by rintro rfl; exact hk (h2.symm.trans hkey)
          omega
        · rintro ⟨h1, h2⟩; exact ⟨by omega, h2⟩
    · intro x
      simp only [In]
      constructor
      · rintro ⟨i, hi, he⟩
        refine ⟨⟨i, by omega, he⟩, ?_⟩
        intro hk
        have := (hposk i (by omega)).mp (by rw [he, hk])
        omega
      · rintro ⟨⟨i, hi, he⟩, hk⟩
        have : i ≠ h := by rintro rfl; exact hk (by rw [← he, hkey])
        exact ⟨i, by omega, he⟩
    · intro ho hv i hi hin
      simp only at hin
      exact ho i hi (by omega)
  · rw [if_neg hl]
    generalize helem : a.at_ (a.n - 1) = elem
    have hek : elem.key ≠ t.key := by
      intro hk
      have := (hposk (a.n - 1) (by omega)).mp (by rw [helem, hk])
      omega
    generalize hb : ({ ({ a with pos := fun k => if k = t.key then none else a.pos k } : HArr).put h elem
      with n := a.n - 1 } : HArr) = b
    have hbn : b.n = a.n - 1 := by rw [← hb]
    have hbat : ∀ j, b.at_ j = if j = h then elem else a.at_ j := by rw [← hb]; intro j; rfl
    have hbpos : ∀ k, b.pos k = if k = elem.key then some h else if k = t.key then none else a.pos k := by
      rw [← hb]; intro k; rfl
    have hlastpos : ∀ i, i < a.n → ((a.at_ i).key = elem.key ↔ i = a.n - 1) := by
      intro i hi
      constructor
      · intro hk; exact hc.uniq hi (by omega) (by rw [hk, helem])
      · rintro rfl; rw [helem]
    have hcb : b.Cons := by
      intro k i
      rw [hbn, hbat, hbpos]
      have h0 := hc k i
      by_cases hke : k = elem.key
      · subst hke
        simp only [if_true, Option.some.injEq]
        by_cases hih : i = h
        · subst hih; simp; omega
        · simp only [hih, if_false]
          constructor
          · intro hx; exact absurd hx.symm hih
          · rintro ⟨h1, h2⟩
            have := (hlastpos i (by omega)).mp h2
            omega
      · simp only [hke, if_false]
        by_cases hkt : k = t.key
        · subst hkt
          simp only [if_true, reduceCtorEq, false_iff, not_and]
          intro hi
          by_cases hih : i = h
          · simpa [hih] using hek
          · simp only [hih, if_false]
            intro hk; exact hih ((hposk i (by omega)).mp hk)
        · simp only [hkt, if_false, h0]
          by_cases hih : i = h
          · subst hih
            simp only [if_true]
            constructor
            · rintro ⟨_, h2⟩; exact absurd (h2.symm.trans hkey) hkt
            · rintro ⟨_, h2⟩; exact absurd h2.symm hke
          · simp only [hih, if_false]
            constructor
            · rintro ⟨h1, h2⟩
              refine ⟨?_, h2⟩
              have : i ≠ a.n - 1 := by rintro rfl; rw [helem] at h2; exact hke h2.symm
              omega
            · rintro ⟨h1, h2⟩; exact ⟨by omega, h2⟩
    have hbp : b.pos elem.key = some h := by rw [hbpos]; simp
    obtain ⟨c, hadj, hcn, hcc, hcin, hcord⟩ := adjust_ok hcb hbp
    refine ⟨c, hadj, by omega, hcc, ?_, ?_⟩
    · intro x
      rw [hcin x]
      simp only [In, hbn, hbat]
      constructor
      · rintro (rfl | ⟨⟨i, hi, he⟩, hk⟩)
        · exact ⟨⟨a.n - 1, by omega, helem⟩, hek⟩
        · by_cases hih : i = h
          · simp only [hih, if_true] at he
            exact absurd (by rw [he]) hk
          · simp only [hih, if_false] at he
            refine ⟨⟨i, by omega, he⟩, ?_⟩
            intro hk'
            exact hih ((hposk i (by omega)).mp (by rw [he, hk']))
      · rintro ⟨⟨i, hi, he⟩, hk⟩
        by_cases hil : i = a.n - 1
        · left; rw [← he, hil, helem]
        · right
          have hih : i ≠ h := by rintro rfl; exact hk (by rw [← he, hkey])
          refine ⟨⟨i, by omega, by simpa [hih] using he⟩, ?_⟩
          intro hk'
          exact hil ((hlastpos i hi).mp (by rw [he, hk']))
    · intro ho hv
      have hve : elem.Valid := by rw [← helem]; exact hv _ (by omega)
      apply hcord
      · intro i hi hin hih hph
        rw [hbat, hbat, if_neg hph, if_neg hih]
        exact ho i hi (by omega)
      · intro h0 i hi hin hph
        rw [hbat, hbat, if_neg (by omega), if_neg (by omega)]
        have h1 := ho i hi (by omega)
        rw [hph] at h1
        exact HNode.le_trans (hv _ (by omega)) (hv _ hlt) (hv _ (by omega)) (ho h (by omega) hlt) h1
      · intro i hi hih
        rw [hbat, if_neg hih]; exact hv i (by omega)
      · exact hve

end HArr
end Verif
