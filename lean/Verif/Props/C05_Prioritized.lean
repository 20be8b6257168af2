import Verif.Proofs.PrioSel
import Verif.Props.C01_C02_ListSel
/-
C05: the prioritized selector, in exact arithmetic.
-/
namespace Verif
open Spec (Call)

/-- The prioritized selector after a history of calls. -/
def prioAfter (w : PowFn) (cs : List Call) : Prio := runCalls Prio.apply (Prio.init w) cs

/-- The sampling weight of an entry: priority to the power of the exponent, zero for priority zero. -/
def Spec.weight (w : PowFn) (e : Spec.Entry) : Rat :=
  match e.pri with
  | .val q => if q = 0 then 0 else w.f q
  | .nan => 0

/-- The sampling weight of a key, zero if it is absent. -/
def Spec.keyWeight (w : PowFn) (cs : List Call) (k : Key) : Rat :=
  match Spec.book Spec.acceptNonneg cs k with
  | some e => Spec.weight w e
  | none => 0

/-- The list `l` enumerates the keys present after the history. -/
def Spec.Enumerates (l : List Key) (cs : List Call) : Prop :=
  l.Nodup ∧ ∀ k, k ∈ l ↔ ∃ e, Spec.book Spec.acceptNonneg cs k = some e

/-- The total weight of a list of keys. -/
def Spec.total (w : PowFn) (cs : List Call) (l : List Key) : Rat := (l.map (Spec.keyWeight w cs)).sum

namespace C05

theorem le_div_iff' {a b c : Rat} (h : 0 < c) : b / c ≤ a ↔ b ≤ a * c := by
  have := Rat.lt_div_iff (a := a) (b := b) h
  grind

theorem sum_eq_wsum (v : Key → Rat) (w : Nat → Rat) (f : Nat → Key) (l : List Nat)
    (h : ∀ i ∈ l, v (f i) = w i) : ((l.map f).map v).sum = Prio.wsum w l := by
  induction l with
  | nil => simp [Prio.wsum]
  | cons x l ih =>
    simp only [List.map_cons, List.sum_cons, Prio.wsum]
    rw [h x (by simp), ih (fun i hi => h i (by simp [hi]))]

theorem sum_perm (v : Key → Rat) {a b : List Key} (h : a.Perm b) : (a.map v).sum = (b.map v).sum := by
  induction h with
  | nil => rfl
  | cons x _ ih => simp [ih]
  | swap x y l => simp; grind
  | trans _ _ h1 h2 => exact h1.trans h2

theorem facts (w : PowFn) (cs : List Call) (l : List Key) (hl : Spec.Enumerates l cs) :
    Prio.WF (prioAfter w cs) ∧
    (∀ k e, Spec.book Spec.acceptNonneg cs k = some e → ∃ i, (prioAfter w cs).index.get? k = some i ∧
      i < (prioAfter w cs).n ∧ (prioAfter w cs).keyAt i = k ∧ (prioAfter w cs).value i = Spec.weight w e) ∧
    (∀ i, i < (prioAfter w cs).n → ∃ e, Spec.book Spec.acceptNonneg cs ((prioAfter w cs).keyAt i) = some e) ∧
    (prioAfter w cs).sum 0 = Spec.total w cs l ∧ (prioAfter w cs).n = l.length := by
  obtain ⟨hr, hpow⟩ := Prio.R.runFrom cs 0 (Prio.R.init w)
  change Prio.R (prioAfter w cs) (Spec.book Spec.acceptNonneg cs) at hr
  change (prioAfter w cs).pow = w at hpow
  have hw : ∀ k e i, Spec.book Spec.acceptNonneg cs k = some e → (prioAfter w cs).index.get? k = some i →
      (prioAfter w cs).value i = Spec.weight w e := by
    intro k e i he hi
    obtain ⟨q, h1, h2, h3⟩ := hr.weight k i e hi he
    rw [h3, hpow]
    simp [Spec.weight, h1, PowFn.power]
  have h2 : ∀ k e, Spec.book Spec.acceptNonneg cs k = some e → ∃ i, (prioAfter w cs).index.get? k = some i ∧
      i < (prioAfter w cs).n ∧ (prioAfter w cs).keyAt i = k ∧ (prioAfter w cs).value i = Spec.weight w e := by
    intro k e he
    have := hr.present k
    rw [he] at this
    obtain ⟨i, hi⟩ := Option.isSome_iff_exists.mp (by simpa using this)
    obtain ⟨h3, h4⟩ := (hr.wf.bij k i).mp hi
    exact ⟨i, hi, h3, h4, hw k e i he hi⟩
  have h3 : ∀ i, i < (prioAfter w cs).n →
      ∃ e, Spec.book Spec.acceptNonneg cs ((prioAfter w cs).keyAt i) = some e := by
    intro i hi
    have hg := (hr.wf.bij _ i).mpr ⟨hi, rfl⟩
    have := hr.present ((prioAfter w cs).keyAt i)
    rw [hg] at this
    exact Option.isSome_iff_exists.mp (by simpa using this.symm)
  have hperm : l.Perm ((Prio.order (prioAfter w cs).n 0).map (prioAfter w cs).keyAt) := by
    rw [List.perm_ext_iff_of_nodup hl.1]
    · intro k
      rw [hl.2]
      simp only [List.mem_map, Prio.mem_order_zero]
      constructor
      · rintro ⟨e, he⟩
        obtain ⟨i, _, h5, h6, _⟩ := h2 k e he
        exact ⟨i, h5, h6⟩
      · rintro ⟨i, h5, h6⟩
        rw [← h6]; exact h3 i h5
    · apply List.Pairwise.map _ _ (List.Pairwise.and_mem.mp (Prio.order_nodup _ _))
      rintro a b ⟨ha, hb, hab⟩ hc
      have ha' := Prio.mem_order_zero.mp ha
      have hb' := Prio.mem_order_zero.mp hb
      have e1 := (hr.wf.bij _ a).mpr ⟨ha', rfl⟩
      have e2 := (hr.wf.bij _ b).mpr ⟨hb', rfl⟩
      rw [hc, e2] at e1
      simp at e1; exact hab e1.symm
  refine ⟨hr.wf, h2, h3, ?_, ?_⟩
  · rw [← Prio.order_sum hr.wf.tree 0]
    unfold Spec.total
    rw [sum_perm _ hperm]
    symm
    apply sum_eq_wsum
    intro i hi
    have hi' := Prio.mem_order_zero.mp hi
    obtain ⟨e, he⟩ := h3 i hi'
    simp only [Spec.keyWeight, he]
    exact (hw _ e i he ((hr.wf.bij _ i).mpr ⟨hi', rfl⟩)).symm
  · have h4 := hperm.length_eq
    have h5 : (Prio.order (prioAfter w cs).n 0).Perm (List.range (prioAfter w cs).n) := by
      rw [List.perm_ext_iff_of_nodup (Prio.order_nodup _ _) List.nodup_range]
      intro a; rw [Prio.mem_order_zero]; simp
    have h6 := h5.length_eq
    simp at h4 h6; omega

end C05

/-- C05, some weight positive: the draws that return a present key form a half-open interval of length
weight/total, which is also the reported probability. -/
theorem C05_prioritized_interval (w : PowFn) (cs : List Call) (l : List Key) (hl : Spec.Enumerates l cs)
    (hpos : 0 < Spec.total w cs l) (k : Key) (hk : k ∈ l) :
    ∃ a : Rat, 0 ≤ a ∧ a + Spec.keyWeight w cs k / Spec.total w cs l ≤ 1 ∧
      ∀ u pr, 0 ≤ u → u < 1 → ((prioAfter w cs).sampleAt u = .ok (k, pr) ↔
        pr = Spec.keyWeight w cs k / Spec.total w cs l ∧
        a ≤ u ∧ u < a + Spec.keyWeight w cs k / Spec.total w cs l) := by
  obtain ⟨hwf, h2, h3, hsum, hn⟩ := C05.facts w cs l hl
  obtain ⟨e, he⟩ := (hl.2 k).mp hk
  obtain ⟨i, hi, hin, hkey, hval⟩ := h2 k e he
  have hkw : Spec.keyWeight w cs k = (prioAfter w cs).value i := by simp [Spec.keyWeight, he, hval]
  rw [← hsum, hkw]
  rw [← hsum] at hpos
  generalize prioAfter w cs = s at *
  have hvn := hwf.tree.value_nonneg
  have hmem : i ∈ Prio.order s.n 0 := Prio.mem_order_zero.mpr hin
  have hb0 := Prio.before_nonneg hvn (Prio.order s.n 0) i
  have hble := Prio.before_le hvn hmem
  rw [Prio.order_sum hwf.tree] at hble
  have hdiv : ∀ x : Rat, x / s.sum 0 * s.sum 0 = x := fun x => Rat.div_mul_cancel (by grind)
  generalize hB : Prio.before s.value (Prio.order s.n 0) i = B at *
  refine ⟨B / s.sum 0, ?_, ?_, ?_⟩
  · have := C05.le_div_iff' (a := 0) (b := -B) hpos
    have h' := hdiv B
    have h'' := hdiv (-B)
    grind
  · have e1 : B / s.sum 0 + s.value i / s.sum 0 = (B + s.value i) / s.sum 0 := by grind
    rw [e1, C05.le_div_iff' hpos]
    grind
  · intro u pr hu0 hu1
    have e1 : B / s.sum 0 + s.value i / s.sum 0 = (B + s.value i) / s.sum 0 := by grind
    rw [e1, C05.le_div_iff' hpos, Rat.lt_div_iff hpos]
    have ht0 : 0 ≤ u * s.sum 0 := Rat.mul_nonneg hu0 (by grind)
    have ht1 : u * s.sum 0 < s.sum 0 := by
      have := Rat.mul_lt_mul_of_pos_right hu1 hpos
      grind
    obtain ⟨j, r, hw, hp⟩ := Prio.walk_eq hwf.tree 0 _ (by omega) ht0 ht1
    have hjn := Prio.mem_order_zero.mp (Prio.pick_mem hp)
    have hn0 : s.n ≠ 0 := by omega
    have hs0 : s.sum 0 ≠ 0 := by grind
    have hs : s.sampleAt u = .ok (s.keyAt j, s.value j / s.sum 0) := by
      simp [Prio.sampleAt, hn0, hs0, hw, hjn]
    rw [hs]
    have hiff := Prio.pick_iff hvn (Prio.order_nodup s.n 0) hmem ht0
    rw [hp, hB] at hiff
    rw [← hiff]
    simp only [Res.ok.injEq, Prod.mk.injEq, Option.some.injEq]
    constructor
    · rintro ⟨h5, h6⟩
      have e1 := (hwf.bij k j).mpr ⟨hjn, h5⟩
      rw [hi] at e1; simp at e1; subst e1
      exact ⟨h6.symm, rfl⟩
    · rintro ⟨h5, rfl⟩; exact ⟨hkey, h5.symm⟩

/-- C05, all weights zero: every present key is returned on an interval of length `1/n`. -/
theorem C05_prioritized_uniform (w : PowFn) (cs : List Call) (l : List Key) (hl : Spec.Enumerates l cs)
    (hzero : Spec.total w cs l = 0) (k : Key) (hk : k ∈ l) :
    ∃ a : Rat, 0 ≤ a ∧ a + 1 / (l.length : Rat) ≤ 1 ∧
      ∀ u pr, 0 ≤ u → u < 1 → ((prioAfter w cs).sampleAt u = .ok (k, pr) ↔
        pr = 1 / (l.length : Rat) ∧ a ≤ u ∧ u < a + 1 / (l.length : Rat)) := by
  obtain ⟨hwf, h2, h3, hsum, hn⟩ := C05.facts w cs l hl
  obtain ⟨e, he⟩ := (hl.2 k).mp hk
  obtain ⟨i, hi, hin, hkey, hval⟩ := h2 k e he
  rw [hzero] at hsum
  rw [← hn]
  generalize prioAfter w cs = s at *
  have hnpos : (0 : Rat) < (s.n : Rat) := by
    have : ((0 : Nat) : Rat) < (s.n : Rat) := Rat.natCast_lt_natCast.mpr (by omega)
    simpa using this
  have hdiv : ∀ x : Rat, x / s.n * s.n = x := fun x => Rat.div_mul_cancel (by grind)
  have hi0 : (0 : Rat) ≤ (i : Rat) := by
    have : ((0 : Nat) : Rat) ≤ (i : Rat) := Rat.natCast_le_natCast.mpr (by omega)
    simpa using this
  have hin' : (i : Rat) + 1 ≤ (s.n : Rat) := by
    have : ((i + 1 : Nat) : Rat) ≤ (s.n : Rat) := Rat.natCast_le_natCast.mpr (by omega)
    simpa using this
  have e1 : (i : Rat) / s.n + 1 / s.n = ((i : Rat) + 1) / s.n := by grind
  refine ⟨(i : Rat) / s.n, ?_, ?_, ?_⟩
  · have := C05.le_div_iff' (a := 0) (b := -(i : Rat)) hnpos
    have h' := hdiv i
    have h'' := hdiv (-(i : Rat))
    grind
  · rw [e1, C05.le_div_iff' hnpos]; grind
  · intro u pr hu0 hu1
    rw [e1, C05.le_div_iff' hnpos, Rat.lt_div_iff hnpos]
    have hn0 : s.n ≠ 0 := by omega
    have ht0 : 0 ≤ u * s.n := Rat.mul_nonneg hu0 (by grind)
    have ht1 : u * s.n < s.n := by
      have := Rat.mul_lt_mul_of_pos_right hu1 hnpos
      grind
    have hf0 : 0 ≤ (u * s.n).floor := Rat.le_floor_iff.mpr (by simpa using ht0)
    have hf1 : (u * s.n).floor < (s.n : Int) := Rat.floor_lt_iff.mpr (by rw [Rat.intCast_natCast]; exact ht1)
    have hs : s.sampleAt u = .ok (s.keyAt (u * s.n).floor.toNat, 1 / (s.n : Rat)) := by
      simp [Prio.sampleAt, hn0, hsum]
    rw [hs]
    have hiff : ((i : Rat) ≤ u * s.n ∧ u * s.n < i + 1) ↔ (u * s.n).floor.toNat = i := by
      have h5 : ((i : Int) ≤ (u * s.n).floor) ↔ (i : Rat) ≤ u * s.n := by
        rw [Rat.le_floor_iff, Rat.intCast_natCast]
      have h6 : ((u * s.n).floor < ((i + 1 : Nat) : Int)) ↔ u * s.n < (i : Rat) + 1 := by
        rw [Rat.floor_lt_iff, Rat.intCast_natCast]; simp
      rw [← h5, ← h6]; omega
    rw [hiff]
    simp only [Res.ok.injEq, Prod.mk.injEq]
    constructor
    · rintro ⟨h5, h6⟩
      have e1 := (hwf.bij k _).mpr ⟨(by omega : (u * s.n).floor.toNat < s.n), h5⟩
      rw [hi] at e1; simp at e1
      exact ⟨h6.symm, e1.symm⟩
    · rintro ⟨h5, h6⟩; exact ⟨by rw [h6]; exact hkey, h5.symm⟩

/-- C05: a key of weight zero is never returned while some weight is positive. -/
theorem C05_prioritized_zero_never (w : PowFn) (cs : List Call) (l : List Key) (hl : Spec.Enumerates l cs)
    (hpos : 0 < Spec.total w cs l) (k : Key) (hk : k ∈ l) (hz : Spec.keyWeight w cs k = 0)
    (u pr : Rat) (hu0 : 0 ≤ u) (hu1 : u < 1) : (prioAfter w cs).sampleAt u ≠ .ok (k, pr) := by
  obtain ⟨a, _, _, h⟩ := C05_prioritized_interval w cs l hl hpos k hk
  intro hc
  have := (h u pr hu0 hu1).mp hc
  rw [hz] at this
  have e : (0 : Rat) / Spec.total w cs l = 0 := by grind
  grind

/-- C05: with at least one key present every draw returns a present key. -/
theorem C05_prioritized_total (w : PowFn) (cs : List Call) (l : List Key) (hl : Spec.Enumerates l cs)
    (hne : l ≠ []) (u : Rat) (hu0 : 0 ≤ u) (hu1 : u < 1) :
    ∃ k pr, k ∈ l ∧ (prioAfter w cs).sampleAt u = .ok (k, pr) := by
  obtain ⟨hwf, h2, h3, hsum, hn⟩ := C05.facts w cs l hl
  have hlen : 0 < l.length := List.length_pos_iff.mpr hne
  have hn0 : (prioAfter w cs).n ≠ 0 := by omega
  have hmem : ∀ i, i < (prioAfter w cs).n → (prioAfter w cs).keyAt i ∈ l := fun i hi =>
    (hl.2 _).mpr (h3 i hi)
  generalize prioAfter w cs = s at *
  by_cases hs0 : s.sum 0 = 0
  · have hnpos : (0 : Rat) < (s.n : Rat) := by
      have : ((0 : Nat) : Rat) < (s.n : Rat) := Rat.natCast_lt_natCast.mpr (by omega)
      simpa using this
    have ht0 : 0 ≤ u * s.n := Rat.mul_nonneg hu0 (by grind)
    have ht1 : u * s.n < s.n := by
      have := Rat.mul_lt_mul_of_pos_right hu1 hnpos
      grind
    have hf0 : 0 ≤ (u * s.n).floor := Rat.le_floor_iff.mpr (by simpa using ht0)
    have hf1 : (u * s.n).floor < (s.n : Int) := Rat.floor_lt_iff.mpr (by rw [Rat.intCast_natCast]; exact ht1)
    exact ⟨s.keyAt (u * s.n).floor.toNat, 1 / (s.n : Rat), hmem _ (by omega),
      by simp [Prio.sampleAt, hn0, hs0]⟩
  · have hpos : 0 < s.sum 0 := by have := hwf.tree.sum_nonneg 0; grind
    have ht0 : 0 ≤ u * s.sum 0 := Rat.mul_nonneg hu0 (by grind)
    have ht1 : u * s.sum 0 < s.sum 0 := by
      have := Rat.mul_lt_mul_of_pos_right hu1 hpos
      grind
    obtain ⟨j, r, hw, hp⟩ := Prio.walk_eq hwf.tree 0 _ (by omega) ht0 ht1
    have hjn := Prio.mem_order_zero.mp (Prio.pick_mem hp)
    exact ⟨s.keyAt j, s.value j / s.sum 0, hmem j hjn, by simp [Prio.sampleAt, hn0, hs0, hw, hjn]⟩

/-- Exponent 1. -/
def powOne : PowFn := ⟨fun q => q, fun q h => by grind⟩

/-- Weights 3 (key 9), 0 (key 7), 1 (key 5); one rejected negative priority, one swap with the last. -/
def demoPrio : List Call :=
  [.insert 4 (.val 8), .insert 7 (.val 0), .insert 5 (.val 6), .insert 9 (.val 3), .update 5 (.val 1),
   .update 9 (.val (-2)), .insert 3 .nan, .delete 4]

example : Spec.Enumerates [9, 7, 5] demoPrio := by
  refine ⟨by decide, ?_⟩
  intro k
  simp only [demoPrio, Spec.book, Spec.Book.runFrom, Spec.Book.step, Spec.acceptNonneg, List.mem_cons,
    List.not_mem_nil, or_false]
  by_cases h1 : k = 9 <;> by_cases h2 : k = 7 <;> by_cases h3 : k = 5 <;> by_cases h4 : k = 4 <;>
    simp_all (config := {decide := true})
example : Spec.total powOne demoPrio [9, 7, 5] = 4 := by decide +kernel
example : (prioAfter powOne demoPrio).sampleAt (1/2) = .ok (9, 3/4) := by decide +kernel
example : (prioAfter powOne demoPrio).sampleAt (1/8) = .ok (5, 1/4) := by decide +kernel

end Verif
