import Verif.Spec.Choice
import Verif.Proofs.QueueTable
import Verif.Props.C05_Prioritized
/-
Selectors with the same contents choose alike.
-/
namespace Verif
open Spec (Call Book Entry Discipline)

/-- The two books hold the same keys with the same priorities. -/
def SamePri (b b' : Book) : Prop := ∀ k, (b k).map Entry.pri = (b' k).map Entry.pri

theorem SamePri.isSome {b b'} (h : SamePri b b') (k : Key) : (b k).isSome = (b' k).isSome := by
  have := congrArg Option.isSome (h k); simpa using this

theorem SamePri.step {b b'} (h : SamePri b b') (accept : Pri → Bool) (t t' : Nat) (c : Call) :
    SamePri (b.step accept t c) (b'.step accept t' c) := by
  intro k'
  cases c with
  | insert k p =>
    have hk := h.isSome k
    have hn : b k = none ↔ b' k = none := by
      cases h1 : b k <;> cases h2 : b' k <;> simp_all
    simp only [Book.step, hn]
    split
    · rfl
    · exact h k'
  | update k p =>
    simp only [Book.step]
    split
    · have hk := h.isSome k
      cases h1 : b k <;> cases h2 : b' k <;> simp_all
    · exact h k'
  | delete k =>
    simp only [Book.step]
    split
    · rfl
    · exact h k'
  | clear => rfl

theorem SamePri.runFrom (accept : Pri → Bool) (cs : List Call) : ∀ {b b'} (t t' : Nat), SamePri b b' →
    SamePri (Book.runFrom accept t b cs) (Book.runFrom accept t' b' cs) := by
  induction cs with
  | nil => intro b b' t t' h; exact h
  | cons c cs ih => intro b b' t t' h; exact ih _ _ (h.step accept t t' c)

theorem nodup_inj {l : List Key} (h : l.Nodup) {i j : Nat} (hi : i < l.length) (hj : j < l.length)
    (he : l[i] = l[j]) : i = j := by
  have := List.pairwise_iff_getElem.mp h
  rcases Nat.lt_trichotomy i j with hc | hc | hc
  · exact absurd he (this i j hi hj hc)
  · exact hc
  · exact absurd he.symm (this j i hj hi hc)

theorem Uniform.R.relabel {s s' : Uniform} {b b' : Book} (h : Uniform.R s b) (h' : Uniform.R s' b')
    (hb : SamePri b b') : SameUpToRelabelling (.uniform s) (.uniform s') := by
  have hmem : ∀ k, k ∈ s.keys ↔ k ∈ s'.keys := by
    intro k; rw [h.present, h'.present, hb.isSome]
  have hn : s.keys.Nodup := h.wf.nodup
  have hn' : s'.keys.Nodup := h'.wf.nodup
  have hlen : s.keys.length = s'.keys.length := length_eq_of_nodup_of_mem hn hn' hmem
  have hin : ∀ i (hi : i < s.keys.length), s'.keys.idxOf s.keys[i] < s'.keys.length := by
    intro i hi
    exact List.idxOf_lt_length_of_mem ((hmem _).mp (List.getElem_mem hi))
  refine ⟨s.keys.length, fun i => s'.keys.idxOf (s.keys.getD i 0), ?_, ?_, ?_, ?_⟩
  · have hnd : ((List.range s.keys.length).map fun i => s'.keys.idxOf (s.keys.getD i 0)).Nodup := by
      rw [List.Nodup, List.pairwise_map]
      have h1 := List.Pairwise.and_mem.mp (List.nodup_range (n := s.keys.length))
      refine h1.imp ?_
      rintro i j ⟨hi, hj, hij⟩ hc
      rw [List.mem_range] at hi hj
      simp only [List.getD_eq_getElem?_getD, List.getElem?_eq_getElem hi, List.getElem?_eq_getElem hj,
        Option.getD_some] at hc
      have e1 : s'.keys[s'.keys.idxOf s.keys[i]]'(hin i hi) = s.keys[i] := by simp
      have e2 : s'.keys[s'.keys.idxOf s.keys[j]]'(hin j hj) = s.keys[j] := by simp
      have : s.keys[i] = s.keys[j] := by rw [← e1, ← e2]; simp only [hc]
      exact hij (nodup_inj hn hi hj this)
    rw [List.perm_ext_iff_of_nodup hnd List.nodup_range]
    intro x
    rw [List.mem_map]
    constructor
    · rintro ⟨i, hi, rfl⟩
      rw [List.mem_range] at hi ⊢
      simp only [List.getD_eq_getElem?_getD, List.getElem?_eq_getElem hi, Option.getD_some]
      rw [hlen]; exact hin i hi
    · intro hx
      rw [List.mem_range, hlen] at hx
      have hi := List.idxOf_lt_length_of_mem ((hmem _).mpr (List.getElem_mem hx))
      refine ⟨s.keys.idxOf s'.keys[x], List.mem_range.mpr hi, ?_⟩
      simp only [List.getD_eq_getElem?_getD, List.getElem?_eq_getElem hi, Option.getD_some,
        List.getElem_idxOf]
      have hi' := List.idxOf_lt_length_of_mem (List.getElem_mem hx)
      exact nodup_inj hn' hi' hx (by simp)
  · intro d; simp [Sel.sample]
  · intro d; simp [Sel.sample, ← hlen]
  · intro d hd
    have hi := hin d.idx hd
    simp only [Sel.sample, List.getD_eq_getElem?_getD, List.getElem?_eq_getElem hd, Option.getD_some,
      Nat.mod_eq_of_lt hi, Nat.mod_eq_of_lt hd]
    have hd' : d.idx < s'.keys.length := by omega
    simp [Uniform.sampleAt, hi, hd, hlen, hd']

namespace Prio

/-- The probability of slot `i`. -/
def chance (s : Prio) (i : Nat) : Rat := if s.sum 0 = 0 then 1 / (s.n : Rat) else s.value i / s.sum 0

theorem interval {s : Prio} (hwf : WF s) {k : Key} {i : Nat} (hi : s.index.get? k = some i) :
    0 ≤ s.chance i ∧ ∃ a : Rat, ∀ u q, 0 ≤ u → u < 1 →
      (s.sampleAt u = .ok (k, q) ↔ q = s.chance i ∧ a ≤ u ∧ u < a + s.chance i) := by
  obtain ⟨hin, hkey⟩ := (hwf.bij k i).mp hi
  have hn0 : s.n ≠ 0 := by omega
  by_cases hs0 : s.sum 0 = 0
  · have hc : s.chance i = 1 / (s.n : Rat) := by simp [chance, hs0]
    have hnpos : (0 : Rat) < (s.n : Rat) := by
      have : ((0 : Nat) : Rat) < (s.n : Rat) := Rat.natCast_lt_natCast.mpr (by omega)
      simpa using this
    have e1 : (i : Rat) / s.n + 1 / s.n = ((i : Rat) + 1) / s.n := by grind
    rw [hc]
    refine ⟨?_, (i : Rat) / s.n, ?_⟩
    · have h1 := Rat.div_mul_cancel (a := 1) (b := (s.n : Rat)) (by grind)
      have h2 := C05.le_div_iff' (a := 0) (b := 1) hnpos
      grind
    · intro u q hu0 hu1
      rw [e1, C05.le_div_iff' hnpos, Rat.lt_div_iff hnpos]
      have ht0 : 0 ≤ u * s.n := Rat.mul_nonneg hu0 (by grind)
      have ht1 : u * s.n < s.n := by
        have := Rat.mul_lt_mul_of_pos_right hu1 hnpos
        grind
      have hf0 : 0 ≤ (u * s.n).floor := Rat.le_floor_iff.mpr (by simpa using ht0)
      have hf1 : (u * s.n).floor < (s.n : Int) := Rat.floor_lt_iff.mpr (by rw [Rat.intCast_natCast]; exact ht1)
      have hs : s.sampleAt u = .ok (s.keyAt (u * s.n).floor.toNat, 1 / (s.n : Rat)) := by
        simp [Prio.sampleAt, hn0, hs0]
      have hfl : (u * s.n).floor.toNat = i ↔ (i : Rat) ≤ u * s.n ∧ u * s.n < (i : Rat) + 1 := by
        constructor
        · intro h
          have e : (u * s.n).floor = (i : Int) := by omega
          constructor
          · have := (Rat.le_floor_iff (x := (i : Int)) (a := u * s.n)).mp (by omega)
            rwa [Rat.intCast_natCast] at this
          · have := (Rat.floor_lt_iff (x := ((i : Int) + 1)) (a := u * s.n)).mp (by omega)
            rw [Rat.intCast_add, Rat.intCast_natCast] at this
            simpa using this
        · rintro ⟨h1, h2⟩
          have g1 := (Rat.le_floor_iff (x := (i : Int)) (a := u * s.n)).mpr (by rwa [Rat.intCast_natCast])
          have g2 := (Rat.floor_lt_iff (x := ((i : Int) + 1)) (a := u * s.n)).mpr (by
            rw [Rat.intCast_add, Rat.intCast_natCast]; simpa using h2)
          omega
      rw [hs, ← hfl]
      simp only [Res.ok.injEq, Prod.mk.injEq]
      constructor
      · rintro ⟨h5, h6⟩
        have e1 := (hwf.bij k (u * s.n).floor.toNat).mpr ⟨by omega, h5⟩
        rw [hi] at e1; simp at e1
        exact ⟨h6.symm, e1.symm⟩
      · rintro ⟨h5, h6⟩; exact ⟨by rw [h6]; exact hkey, h5.symm⟩
  · have hc : s.chance i = s.value i / s.sum 0 := by simp [chance, hs0]
    have hpos : 0 < s.sum 0 := by have := hwf.tree.sum_nonneg 0; grind
    have hvn := hwf.tree.value_nonneg
    have hmem : i ∈ Prio.order s.n 0 := Prio.mem_order_zero.mpr hin
    rw [hc]
    refine ⟨?_, Prio.before s.value (Prio.order s.n 0) i / s.sum 0, ?_⟩
    · have h1 := Rat.div_mul_cancel (a := s.value i) (b := s.sum 0) (by grind)
      have h2 := C05.le_div_iff' (a := 0) (b := -s.value i) hpos
      have h3 := hvn i
      have h4 := Rat.div_mul_cancel (a := -s.value i) (b := s.sum 0) (by grind)
      grind
    · intro u q hu0 hu1
      generalize hB : Prio.before s.value (Prio.order s.n 0) i = B at *
      have e1 : B / s.sum 0 + s.value i / s.sum 0 = (B + s.value i) / s.sum 0 := by grind
      rw [e1, C05.le_div_iff' hpos, Rat.lt_div_iff hpos]
      have ht0 : 0 ≤ u * s.sum 0 := Rat.mul_nonneg hu0 (by grind)
      have ht1 : u * s.sum 0 < s.sum 0 := by
        have := Rat.mul_lt_mul_of_pos_right hu1 hpos
        grind
      obtain ⟨j, r, hw, hp⟩ := Prio.walk_eq hwf.tree 0 _ (by omega) ht0 ht1
      have hjn := Prio.mem_order_zero.mp (Prio.pick_mem hp)
      have hs : s.sampleAt u = .ok (s.keyAt j, s.value j / s.sum 0) := by
        simp [Prio.sampleAt, hn0, hs0, hw, hjn]
      rw [hs]
      have hiff := Prio.pick_iff hvn (Prio.order_nodup s.n 0) hmem ht0
      rw [hp, hB] at hiff
      rw [← hiff]
      simp only [Res.ok.injEq, Prod.mk.injEq, Option.some.injEq]
      constructor
      · rintro ⟨h5, h6⟩
        have e1 := (hwf.bij k j).mpr ⟨hjn, h5⟩
        rw [hi] at e1; simp at e1; subst e1
        exact ⟨h6.symm, rfl⟩
      · rintro ⟨h5, rfl⟩; exact ⟨hkey, h5.symm⟩

/-- The weight stored for a key. -/
def weightOf (s : Prio) (k : Key) : Rat :=
  match s.index.get? k with
  | some i => s.value i
  | none => 0

theorem sum_keys {s : Prio} (hwf : WF s) : s.sum 0 = (s.index.keys.map s.weightOf).sum := by
  rw [← Prio.order_sum hwf.tree 0]
  have hperm : s.index.keys.Perm ((Prio.order s.n 0).map s.keyAt) := by
    rw [List.perm_ext_iff_of_nodup s.index.keys_nodup]
    · intro k
      rw [AMap.mem_keys_iff, Option.isSome_iff_exists]
      simp only [List.mem_map, Prio.mem_order_zero, hwf.bij]
    · apply List.Pairwise.map _ _ (List.Pairwise.and_mem.mp (Prio.order_nodup _ _))
      rintro a b ⟨ha, hb, hab⟩ hc
      have e1 := (hwf.bij _ a).mpr ⟨Prio.mem_order_zero.mp ha, rfl⟩
      have e2 := (hwf.bij _ b).mpr ⟨Prio.mem_order_zero.mp hb, rfl⟩
      rw [hc, e2] at e1
      simp at e1; exact hab e1.symm
  rw [C05.sum_perm _ hperm]
  symm
  apply C05.sum_eq_wsum
  intro i hi
  have := (hwf.bij _ i).mpr ⟨Prio.mem_order_zero.mp hi, rfl⟩
  simp [weightOf, this]

theorem R.intervals {s s' : Prio} {b b' : Book} (h : R s b) (h' : R s' b') (hp : s.pow = s'.pow)
    (hb : SamePri b b') : SameIntervals (.prio s) (.prio s') := by
  have hpres : ∀ k, (s.index.get? k).isSome = (s'.index.get? k).isSome := by
    intro k; rw [h.present, h'.present, hb.isSome]
  have hval : ∀ k i i', s.index.get? k = some i → s'.index.get? k = some i' → s.value i = s'.value i' := by
    intro k i i' hi hi'
    have h1 := h.present k
    rw [hi] at h1
    obtain ⟨e, he⟩ := Option.isSome_iff_exists.mp (by simpa using h1.symm)
    have h2 := h'.present k
    rw [hi'] at h2
    obtain ⟨e', he'⟩ := Option.isSome_iff_exists.mp (by simpa using h2.symm)
    obtain ⟨q, g1, _, g3⟩ := h.weight k i e hi he
    obtain ⟨q', g1', _, g3'⟩ := h'.weight k i' e' hi' he'
    have := hb k
    rw [he, he'] at this
    simp only [Option.map_some, Option.some.injEq, g1, g1', Pri.val.injEq] at this
    rw [g3, g3', hp, this]
  have hmem : ∀ k, k ∈ s.index.keys ↔ k ∈ s'.index.keys := by
    intro k; rw [AMap.mem_keys_iff, AMap.mem_keys_iff, hpres]
  have hperm : s.index.keys.Perm s'.index.keys :=
    (List.perm_ext_iff_of_nodup s.index.keys_nodup s'.index.keys_nodup).mpr hmem
  have hn : s.n = s'.n := by
    have := hperm.length_eq
    simpa [Prio.n] using this
  have hw : ∀ k, s.weightOf k = s'.weightOf k := by
    intro k
    have hk := hpres k
    unfold weightOf
    cases h1 : s.index.get? k with
    | none =>
      cases h2 : s'.index.get? k with
      | none => rfl
      | some i' => simp [h1, h2] at hk
    | some i =>
      cases h2 : s'.index.get? k with
      | none => simp [h1, h2] at hk
      | some i' => exact hval k i i' h1 h2
  have hsum : s.sum 0 = s'.sum 0 := by
    rw [sum_keys h.wf, sum_keys h'.wf, C05.sum_perm _ hperm]
    congr 1
    exact List.map_congr_left (fun k _ => hw k)
  intro k
  cases h1 : s.index.get? k with
  | some i =>
    cases h2 : s'.index.get? k with
    | none => have := hpres k; simp [h1, h2] at this
    | some i' =>
      obtain ⟨hc0, a, ha⟩ := interval h.wf h1
      obtain ⟨_, a', ha'⟩ := interval h'.wf h2
      have hc : s'.chance i' = s.chance i := by
        simp only [chance, hsum, hn, hval k i i' h1 h2]
      rw [hc] at ha'
      exact ⟨s.chance i, a, a', hc0, fun d q => ha d.u q d.u_nonneg d.u_lt_one,
        fun d q => ha' d.u q d.u_nonneg d.u_lt_one⟩
  | none =>
    have h2 : s'.index.get? k = none := by
      have := hpres k
      rw [h1] at this
      cases h2 : s'.index.get? k <;> simp_all
    have none_ : ∀ {s : Prio} {b : Book} (_ : R s b), s.index.get? k = none → ∀ d q,
        (Sel.prio s).sample d ≠ .ok (k, q) := by
      intro s b h hk d q hc
      have hsome := (Sel.Inv.sample (kind := .prio s.pow) (s := .prio s) (b := b) (t := 0) ⟨h, rfl⟩ d)
      by_cases hex : ∃ k, (b k).isSome
      · obtain ⟨k', pr, h3, h4⟩ := hsome.2 hex
        rw [h3] at hc
        simp only [Res.ok.injEq, Prod.mk.injEq] at hc
        rw [hc.1, ← h.present, hk] at h4
        simp at h4
      · rw [hsome.1 (by
          intro k
          cases hb : b k with
          | none => rfl
          | some e => exact absurd ⟨k, by simp [hb]⟩ hex)] at hc
        simp at hc
    refine ⟨0, 0, 0, by grind, ?_, ?_⟩
    · intro d q
      constructor
      · intro hc; exact absurd hc (none_ h h1 d q)
      · rintro ⟨_, h3, h4⟩; grind
    · intro d q
      constructor
      · intro hc; exact absurd hc (none_ h' h2 d q)
      · rintro ⟨_, h3, h4⟩; grind

end Prio

/-- FIFO or LIFO selectors with the keys in the same order. -/
def SameOrder (m : Discipline) (s s' : Sel) : Prop :=
  (∃ b τ, Sel.Inv m.kind s b τ) ∧ (∃ b τ, Sel.Inv m.kind s' b τ) ∧ s.order = s'.order

theorem Sel.Inv.mem_order {m : Discipline} {s b τ} (h : Sel.Inv m.kind s b τ) (k : Key) :
    k ∈ s.order ↔ (b k).isSome = true := by
  cases m <;> cases s <;> simp only [Sel.Inv, Discipline.kind] at h <;>
  · rw [h.present]
    simp only [Sel.order, List.mem_map]
    constructor
    · rintro ⟨⟨id, x⟩, hm, rfl⟩; exact ⟨id, hm⟩
    · rintro ⟨id, hm⟩; exact ⟨_, hm, rfl⟩

theorem Sel.Inv.order_nodup {m : Discipline} {s b τ} (h : Sel.Inv m.kind s b τ) : s.order.Nodup := by
  cases m <;> cases s <;> simp only [Sel.Inv, Discipline.kind] at h <;>
  · simp only [Sel.order, List.Nodup, List.pairwise_map]
    refine h.order.imp ?_
    rintro ⟨i, x⟩ ⟨j, y⟩ hb
    rintro rfl
    simp only [ListSel.Before, if_true, if_false, Bool.false_eq_true] at hb
    obtain ⟨e, e', h1, h2, h3⟩ := hb
    rw [h1] at h2; simp at h2; subst h2; omega

theorem Sel.Inv.accept_all (m : Discipline) (p : Pri) : m.kind.accept p = true := by cases m <;> rfl

theorem Sel.Inv.order_failed {m : Discipline} {s b τ} (h : Sel.Inv m.kind s b τ) {c : Call}
    (hc : (s.apply c).2 ≠ .ok ()) : (s.apply c).1.order = s.order := by
  have := (h.step c).2.2 hc
  cases m <;> cases s <;> simp only [Sel.Inv, Discipline.kind] at h
  · exact (congrArg Sel.order this).symm
  · exact (congrArg Sel.order this).symm

theorem SameOrder.apply {m : Discipline} {s s' : Sel} (h : SameOrder m s s') (c : Call) :
    (s'.apply c).2 = (s.apply c).2 ∧ SameOrder m (s.apply c).1 (s'.apply c).1 := by
  obtain ⟨⟨b, τ, hs⟩, ⟨b', τ', hs'⟩, ho⟩ := h
  have hp : ∀ k, (b k).isSome = (b' k).isSome := by
    intro k
    rw [Bool.eq_iff_iff, ← hs.mem_order, ← hs'.mem_order, ho]
  have hst : (s'.apply c).2 = (s.apply c).2 := by
    rw [(hs.step c).2.1, (hs'.step c).2.1]
    have : Spec.succeeds m.kind.accept b c = Spec.succeeds m.kind.accept b' c := by
      cases c <;> simp only [Spec.succeeds, hp]
      rename_i k p
      have := hp k
      cases h1 : b k <;> cases h2 : b' k <;> simp_all
    rw [this]
  refine ⟨hst, ⟨_, _, (hs.step c).1⟩, ⟨_, _, (hs'.step c).1⟩, ?_⟩
  by_cases hok : (s.apply c).2 = .ok ()
  · cases c with
    | insert k p =>
      have h1 : b k = none := by
        have := (hs.step (.insert k p)).2.1
        rw [hok] at this
        simp only [Spec.succeeds, Sel.Inv.accept_all, Bool.true_and] at this
        cases hb : b k with
        | none => rfl
        | some e => simp [hb] at this
      have h2 : b' k = none := by
        have := hp k
        rw [h1] at this
        cases hb : b' k <;> simp_all
      rw [hs.order_insert h1, hs'.order_insert h2]; cases m <;> simp only [ho]
    | update k p => rw [hs.order_update, hs'.order_update, ho]
    | delete k => rw [hs.order_delete, hs'.order_delete, ho]
    | clear => rw [hs.order_clear, hs'.order_clear]
  · rw [hs.order_failed hok, hs'.order_failed (by rw [hst]; exact hok), ho]

theorem SameOrder.sample {m : Discipline} {s s' : Sel} (h : SameOrder m s s') (d : Draw) :
    s'.sample d = s.sample d := by
  obtain ⟨⟨b, τ, hs⟩, ⟨b', τ', hs'⟩, ho⟩ := h
  cases hl : s.order with
  | nil =>
    have h1 : ∀ k, b k = none := by
      intro k
      have := hs.mem_order k
      rw [hl] at this
      cases hb : b k <;> simp_all
    have h2 : ∀ k, b' k = none := by
      intro k
      have := hs'.mem_order k
      rw [← ho, hl] at this
      cases hb : b' k <;> simp_all
    rw [(hs.sample d).1 h1, (hs'.sample d).1 h2]
  | cons k l =>
    rw [hs.order_sample hl, hs'.order_sample (ho ▸ hl)]

theorem SameOrder.equiv {m : Discipline} {s s' : Sel} (h : SameOrder m s s') : Sel.Equiv s s' :=
  Sel.Equiv.of_sim (SameOrder m) (fun _ _ h d => h.sample d) (fun _ _ h c => h.apply c) h

theorem SameChoices.of_inv {kind : SelKind} {s s' : Sel} {b b' : Book} {τ τ' : Nat} (h : Sel.Inv kind s b τ)
    (h' : Sel.Inv kind s' b' τ') (hb : SamePri b b')
    (ho : ∀ m : Discipline, m.kind = kind → s.order = s'.order) : SameChoices kind s s' := by
  cases kind with
  | fifo => exact SameOrder.equiv (m := .queue) ⟨⟨_, _, h⟩, ⟨_, _, h'⟩, ho .queue rfl⟩
  | lifo => exact SameOrder.equiv (m := .stack) ⟨⟨_, _, h⟩, ⟨_, _, h'⟩, ho .stack rfl⟩
  | uniform =>
    intro cs
    have h1 := Sel.Inv.runFrom cs h
    have h2 := Sel.Inv.runFrom cs h'
    have h3 := SamePri.runFrom SelKind.uniform.accept cs τ τ' hb
    change Sel.Inv _ (s.after cs) _ _ at h1
    change Sel.Inv _ (s'.after cs) _ _ at h2
    cases hs : s.after cs <;> cases hs' : s'.after cs <;> simp only [hs, hs', Sel.Inv] at h1 h2
    exact Uniform.R.relabel h1 h2 h3
  | prio w =>
    intro cs
    have h1 := Sel.Inv.runFrom cs h
    have h2 := Sel.Inv.runFrom cs h'
    have h3 := SamePri.runFrom (SelKind.prio w).accept cs τ τ' hb
    change Sel.Inv _ (s.after cs) _ _ at h1
    change Sel.Inv _ (s'.after cs) _ _ at h2
    cases hs : s.after cs <;> cases hs' : s'.after cs <;> simp only [hs, hs', Sel.Inv] at h1 h2
    exact Prio.R.intervals h1.1 h2.1 (h1.2.trans h2.2.symm) h3
  | heap m => trivial

end Verif
