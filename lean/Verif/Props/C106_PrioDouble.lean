import Verif.Proofs.DPrioExact
/-
C106: the prioritized selector in the arithmetic of `double`.
-/
namespace Verif

namespace C106

theorem draw_bound {u : Rat} (h : UniformDraw u) : u ≤ 1 - pow2 (-53) := by
  have e : pow2 (-53) = 1 / 2 ^ 53 := by decide +kernel
  rw [e]
  exact h.2

theorem length_of (w : PowD) (cs : List DCall) (l : List Key) (hl : LeavesKeys cs l) : (DPrio.after w cs).n = l.length := by
  have hk := keys w cs
  have : l.Perm (DPrio.after w cs).index.keys := by
    rw [List.perm_ext_iff_of_nodup hl.1 (AMap.keys_nodup _)]
    intro k
    rw [hl.2, AMap.mem_keys_iff, ← hk k, Option.isSome_iff_exists]
  rw [this.length_eq]
  exact (AMap.length_keys _).symm
where
  keys (w : PowD) (cs : List DCall) : ∀ k, ((DPrio.after w cs).index.get? k).isSome = (holds cs k).isSome := (DPrio.keys_of w cs).2.1

/-- The number that the uniform choice makes of a draw. -/
theorem uniform_pos {u : Rat} {n : Nat} (hu : UniformDraw u) (hn : 0 < n) (hn' : n ≤ 2 ^ 53) :
    ∃ q : Rat, Dbl.round (u * n) = .fin q ∧ 0 ≤ q ∧ q < n ∧ ((Dbl.fin u).mul (Dbl.ofInt n)).toSize = some q.floor.toNat ∧ q.floor.toNat < n := by
  obtain ⟨q, h1, h2, h3⟩ := Dbl.mul_size hu.1 (draw_bound hu) hn hn'
  refine ⟨q, h1, h2, h3, ?_, ?_⟩
  · rw [Dbl.ofInt_exact (by omega) (by omega)]
    show (Dbl.round (u * ((n : Int) : Rat))).toSize = _
    rw [Rat.intCast_natCast, h1]
    have hlt : q < pow2 64 := by
      have e1 : (n : Rat) ≤ pow2 53 := by
        have := int_le_pow53 (z := n) (by omega)
        rwa [Rat.intCast_natCast] at this
      have e2 : pow2 53 < pow2 64 := by decide +kernel
      grind
    simp only [Dbl.toSize]
    rw [if_neg (by grind), if_pos hlt]
  · have : q.floor < (n : Int) := Rat.floor_lt_iff.mpr (by rw [Rat.intCast_natCast]; exact h3)
    have : 0 ≤ q.floor := Rat.le_floor_iff.mpr (by simpa using h2)
    omega

end C106

/-- C106: whatever doubles are given as priorities, every draw returns a key that is there. -/
theorem C106_draws (w : PowD) (cs : List DCall) (l : List Key) (hl : LeavesKeys cs l) (hne : l ≠ []) (hlen : l.length ≤ 2 ^ 53) (u : Rat)
    (hu : UniformDraw u) : ∃ k pr, k ∈ l ∧ (DPrio.after w cs).sampleAt u = .ok (k, pr) := by
  have hn := C106.length_of w cs l hl
  obtain ⟨hbij, hpres, hcap, hkey⟩ := DPrio.keys_of w cs
  have hs := (DPrio.sums w cs).sum
  generalize DPrio.after w cs = s at *
  have hpos : 0 < s.n := by
    rw [hn]
    exact List.length_pos_iff.mpr hne
  unfold DPrio.sampleAt
  rw [if_neg (by omega)]
  split
  · obtain ⟨q, _, _, _, h4, h5⟩ := C106.uniform_pos hu hpos (by omega)
    refine ⟨_, (Dbl.fin 1).div (Dbl.ofInt s.n), (hl.2 _).mpr (hkey q.floor.toNat h5), ?_⟩
    unfold DPrio.sampleUniform
    rw [h4]
    simp only
    rw [if_pos (by omega)]
  · obtain ⟨j, hj, hjn⟩ := DPrio.walk_some hs 0 _ hpos (Dbl.mul_notNeg hu.1 (hs 0))
    exact ⟨_, (s.value j).div (s.sum 0), (hl.2 _).mpr (hkey j hjn), by rw [hj]; simp only; rw [if_pos hjn]⟩

/-- C106: every call succeeds if it may, and is refused otherwise; none kills the process. -/
theorem C106_replies (w : PowD) (cs : List DCall) (c : DCall) :
    ((DPrio.after w cs).apply c).2 = if (holds cs).allows c then .ok () else .err .invalidArgument := by
  have hs := DPrio.skel w cs
  obtain ⟨hr, _⟩ := Prio.R.runFrom (cs.map DCall.erased) 0 (Prio.R.init DPrio.powNone)
  change Prio.R (prioAfter DPrio.powNone (cs.map DCall.erased)) _ at hr
  rw [(hs.step c).2, (hr.step 0 c.erased).2.1]
  have hb := DPrio.book_holds cs 0 (fun _ => none) (fun _ => none) (fun _ => rfl)
  have ha : ∀ p : Dbl, Spec.acceptNonneg p.erased = p.accepted := by
    intro p
    unfold Dbl.erased
    rw [← DPrio.validPriority_eq]
    cases DPrio.validPriority p <;> simp [Spec.acceptNonneg]
  have hbn : ∀ k, (Spec.Book.runFrom Spec.acceptNonneg 0 (fun _ => none) (cs.map DCall.erased) k).isNone = (holds cs k).isNone := by
    intro k
    have := hb k
    rw [← Option.not_isSome, ← Option.not_isSome, this]
    rfl
  cases c with
  | insert k p => simp only [DCall.erased, Spec.succeeds, Holds.allows, ha, hbn]; rfl
  | update k p => simp only [DCall.erased, Spec.succeeds, Holds.allows, ha, hb]; rfl
  | delete k => simp only [DCall.erased, Spec.succeeds, Holds.allows, hb]; rfl
  | clear => rfl

/-- C106, weights of few digits, some of them positive: the weights and sums are exact. With `T` the total, a draw `u` is turned into the double
`t` next to `u * T`, and each key has an interval of numbers `t` as long as its weight. The probability is the double next to weight/total. -/
theorem C106_exact (w : PowD) (e : Int) (cs : List DCall) (h : FewDigits w e cs) (l : List Key) (hl : LeavesKeys cs l)
    (hpos : 0 < totalOf w cs l) (k : Key) (hk : k ∈ l) :
    ∃ a : Rat, 0 ≤ a ∧ a + weightOf w cs k ≤ totalOf w cs l ∧
      ∀ u pr, UniformDraw u → ((DPrio.after w cs).sampleAt u = .ok (k, pr) ↔
        pr = Dbl.round (weightOf w cs k / totalOf w cs l) ∧
        ∃ t, Dbl.round (u * totalOf w cs l) = .fin t ∧ a ≤ t ∧ t < a + weightOf w cs k) := by
  have hfin : DPrio.Finite cs := fun c hc p hp ha => by
    obtain ⟨q, hq, _⟩ := h.digits c hc p hp ha
    exact ⟨q, hq⟩
  have hb := DPrio.both h
  have hl' := (DPrio.enumerates_iff cs hfin l).mpr hl
  obtain ⟨hwf, h2, h3, hsum, hn⟩ := C05.facts w.exact (cs.map DCall.exact) l hl'
  obtain ⟨en, he⟩ := (hl'.2 k).mp hk
  obtain ⟨i, hi, hin, hkey, hval⟩ := h2 k en he
  have hkw : weightOf w cs k = (prioAfter w.exact (cs.map DCall.exact)).value i := by
    rw [← DPrio.keyWeight_eq w cs hfin]
    simp [Spec.keyWeight, he, hval]
  have hT : totalOf w cs l = (prioAfter w.exact (cs.map DCall.exact)).sum 0 := by
    rw [← DPrio.total_eq w cs hfin]
    exact hsum.symm
  have hTs : totalOf w cs l ≤ pow2 (e + 52) := by
    rw [Int.add_comm, pow2_add]
    exact h.small cs (List.prefix_refl cs) l hl
  rw [hT] at hpos hTs ⊢
  rw [hkw]
  have hlow := h.low
  have hhigh := h.high
  generalize DPrio.after w cs = d at *
  generalize prioAfter w.exact (cs.map DCall.exact) = s at *
  have hvn := hwf.tree.value_nonneg
  have hmem : i ∈ Prio.order s.n 0 := Prio.mem_order_zero.mpr hin
  have hb0 := Prio.before_nonneg hvn (Prio.order s.n 0) i
  have hble := Prio.before_le hvn hmem
  rw [Prio.order_sum hwf.tree] at hble
  refine ⟨Prio.before s.value (Prio.order s.n 0) i, hb0, hble, fun u pr hu => ?_⟩
  have hsg := DPrio.grid_sums hwf.tree hb.grid s.n
  -- the draw
  obtain ⟨z, hz⟩ := hsg 0 (by omega)
  have hep := pow2_pos e
  have hz0 : 0 < z := by
    have : ¬ z ≤ 0 := by
      intro hc
      have h1 : (z : Rat) ≤ 0 := by exact_mod_cast hc
      have := Rat.mul_le_mul_of_nonneg_right h1 (Rat.le_of_lt hep)
      grind
    omega
  have hz1 : z ≤ 2 ^ 53 := by
    have h53 := DPrio.pow53 e
    have hp := pow2_pos (e + 52)
    have h1 : (z : Rat) * pow2 e ≤ pow2 53 * pow2 e := by
      rw [← pow2_add, Int.add_comm]
      grind
    have h2 : ¬ (pow2 53 < (z : Rat)) := by
      intro hc
      have := Rat.mul_lt_mul_of_pos_right hc hep
      grind
    have h3 : pow2 53 = ((2 ^ 53 : Int) : Rat) := by decide +kernel
    rw [h3] at h2
    have h4 : (z : Rat) ≤ ((2 ^ 53 : Int) : Rat) := by
      generalize ((2 ^ 53 : Int) : Rat) = x at *
      grind
    exact Rat.intCast_le_intCast.mp h4
  obtain ⟨t, ht, t0, tT⟩ := Dbl.mul_below (n := z.toNat) (k := e) hu.1 (C106.draw_bound hu) (by omega) (by omega) hlow hhigh
  have hzz : ((z.toNat : Nat) : Rat) * pow2 e = s.sum 0 := by
    rw [hz, ← Rat.intCast_natCast, Int.toNat_of_nonneg (by omega)]
  rw [hzz] at ht tT
  have h53 := DPrio.pow53 e
  have hp52 := pow2_pos (e + 52)
  obtain ⟨g, g1, g2, g3, g4⟩ := DPrio.draw_grid (Rat.mul_nonneg hu.1 (Rat.le_of_lt hpos)) ht (by omega) (by grind : t ≤ pow2 (e + 53))
  have hwalk := hb.toTwin.walk hwf.tree g1 (by omega) (fun j => (hsg j (by omega)).finer g2) 0 t t0 g4 g3
  obtain ⟨j, r, hw, hp⟩ := Prio.walk_eq hwf.tree 0 t (by omega) t0 tT
  have hjn := Prio.mem_order_zero.mp (Prio.pick_mem hp)
  have hdn := hb.toSkel.n
  have hs : d.sampleAt u = .ok (s.keyAt j, Dbl.round (s.value j / s.sum 0)) := by
    unfold DPrio.sampleAt
    rw [if_neg (by omega), hb.sum 0, if_neg (by simp only [Dbl.isZero, decide_eq_true_eq]; grind)]
    have hmul : (Dbl.fin u).mul (.fin (s.sum 0)) = .fin t := ht
    rw [hmul, hwalk, hw]
    simp only [Option.map_some]
    rw [if_pos (by omega), hb.keys, hb.value]
    simp only [Dbl.div]
    rw [if_neg (by grind)]
  rw [hs]
  have hiff := Prio.pick_iff hvn (Prio.order_nodup s.n 0) hmem t0
  rw [hp] at hiff
  simp only [Res.ok.injEq, Prod.mk.injEq]
  constructor
  · rintro ⟨h5, h6⟩
    have e1 := (hwf.bij k j).mpr ⟨hjn, h5⟩
    rw [hi] at e1
    simp only [Option.some.injEq] at e1
    subst e1
    exact ⟨h6.symm, t, ht, hiff.mp rfl⟩
  · rintro ⟨h5, t', ht', hint⟩
    rw [ht] at ht'
    cases ht'
    have := hiff.mpr hint
    simp only [Option.some.injEq] at this
    subst this
    exact ⟨hkey, h5.symm⟩

/-- C106, weights of few digits, all of them zero: `u` is turned into the double `t` next to `u * n`, and each key has an interval of numbers `t`
of length 1. The probability is the double next to 1/n. -/
theorem C106_exact_uniform (w : PowD) (e : Int) (cs : List DCall) (h : FewDigits w e cs) (l : List Key) (hl : LeavesKeys cs l)
    (hlen : l.length ≤ 2 ^ 53) (hzero : totalOf w cs l = 0) (k : Key) (hk : k ∈ l) :
    ∃ i : Nat, i < l.length ∧ ∀ u pr, UniformDraw u → ((DPrio.after w cs).sampleAt u = .ok (k, pr) ↔
      pr = Dbl.round (1 / (l.length : Rat)) ∧ ∃ t, Dbl.round (u * l.length) = .fin t ∧ (i : Rat) ≤ t ∧ t < i + 1) := by
  have hfin : DPrio.Finite cs := fun c hc p hp ha => by
    obtain ⟨q, hq, _⟩ := h.digits c hc p hp ha
    exact ⟨q, hq⟩
  have hb := DPrio.both h
  have hl' := (DPrio.enumerates_iff cs hfin l).mpr hl
  obtain ⟨hwf, h2, h3, hsum, hn⟩ := C05.facts w.exact (cs.map DCall.exact) l hl'
  obtain ⟨en, he⟩ := (hl'.2 k).mp hk
  obtain ⟨i, hi, hin, hkey, hval⟩ := h2 k en he
  rw [DPrio.total_eq w cs hfin, hzero] at hsum
  generalize DPrio.after w cs = d at *
  generalize prioAfter w.exact (cs.map DCall.exact) = s at *
  rw [← hn] at hlen ⊢
  refine ⟨i, hin, fun u pr hu => ?_⟩
  obtain ⟨q, q1, q2, q3, q4, q5⟩ := C106.uniform_pos hu (by omega : 0 < s.n) hlen
  have hdn := hb.toSkel.n
  have hcap := hwf.cap
  have hs : d.sampleAt u = .ok (s.keyAt q.floor.toNat, Dbl.round (1 / (s.n : Rat))) := by
    unfold DPrio.sampleAt
    rw [if_neg (by omega), hb.sum 0, hsum, if_pos (by decide)]
    unfold DPrio.sampleUniform
    rw [hdn, q4]
    simp only
    rw [if_pos (by rw [hb.cap]; omega), hb.keys, Dbl.ofInt_exact (by omega) (by omega)]
    simp only [Dbl.div]
    have : ((s.n : Int) : Rat) ≠ 0 := by
      intro hc
      have := Rat.intCast_inj.mp (hc.trans (show (0 : Rat) = ((0 : Int) : Rat) from rfl))
      omega
    rw [if_neg this, Rat.intCast_natCast]
  rw [hs]
  simp only [Res.ok.injEq, Prod.mk.injEq]
  have hfl : 0 ≤ q.floor := Rat.le_floor_iff.mpr (by simpa using q2)
  have hiff : q.floor.toNat = i ↔ (i : Rat) ≤ q ∧ q < i + 1 := by
    have a1 : (i : Int) ≤ q.floor ↔ (i : Rat) ≤ q := by
      rw [Rat.le_floor_iff, Rat.intCast_natCast]
    have a2 : q.floor < (i : Int) + 1 ↔ q < (i : Rat) + 1 := by
      rw [Rat.floor_lt_iff, Rat.intCast_add, Rat.intCast_natCast]
      rfl
    rw [← a1, ← a2]
    omega
  constructor
  · rintro ⟨h5, h6⟩
    have e1 := (hwf.bij k q.floor.toNat).mpr ⟨q5, h5⟩
    rw [hi] at e1
    simp only [Option.some.injEq] at e1
    exact ⟨h6.symm, q, q1, hiff.mp e1.symm⟩
  · rintro ⟨h5, t', ht', hint⟩
    rw [q1] at ht'
    cases ht'
    rw [hiff.mpr hint]
    exact ⟨hkey, h5.symm⟩

/-- C106: a total that is NaN (which infinite priorities bring about) makes every draw return the first key. -/
theorem C106_nan_total (s : DPrio) (hn : 0 < s.n) (h : s.sum 0 = .nan) (u : Rat) :
    s.sampleAt u = .ok (s.keyAt 0, .nan) := by
  unfold DPrio.sampleAt
  rw [if_neg (by omega), h]
  have hw : s.walk 0 .nan = some 0 := by
    unfold DPrio.walk
    rfl
  have hd : ∀ x : Dbl, x.div .nan = .nan := by intro x; cases x <;> rfl
  show (match s.walk 0 ((Dbl.fin u).mul .nan) with
    | none => _
    | some i => _) = _
  have hm : (Dbl.fin u).mul .nan = .nan := rfl
  rw [hm, hw]
  simp only [hd]
  rw [if_pos hn]

namespace C106

theorem holds_from (cs : List DCall) : ∀ (h : Holds) (k : Key) (p : Dbl), cs.foldl Holds.step h k = some p →
    h k = some p ∨ ((∃ c ∈ cs, c.priority = some p) ∧ p.accepted = true) := by
  induction cs with
  | nil => intro h k p hk; exact .inl hk
  | cons c cs ih =>
    intro h k p hk
    rcases ih (h.step c) k p hk with h1 | ⟨⟨c', h2, h3⟩, h4⟩
    · cases c with
      | insert k0 p0 =>
        simp only [Holds.step] at h1
        split at h1
        · rename_i hc
          cases h1
          exact .inr ⟨⟨_, List.mem_cons_self, rfl⟩, hc.2.1⟩
        · exact .inl h1
      | update k0 p0 =>
        simp only [Holds.step] at h1
        split at h1
        · rename_i hc
          cases h1
          exact .inr ⟨⟨_, List.mem_cons_self, rfl⟩, hc.2.1⟩
        · exact .inl h1
      | delete k0 =>
        simp only [Holds.step] at h1
        split at h1
        · cases h1
        · exact .inl h1
      | clear => cases h1
    · exact .inr ⟨⟨c', by simp [h2], h3⟩, h4⟩

/-- The key of an insertion. -/
def keyOf : DCall → Option Key
  | .insert k _ => some k
  | _ => none

theorem holds_inserted (cs : List DCall) : ∀ (h : Holds) (k : Key), (cs.foldl Holds.step h k).isSome → (h k).isSome ∨ k ∈ cs.filterMap keyOf := by
  induction cs with
  | nil => intro h k hk; exact .inl hk
  | cons c cs ih =>
    intro h k hk
    rcases ih (h.step c) k hk with h1 | h1
    · cases c with
      | insert k0 p0 =>
        by_cases hc : k = k0
        · subst hc
          exact .inr (by simp [keyOf])
        · simp only [Holds.step, hc, false_and, if_false] at h1
          exact .inl h1
      | update k0 p0 =>
        simp only [Holds.step] at h1
        split at h1
        · rename_i hc
          rw [hc.1]
          exact .inl hc.2.2
        · exact .inl h1
      | delete k0 =>
        simp only [Holds.step] at h1
        split at h1
        · cases h1
        · exact .inl h1
      | clear => cases h1
    · exact .inr (by
        rw [List.filterMap_cons]
        split
        · exact h1
        · simp [h1])

theorem sum_le {f : Key → Rat} {M : Rat} (h : ∀ k, f k ≤ M) (l : List Key) : (l.map f).sum ≤ l.length * M := by
  induction l with
  | nil => simp
  | cons x l ih =>
    simp only [List.map_cons, List.sum_cons, List.length_cons]
    have := h x
    have e : ((l.length + 1 : Nat) : Rat) * M = l.length * M + M := by
      rw [Rat.natCast_add]
      have : ((1 : Nat) : Rat) = 1 := rfl
      rw [this]
      grind
    rw [e]
    grind

end C106

/-- C106: which histories have weights of few digits. Weights that are integers of at most `M`, in at most `2^52 / M` calls, for example. -/
theorem C106_integers (w : PowD) (M : Nat) (cs : List DCall)
    (h : ∀ c ∈ cs, ∀ p, c.priority = some p → p.accepted = true → ∃ q, p = .fin q ∧ ∃ z : Nat, z ≤ M ∧ w.power p = .fin z)
    (hlen : cs.length * M ≤ 2 ^ 52) : FewDigits w 0 cs := by
  refine ⟨by omega, by omega, ?_, ?_⟩
  · intro c hc p hp ha
    obtain ⟨q, hq, z, _, hz⟩ := h c hc p hp ha
    exact ⟨q, hq, z, by rw [hz, pow2_zero, Rat.mul_one]⟩
  · intro pre hpre l hl
    have hM : (0 : Rat) ≤ (M : Rat) := by exact_mod_cast Nat.zero_le M
    have hw : ∀ k, weightOf w pre k ≤ M := by
      intro k
      unfold weightOf
      cases hk : holds pre k with
      | none => exact hM
      | some p =>
        rcases C106.holds_from pre (fun _ => none) k p hk with h1 | ⟨⟨c, h2, h3⟩, h4⟩
        · cases h1
        · obtain ⟨q, rfl, z, hz1, hz2⟩ := h c (hpre.subset h2) p h3 h4
          simp only [PowD.weight]
          split
          · exact hM
          · rename_i hq
            have : w.f (.fin q) = .fin z := by
              unfold PowD.power Dbl.isZero at hz2
              rw [if_neg (by simpa using hq)] at hz2
              exact hz2
            rw [this]
            simp only
            exact_mod_cast hz1
    have hll : l.length ≤ cs.length := by
      have h1 : l.length ≤ (pre.filterMap C106.keyOf).length := by
        apply List.Nodup.length_le_of_subset hl.1
        intro k hk
        rcases C106.holds_inserted pre (fun _ => none) k ((hl.2 k).mp hk) with h1 | h1
        · cases h1
        · exact h1
      have h2 := List.length_filterMap_le C106.keyOf pre
      have h3 := hpre.length_le
      omega
    have h1 := C106.sum_le hw l
    have h2 : l.length * M ≤ 2 ^ 52 := Nat.le_trans (Nat.mul_le_mul_right M hll) hlen
    have h3 : (l.length : Rat) * M ≤ 2 ^ 52 := by
      rw [← Rat.natCast_mul]
      have h4 : ((2 ^ 52 : Nat) : Rat) = 2 ^ 52 := by decide +kernel
      rw [← h4]
      exact Rat.natCast_le_natCast.mpr h2
    rw [pow2_zero, Rat.mul_one]
    exact Rat.le_trans h1 h3

namespace PrioDoubleDemo

/-- Exponent 1: `std::pow(x, 1.0)` is `x`. -/
def expOne : PowD := ⟨id, fun _ h => h⟩

/-- Integer priorities, one of them 0, and one that is NaN and refused. -/
def calls : List DCall := [.insert 1 (.fin 3), .insert 2 (.fin 0), .insert 3 (.fin 5), .update 2 (.fin 4), .delete 1, .insert 4 .nan]

/-- A draw just below one. -/
def top : Rat := 1 - 1 / 2 ^ 53

theorem top_draw : UniformDraw top := ⟨by decide +kernel, by decide +kernel⟩

/-- The hypotheses of `C106_exact` hold for these calls. -/
theorem fewDigits : FewDigits expOne 0 calls := by
  refine C106_integers expOne 5 calls ?_ (by decide)
  have : ∀ c ∈ calls, ∀ p, c.priority = some p → p.accepted = true → p = .fin 3 ∨ p = .fin 0 ∨ p = .fin 5 ∨ p = .fin 4 := by
    intro c hc p hp ha
    simp only [calls, List.mem_cons, List.not_mem_nil, or_false] at hc
    rcases hc with rfl | rfl | rfl | rfl | rfl | rfl <;> simp only [DCall.priority, Option.some.injEq, reduceCtorEq] at hp <;> subst hp <;>
      first | (cases ha; done) | simp
  intro c hc p hp ha
  rcases this c hc p hp ha with rfl | rfl | rfl | rfl
  · exact ⟨3, rfl, 3, by decide, by decide +kernel⟩
  · exact ⟨0, rfl, 0, by decide, by decide +kernel⟩
  · exact ⟨5, rfl, 5, by decide, by decide +kernel⟩
  · exact ⟨4, rfl, 4, by decide, by decide +kernel⟩

theorem leaves : LeavesKeys calls [2, 3] := by
  refine ⟨by decide, fun k => ?_⟩
  by_cases h1 : k = 1
  · subst h1; decide +kernel
  by_cases h2 : k = 2
  · subst h2; decide +kernel
  by_cases h3 : k = 3
  · subst h3; decide +kernel
  by_cases h4 : k = 4
  · subst h4; decide +kernel
  simp [holds, calls, Holds.step, h1, h2, h3, h4]

/-- Two keys of weights 4 and 5 are left. -/
theorem total : totalOf expOne calls [2, 3] = 9 := by decide +kernel

/-- Rounding is to the nearest double; of two it is the even one. -/
theorem ties : Dbl.round (1 + 1 / 2 ^ 53) = .fin 1 ∧ Dbl.round (1 + 3 / 2 ^ 53) = .fin (1 + 1 / 2 ^ 51) ∧
    Dbl.round (1 + 1 / 2 ^ 53 + 1 / 2 ^ 80) = .fin (1 + 1 / 2 ^ 52) ∧ Dbl.round (3 / 2 ^ 1075) = .fin (2 / 2 ^ 1074) ∧
    Dbl.round (2 ^ 1024 - 2 ^ 970) = .pinf ∧ Dbl.round (2 ^ 1024 - 2 ^ 970 - 1) = .fin (2 ^ 1024 - 2 ^ 971) := by decide +kernel

/-- A draw of 1/2 is turned into 4.5, which is in the interval of key 3. -/
theorem half : (DPrio.after expOne calls).sampleAt (1 / 2) = .ok (3, Dbl.round (5 / 9)) := by decide +kernel

end PrioDoubleDemo

namespace C106

/-- If nothing but the first element has a sum, it is drawn. -/
theorem first {s : DPrio} {x : Rat} (hn : 0 < s.n) (h0 : s.sum 0 = .fin x) (hx : 0 < x) (h1 : s.nodeSum 1 = .fin 0) (h2 : s.nodeSum 2 = .fin 0)
    (u : Rat) (hu : 0 ≤ u) : s.sampleAt u = .ok (s.keyAt 0, (s.value 0).div (.fin x)) := by
  unfold DPrio.sampleAt
  rw [if_neg (by omega), h0, if_neg (by simp only [Dbl.isZero, decide_eq_true_eq]; grind)]
  have ht : ((Dbl.fin u).mul (.fin x)).NotNeg := Dbl.mul_notNeg hu (s := .fin x) (Dbl.Nonneg.notNeg (Rat.le_of_lt hx))
  generalize (Dbl.fin u).mul (.fin x) = t at ht
  have hz : (Dbl.fin 0).NotNeg := Dbl.Nonneg.notNeg (d := .fin 0) Rat.le_refl
  have e1 : t.lt (.fin 0) = false := ht
  have e2 : (t.sub (.fin 0)).lt (.fin 0) = false := Dbl.sub_notNeg ht hz e1
  have hw : s.walk 0 t = some 0 := by
    unfold DPrio.walk
    simp only [Nat.mul_zero, Nat.zero_add, h1, h2, e1, e2, Bool.false_eq_true, if_false]
  rw [hw]
  simp only
  rw [if_pos hn]

end C106

namespace PrioDoubleBad
open PrioDoubleDemo (expOne top)

/-- Two keys of priority zero; the first had priorities of different amounts before. -/
def residue : List DCall := [.insert 1 (.fin (2 ^ 33)), .insert 2 (.fin 0), .update 1 (Dbl.round (3 / 10)), .update 1 (.fin 0)]

/-- C106, disagreement: all priorities are zero, but the choice is not uniform. What rounding left in the sum makes every draw return key 1, with
probability 0. -/
theorem C106_zero_priorities_false : holds residue 1 = some (.fin 0) ∧ holds residue 2 = some (.fin 0) ∧
    ∀ u, UniformDraw u → (DPrio.after expOne residue).sampleAt u = .ok (1, .fin 0) := by
  refine ⟨by decide +kernel, by decide +kernel, fun u hu => ?_⟩
  have := C106.first (s := DPrio.after expOne residue) (x := 3435973837 / 2 ^ 54) (by decide +kernel) (by decide +kernel) (by decide +kernel)
    (by decide +kernel) (by decide +kernel) u hu.1
  rw [this]
  decide +kernel

/-- C106, disagreement: a key of priority zero is drawn although another has priority 1. -/
theorem C106_zero_drawn_false : holds (residue ++ [.update 2 (.fin 1)]) 1 = some (.fin 0) ∧
    holds (residue ++ [.update 2 (.fin 1)]) 2 = some (.fin 1) ∧ UniformDraw top ∧
    (DPrio.after expOne (residue ++ [.update 2 (.fin 1)])).sampleAt top = .ok (1, .fin 0) := by
  refine ⟨by decide +kernel, by decide +kernel, PrioDoubleDemo.top_draw, by decide +kernel⟩

/-- A key of infinite priority, deleted before the others come. The selector is even cleared in between (`Clear` resets the sums of the elements
that are there, which are none). -/
def poisoned : List DCall := [.insert 1 .pinf, .delete 1, .clear, .insert 2 (.fin 1), .insert 3 (.fin 1)]

/-- C106, disagreement: a single infinite priority (which is accepted) is never forgotten, not even when its key is deleted and the
selector is cleared. Two keys of priority 1
are left, but every draw returns key 2, and the probability is NaN. -/
theorem C106_infinity_false : holds poisoned 1 = none ∧ holds poisoned 2 = some (.fin 1) ∧ holds poisoned 3 = some (.fin 1) ∧
    ∀ u, (DPrio.after expOne poisoned).sampleAt u = .ok (2, .nan) := by
  refine ⟨by decide +kernel, by decide +kernel, by decide +kernel, fun u => ?_⟩
  rw [C106_nan_total _ (by decide +kernel) (by decide +kernel) u]
  decide +kernel

end PrioDoubleBad

end Verif
