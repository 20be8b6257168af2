import Verif.Proofs.PrioSel
import Verif.Proofs.Uniform
import Verif.Proofs.HeapSel
/-
Laws common to all selectors.
-/
namespace Verif
open Spec (Call Book Entry)

namespace Prio

/-- The same selector with another capacity. -/
def withCap (s : Prio) (c : Nat) : Prio := { s with capacity := c }

theorem sum_unique {s s' : Prio} (h : Tree s) (h' : Tree s') (hn : s.n = s'.n) (hv : s.value = s'.value) :
    s.sum = s'.sum := by
  funext i
  induction hm : s.n - i using Nat.strongRecOn generalizing i with
  | _ m ih =>
    by_cases hi : i < s.n
    · rw [h.eq i, h'.eq i, hv, ih (s.n - (2 * i + 1)) (by omega) _ rfl,
        ih (s.n - (2 * i + 2)) (by omega) _ rfl]
    · rw [h.sum_zero i (by omega), h'.sum_zero i (by omega)]

theorem sum_eq_of {s : Prio} {f g : Nat → Rat} {v ka ix} {c c' : Nat}
    (h : Tree { s with capacity := c, sum := f, value := v, keyAt := ka, index := ix })
    (h' : Tree { s with capacity := c', sum := g, value := v, keyAt := ka, index := ix }) : f = g :=
  sum_unique h h' rfl rfl

theorem deleted_withCap (s : Prio) (c : Nat) (k : Key) (i : Nat) (f : Nat → Rat) :
    (s.withCap c).deleted k i f = (s.deleted k i f).withCap c := by
  have hn : (s.withCap c).n = s.n := rfl
  unfold deleted
  rw [hn]
  split <;> rfl

theorem deleted_sum {s : Prio} {c : Nat} {k : Key} {i : Nat} {f g : Nat → Rat}
    (h : Tree (s.deleted k i f)) (h' : Tree ((s.deleted k i g).withCap c)) : f = g := by
  unfold deleted at h h'
  split at h
  · rename_i hc; rw [if_pos hc] at h'; exact sum_eq_of h h'
  · rename_i hc; rw [if_neg hc] at h'; exact sum_eq_of h h'

/-- Calls do not observe the capacity. -/
theorem apply_withCap {s : Prio} {b : Book} (h : R s b) {c : Nat} (hc : s.n ≤ c) (hp : 0 < c) (call : Call) :
    ∃ c', (s.withCap c).apply call = ((s.apply call).1.withCap c', (s.apply call).2) ∧
      (s.apply call).1.n ≤ c' ∧ 0 < c' := by
  have hw : WF (s.withCap c) := h.wf.withCap c hc hp
  have hb' : R (s.withCap c) b := ⟨hw, h.present, h.weight⟩
  cases call with
  | insert k p =>
    simp only [Prio.apply]
    cases hk : s.index.get? k with
    | some i =>
      obtain ⟨c1, e1, l1⟩ := insert_dup (s := s) (p := p) hk
      obtain ⟨c2, e2, l2⟩ := insert_dup (s := s.withCap c) (p := p) hk
      rw [e1, e2]
      have l2 : c ≤ c2 := l2
      exact ⟨c2, rfl, by show s.n ≤ c2; omega, by omega⟩
    | none =>
      by_cases ha : Spec.acceptNonneg p = true
      · obtain ⟨q, rfl, hq⟩ := checkPriority_some ha
        obtain ⟨f, c1, e1, w1⟩ := insert_ok h.wf hq hk
        obtain ⟨g, c2, e2, w2⟩ := insert_ok hw hq hk
        have hfg : f = g := sum_eq_of w1.tree w2.tree
        subst hfg
        rw [e1, e2]
        exact ⟨c2, rfl, w2.cap, w2.cap_pos⟩
      · have ha : Spec.acceptNonneg p = false := by simpa using ha
        have he : ∀ s : Prio, s.insert k p = (s, .err .invalidArgument) := by
          intro s; simp [Prio.insert, checkPriority_none ha]
        rw [he, he]
        exact ⟨c, rfl, hc, hp⟩
  | update k p =>
    simp only [Prio.apply]
    by_cases ha : Spec.acceptNonneg p = true
    · obtain ⟨q, rfl, hq⟩ := checkPriority_some ha
      cases hk : s.index.get? k with
      | some i =>
        obtain ⟨f, e1, w1⟩ := update_ok h.wf hq hk
        obtain ⟨g, e2, w2⟩ := update_ok hw hq hk
        have hfg : f = g := sum_eq_of w1.tree w2.tree
        subst hfg
        rw [e1, e2]
        exact ⟨c, rfl, hc, hp⟩
      | none =>
        have he : ∀ s : Prio, s.index.get? k = none → s.update k (.val q) = (s, .err .invalidArgument) := by
          intro s hk; simp only [Prio.update, hk]; split <;> rfl
        rw [he s hk, he (s.withCap c) hk]
        exact ⟨c, rfl, hc, hp⟩
    · have ha : Spec.acceptNonneg p = false := by simpa using ha
      have he : ∀ s : Prio, s.update k p = (s, .err .invalidArgument) := by
        intro s; simp [Prio.update, checkPriority_none ha]
      rw [he, he]
      exact ⟨c, rfl, hc, hp⟩
  | delete k =>
    simp only [Prio.apply]
    cases hk : s.index.get? k with
    | some i =>
      obtain ⟨s1, e1, w1, _, ⟨f, hf⟩, _⟩ := delete_ok h.wf hk
      obtain ⟨s2, e2, w2, _, ⟨g, hg⟩, _⟩ := delete_ok hw hk
      rw [e1, e2]
      have hs : s2 = s1.withCap c := by
        subst hf; subst hg
        rw [deleted_withCap] at w2 ⊢
        rw [deleted_sum w1.tree w2.tree]
      have hcap := w2.cap
      rw [hs] at hcap ⊢
      exact ⟨c, rfl, hcap, hp⟩
    | none =>
      have he : ∀ s : Prio, s.index.get? k = none → s.delete k = (s, .err .invalidArgument) := by
        intro s hk; simp [Prio.delete, hk]
      rw [he s hk, he (s.withCap c) hk]
      exact ⟨c, rfl, hc, hp⟩
  | clear => exact ⟨c, rfl, by simp [Prio.apply, clear, n], hp⟩

theorem walk_withCap (s : Prio) (c : Nat) (i : Nat) (t : Rat) : (s.withCap c).walk i t = s.walk i t := by
  induction hm : s.n - i using Nat.strongRecOn generalizing i t with
  | _ m ih =>
    unfold walk
    have e1 : ∀ j, (s.withCap c).nodeSum j = s.nodeSum j := fun _ => rfl
    have e2 : (s.withCap c).n = s.n := rfl
    simp only [e1, e2]
    split
    · split
      · rw [ih (s.n - (2 * i + 1)) (by omega) _ _ rfl]
      · rfl
    · split
      · split
        · rw [ih (s.n - (2 * i + 2)) (by omega) _ _ rfl]
        · rfl
      · rfl

theorem sampleAt_withCap (s : Prio) (c : Nat) (u : Rat) : (s.withCap c).sampleAt u = s.sampleAt u := by
  unfold sampleAt
  rw [walk_withCap]; rfl

end Prio

namespace Sel

/-- The selector `s` of the given kind represents the book `b` at time `t`. -/
def Inv (kind : SelKind) (s : Sel) (b : Book) (t : Nat) : Prop :=
  match kind, s with
  | .fifo, .fifo s => ListSel.R true s b t
  | .lifo, .lifo s => ListSel.R false s b t
  | .uniform, .uniform s => Uniform.R s b
  | .heap m, .heap s => HeapSel.R s b t ∧ s.minHeap = m
  | .prio w, .prio s => Prio.R s b ∧ s.pow = w
  | _, _ => False

theorem Inv.make (kind : SelKind) : Inv kind kind.make (fun _ => none) 0 := by
  cases kind with
  | fifo => exact ListSel.R.init true
  | lifo => exact ListSel.R.init false
  | uniform => exact Uniform.R.init
  | heap m => exact ⟨HeapSel.R.init m, rfl⟩
  | prio w => exact ⟨Prio.R.init w, rfl⟩

/-- Two selectors that no later call can tell apart. -/
def Same : Sel → Sel → Prop
  | .prio s, .prio s' => ∃ c, s.n ≤ c ∧ 0 < c ∧ s' = s.withCap c
  | s, s' => s = s'

theorem Inv.step {kind : SelKind} {s : Sel} {b : Book} {t : Nat} (h : Inv kind s b t) (c : Call) :
    Inv kind (s.apply c).1 (b.step kind.accept t c) (t + 1) ∧
    (s.apply c).2 = (if Spec.succeeds kind.accept b c then .ok () else .err .invalidArgument) ∧
    ((s.apply c).2 ≠ .ok () → Same s (s.apply c).1) := by
  cases kind <;> cases s <;> simp only [Inv] at h <;> try exact h.elim
  · exact ⟨(h.step c).1, (h.step c).2.1, fun hne => (congrArg Sel.fifo ((h.step c).2.2 hne)).symm⟩
  · exact ⟨(h.step c).1, (h.step c).2.1, fun hne => (congrArg Sel.lifo ((h.step c).2.2 hne)).symm⟩
  · exact ⟨(h.step t c).1, (h.step t c).2.1, fun hne => (congrArg Sel.uniform ((h.step t c).2.2 hne)).symm⟩
  · obtain ⟨h1, h2, h3, h4, _⟩ := h.1.step c
    exact ⟨⟨h1, h4.trans h.2⟩, h2, fun hne => (congrArg Sel.heap (h3 hne)).symm⟩
  · obtain ⟨h1, h2, h3, h4⟩ := h.1.step t c
    refine ⟨⟨h1, h4.trans h.2⟩, h2, fun hne => ?_⟩
    obtain ⟨cap, hc, he⟩ := h3 hne
    refine ⟨cap, ?_, ?_, he⟩
    · have := h.1.wf.cap; omega
    · have := h.1.wf.cap_pos; omega

theorem Same.refl (kind : SelKind) {s : Sel} {b : Book} {t : Nat} (h : Inv kind s b t) : Same s s := by
  cases kind <;> cases s <;> simp only [Inv] at h <;> try exact h.elim
  all_goals first | rfl | skip
  exact ⟨_, h.1.wf.cap, h.1.wf.cap_pos, rfl⟩

theorem Same.sample {s s' : Sel} (h : Same s s') (d : Draw) : s'.sample d = s.sample d := by
  cases s <;> cases s' <;> simp only [Same] at h <;> try (first | cases h; done | (cases h; rfl))
  obtain ⟨c, _, _, rfl⟩ := h
  exact Prio.sampleAt_withCap _ _ _

theorem Same.step {kind : SelKind} {s s' : Sel} {b : Book} {t : Nat} (hi : Inv kind s b t) (h : Same s s')
    (c : Call) : Same (s.apply c).1 (s'.apply c).1 ∧ (s'.apply c).2 = (s.apply c).2 := by
  cases kind <;> cases s <;> simp only [Inv] at hi <;> (try exact hi.elim) <;> cases s' <;>
    simp only [Same] at h <;> (try (cases h; done)) <;> (try (cases h; exact ⟨rfl, rfl⟩))
  · obtain ⟨cap, h1, h2, rfl⟩ := h
    obtain ⟨c', h3, h4, h5⟩ := Prio.apply_withCap hi.1 h1 h2 c
    simp only [Sel.apply]
    rw [h3]
    exact ⟨⟨c', h4, h5, rfl⟩, rfl⟩

/-- Sampling: dead exactly if nothing is present, otherwise some present key. -/
theorem Inv.sample {kind : SelKind} {s : Sel} {b : Book} {t : Nat} (h : Inv kind s b t) (d : Draw) :
    ((∀ k, b k = none) → s.sample d = .died) ∧
    ((∃ k, (b k).isSome) → ∃ k pr, s.sample d = .ok (k, pr) ∧ (b k).isSome) := by
  have list : ∀ {fwd : Bool} {s : ListSel}, ListSel.R fwd s b t →
      ((∀ k, b k = none) → s.sample = .died) ∧
      ((∃ k, (b k).isSome) → ∃ k pr, s.sample = .ok (k, pr) ∧ (b k).isSome) := by
    intro fwd s h
    refine ⟨h.sample_died.mpr, ?_⟩
    rintro ⟨k, hk⟩
    cases hs : s.sample with
    | ok r =>
      obtain ⟨k', pr⟩ := r
      obtain ⟨_, e, he, _⟩ := (h.sample_iff k' pr).mp hs
      exact ⟨k', pr, rfl, by simp [he]⟩
    | err c => unfold ListSel.sample at hs; split at hs <;> simp at hs
    | died => rw [h.sample_died.mp hs k] at hk; simp at hk
  cases kind <;> cases s <;> simp only [Inv] at h <;> try exact h.elim
  · exact list h
  · exact list h
  · rename_i s
    simp only [Sel.sample]
    constructor
    · intro hall
      have : s.keys = [] := by
        apply List.eq_nil_iff_forall_not_mem.mpr
        intro k hk
        have := (h.present k).mp hk
        rw [hall k] at this; simp at this
      simp [Uniform.sampleAt, this]
    · rintro ⟨k, hk⟩
      have hm := (h.present k).mpr hk
      have hl := List.length_pos_of_mem hm
      have hi : d.idx % s.keys.length < s.keys.length := Nat.mod_lt _ hl
      refine ⟨s.keys[d.idx % s.keys.length], 1 / (s.keys.length : Rat), by simp [Uniform.sampleAt, hi], ?_⟩
      exact (h.present _).mp (List.getElem_mem hi)
  · rename_i s
    simp only [Sel.sample, HeapSel.sample]
    constructor
    · intro hall
      have h0 : s.nodes.size = 0 := by
        rw [AMap.size_eq_zero_iff]
        intro k
        have := h.1.get_isSome k
        rw [hall k] at this
        cases hk : s.nodes.get? k <;> simp_all
      simp [h0]
    · rintro ⟨k, hk⟩
      have h0 : s.nodes.size ≠ 0 := by
        intro h0
        have := h.1.get_isSome k
        rw [(AMap.size_eq_zero_iff _).mp h0 k, hk] at this
        simp at this
      have hn0 : s.heap.n ≠ 0 := fun hc => h0 (h.1.wf.n_zero_iff.mp hc)
      simp only [h0, hn0, if_false]
      obtain ⟨e, he, _⟩ := h.1.some_ _ _ ((h.1.wf.nodes (s.heap.at_ 0).key _).mpr ⟨⟨0, by omega, rfl⟩, rfl⟩)
      exact ⟨_, _, rfl, by simp [he]⟩
  · rename_i w s
    simp only [Sel.sample]
    have hwf := h.1.wf
    have hpres : ∀ i, i < s.n → (b (s.keyAt i)).isSome := by
      intro i hi
      rw [← h.1.present, (hwf.bij _ i).mpr ⟨hi, rfl⟩]; rfl
    constructor
    · intro hall
      have h0 : s.n = 0 := by
        rw [Prio.n, AMap.size_eq_zero_iff]
        intro k
        have := h.1.present k
        rw [hall k] at this
        cases hk : s.index.get? k <;> simp_all
      simp [Prio.sampleAt, h0]
    · rintro ⟨k, hk⟩
      have hn0 : s.n ≠ 0 := by
        intro h0
        have := h.1.present k
        rw [(AMap.size_eq_zero_iff _).mp h0 k, hk] at this
        simp at this
      by_cases hs0 : s.sum 0 = 0
      · have hnpos : (0 : Rat) < (s.n : Rat) := by
          have : ((0 : Nat) : Rat) < (s.n : Rat) := Rat.natCast_lt_natCast.mpr (by omega)
          simpa using this
        have ht0 : 0 ≤ d.u * s.n := Rat.mul_nonneg d.u_nonneg (by grind)
        have ht1 : d.u * s.n < s.n := by
          have := Rat.mul_lt_mul_of_pos_right d.u_lt_one hnpos
          grind
        have hf0 : 0 ≤ (d.u * s.n).floor := Rat.le_floor_iff.mpr (by simpa using ht0)
        have hf1 : (d.u * s.n).floor < (s.n : Int) := Rat.floor_lt_iff.mpr (by rw [Rat.intCast_natCast]; exact ht1)
        exact ⟨s.keyAt (d.u * s.n).floor.toNat, 1 / (s.n : Rat),
          by simp [Prio.sampleAt, hn0, hs0], hpres _ (by omega)⟩
      · have hpos : 0 < s.sum 0 := by have := hwf.tree.sum_nonneg 0; grind
        have ht0 : 0 ≤ d.u * s.sum 0 := Rat.mul_nonneg d.u_nonneg (by grind)
        have ht1 : d.u * s.sum 0 < s.sum 0 := by
          have := Rat.mul_lt_mul_of_pos_right d.u_lt_one hpos
          grind
        obtain ⟨j, r, hw, hp⟩ := Prio.walk_eq hwf.tree 0 _ (by omega) ht0 ht1
        have hjn := Prio.mem_order_zero.mp (Prio.pick_mem hp)
        exact ⟨s.keyAt j, s.value j / s.sum 0, by simp [Prio.sampleAt, hn0, hs0, hw, hjn], hpres j hjn⟩

theorem Inv.runFrom {kind : SelKind} (cs : List Call) : ∀ {s b t}, Inv kind s b t →
    Inv kind (runCalls Sel.apply s cs) (Book.runFrom kind.accept t b cs) (t + cs.length) := by
  induction cs with
  | nil => intro s b t h; exact h
  | cons c cs ih =>
    intro s b t h
    have e : t + (c :: cs).length = t + 1 + cs.length := by simp; omega
    rw [e]; exact ih (h.step c).1

theorem Same.runFrom {kind : SelKind} (cs : List Call) : ∀ {s s' b t}, Inv kind s b t → Same s s' →
    Same (runCalls Sel.apply s cs) (runCalls Sel.apply s' cs) := by
  induction cs with
  | nil => intro s s' b t _ h; exact h
  | cons c cs ih => intro s s' b t hi h; exact ih (hi.step c).1 (h.step hi c).1

end Sel
end Verif
