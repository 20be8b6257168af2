import Verif.Proofs.Heap
namespace Verif
open Spec (Call Book Entry)

namespace HeapSel

/-- Node map and heap agree. Holds for all priorities, including NaN. -/
structure WF (s : HeapSel) : Prop where
  cons : s.heap.Cons
  nodes : ∀ k x, s.nodes.get? k = some x ↔ (s.heap.In x ∧ x.key = k)

theorem WF.pos_of_get {s : HeapSel} (h : s.WF) {k : Key} {x : HNode} (hk : s.nodes.get? k = some x) :
    x.key = k ∧ ∃ i, s.heap.pos k = some i := by
  obtain ⟨⟨i, hi, he⟩, hkey⟩ := (h.nodes k x).mp hk
  exact ⟨hkey, i, (h.cons k i).mpr ⟨hi, by rw [he, hkey]⟩⟩

theorem WF.pos_none {s : HeapSel} (h : s.WF) {k : Key} (hk : s.nodes.get? k = none) :
    s.heap.pos k = none := by
  cases hp : s.heap.pos k with
  | none => rfl
  | some i =>
    obtain ⟨hi, hkey⟩ := (h.cons k i).mp hp
    have := (h.nodes k (s.heap.at_ i)).mpr ⟨⟨i, hi, rfl⟩, hkey⟩
    rw [hk] at this; simp at this

theorem WF.init (b : Bool) : (HeapSel.init b).WF := by
  constructor
  · intro k i; simp [HeapSel.init]
  · intro k x; simp [HeapSel.init, HArr.In]

theorem delete_eq {s : HeapSel} (h : s.WF) {k : Key} {x : HNode} (hk : s.nodes.get? k = some x) :
    ∃ hp, s.delete k = ({ s with heap := hp, nodes := s.nodes.erase k }, .ok ()) ∧
      ({ s with heap := hp, nodes := s.nodes.erase k } : HeapSel).WF ∧
      (∀ y, hp.In y ↔ s.heap.In y ∧ y.key ≠ k) ∧
      (s.heap.Ord → s.heap.AllValid → hp.Ord) := by
  obtain ⟨hkey, i, hpos⟩ := h.pos_of_get hk
  obtain ⟨b, hr, _, hc, hin, hord⟩ := HArr.remove_ok (t := x) h.cons (by rw [hkey]; exact hpos)
  rw [hkey] at hin
  refine ⟨b, by simp [HeapSel.delete, hk, hr], ⟨hc, ?_⟩, hin, hord⟩
  intro k' y
  simp only [AMap.get?_erase, hin]
  by_cases hkk : k' = k
  · subst hkk; simp
  · simp only [hkk, if_false, h.nodes]
    constructor
    · rintro ⟨h1, rfl⟩; exact ⟨⟨h1, hkk⟩, rfl⟩
    · rintro ⟨⟨h1, _⟩, h2⟩; exact ⟨h1, h2⟩

/-- The state after writing priority `p` for `k`, with new heap `hp`. -/
def wrote (s : HeapSel) (k : Key) (p : Pri) (hp : HArr) : HeapSel :=
  { s with
    heap := hp
    nodes := s.nodes.insert k ⟨k, p.signed s.minHeap, s.updates⟩
    updates := s.updates + 1 }

theorem wrote_get (s : HeapSel) (k : Key) (p : Pri) (hp : HArr) (k' : Key) :
    (s.wrote k p hp).nodes.get? k' =
      if k' = k then some ⟨k, p.signed s.minHeap, s.updates⟩ else s.nodes.get? k' := by
  simp [wrote, AMap.get?_insert]

theorem wrote_heap (s : HeapSel) (k : Key) (p : Pri) (hp : HArr) : (s.wrote k p hp).heap = hp := rfl
theorem wrote_minHeap (s : HeapSel) (k : Key) (p : Pri) (hp : HArr) :
    (s.wrote k p hp).minHeap = s.minHeap := rfl
theorem wrote_updates (s : HeapSel) (k : Key) (p : Pri) (hp : HArr) :
    (s.wrote k p hp).updates = s.updates + 1 := rfl

theorem insert_eq {s : HeapSel} (h : s.WF) {k : Key} (p : Pri) (hk : s.nodes.get? k = none) :
    ∃ hp, s.insert k p = (s.wrote k p hp, .ok ()) ∧
      (s.wrote k p hp).WF ∧
      (∀ y, hp.In y ↔ y = ⟨k, p.signed s.minHeap, s.updates⟩ ∨ s.heap.In y) ∧
      (s.heap.Ord → s.heap.AllValid → p ≠ .nan → hp.Ord) := by
  obtain ⟨_, hc, hin, hord⟩ :=
    HArr.push_ok (t := ⟨k, p.signed s.minHeap, s.updates⟩) h.cons (h.pos_none hk)
  refine ⟨s.heap.push ⟨k, p.signed s.minHeap, s.updates⟩, by simp [HeapSel.insert, hk, wrote], ⟨hc, ?_⟩, hin, ?_⟩
  · intro k' y
    simp only [wrote_get, wrote_heap, hin]
    by_cases hkk : k' = k
    · subst hkk
      simp only [if_true, Option.some.injEq]
      constructor
      · rintro rfl; exact ⟨Or.inl rfl, rfl⟩
      · rintro ⟨rfl | h1, h2⟩
        · rfl
        · have := (h.nodes k' y).mpr ⟨h1, h2⟩
          rw [hk] at this; simp at this
    · simp only [hkk, if_false, h.nodes]
      constructor
      · rintro ⟨h1, h2⟩; exact ⟨Or.inr h1, h2⟩
      · rintro ⟨rfl | h1, h2⟩
        · exact absurd h2.symm hkk
        · exact ⟨h1, h2⟩
  · intro ho hv hp
    apply hord ho hv
    cases p <;> simp_all [HNode.Valid, Pri.signed]

theorem update_eq {s : HeapSel} (h : s.WF) {k : Key} (p : Pri) {x : HNode}
    (hk : s.nodes.get? k = some x) :
    ∃ hp, s.update k p = (s.wrote k p hp, .ok ()) ∧
      (s.wrote k p hp).WF ∧
      (∀ y, hp.In y ↔ y = ⟨k, p.signed s.minHeap, s.updates⟩ ∨ (s.heap.In y ∧ y.key ≠ k)) ∧
      (s.heap.Ord → s.heap.AllValid → p ≠ .nan → hp.Ord) := by
  obtain ⟨hkey, i, hpos⟩ := h.pos_of_get hk
  obtain ⟨b, hr, _, hc, hin, hord⟩ :=
    HArr.adjust_ok (t := ⟨k, p.signed s.minHeap, s.updates⟩) h.cons hpos
  refine ⟨b, by simp [HeapSel.update, hk, hr, wrote], ⟨hc, ?_⟩, hin, ?_⟩
  · intro k' y
    simp only [wrote_get, wrote_heap, hin]
    by_cases hkk : k' = k
    · subst hkk
      simp only [if_true, Option.some.injEq]
      constructor
      · rintro rfl; exact ⟨Or.inl rfl, rfl⟩
      · rintro ⟨rfl | h1, h2⟩
        · rfl
        · exact absurd h2 h1.2
    · simp only [hkk, if_false, h.nodes]
      constructor
      · rintro ⟨h1, rfl⟩; exact ⟨Or.inr ⟨h1, hkk⟩, rfl⟩
      · rintro ⟨rfl | h1, h2⟩
        · exact absurd h2.symm hkk
        · exact ⟨h1.1, h2⟩
  · intro ho hv hp
    have hpos' := (h.cons k i).mp hpos
    apply hord
    · intro j hj hjn hji hpj; exact ho j hj hjn
    · intro h0 j hj hjn hpj
      have h1 := ho j hj hjn
      rw [hpj] at h1
      exact HNode.le_trans (hv _ (by omega)) (hv _ hpos'.1) (hv _ hjn) (ho i (by omega) hpos'.1) h1
    · intro j hjn _; exact hv j hjn
    · cases p <;> simp_all [HNode.Valid, Pri.signed]

/-- Refinement relation to the book of the specification. -/
structure R (s : HeapSel) (b : Book) (t : Nat) : Prop where
  wf : s.WF
  some_ : ∀ k x, s.nodes.get? k = some x → ∃ e, b k = some e ∧ x.pri = e.pri.signed s.minHeap
  none_ : ∀ k, s.nodes.get? k = none → b k = none
  mono : ∀ k k' x x' e e', s.nodes.get? k = some x → s.nodes.get? k' = some x' → b k = some e →
    b k' = some e' → (x.upd < x'.upd ↔ e.written < e'.written)
  inj : ∀ k k' x x', s.nodes.get? k = some x → s.nodes.get? k' = some x' → x.upd = x'.upd → k = k'
  upd : ∀ k x, s.nodes.get? k = some x → x.upd < s.updates
  past : ∀ k e, b k = some e → e.written < t

/-- Heap order, valid as long as no NaN was ever used. -/
structure Good (s : HeapSel) : Prop where
  ord : s.heap.Ord
  valid : s.heap.AllValid

theorem R.init (m : Bool) : R (HeapSel.init m) (fun _ => none) 0 :=
  ⟨WF.init m, by simp [HeapSel.init], by simp, by simp [HeapSel.init], by simp [HeapSel.init], by simp [HeapSel.init], by simp⟩

theorem Good.init (m : Bool) : Good (HeapSel.init m) := by
  constructor
  · intro i _ h; simp [HeapSel.init] at h
  · intro i h; simp [HeapSel.init] at h

theorem R.get_isSome {s b t} (h : R s b t) (k : Key) : (s.nodes.get? k).isSome = (b k).isSome := by
  cases hk : s.nodes.get? k with
  | none => rw [h.none_ k hk]; rfl
  | some x => obtain ⟨e, he, _⟩ := h.some_ k x hk; rw [he]; rfl

theorem R.later {s b t t'} (h : R s b t) (ht : t ≤ t') : R s b t' :=
  ⟨h.wf, h.some_, h.none_, h.mono, h.inj, h.upd, fun k e he => Nat.lt_of_lt_of_le (h.past k e he) ht⟩

/-- The priority carried by a call is a number. -/
def NotNan : Call → Prop
  | .insert _ p => p ≠ .nan
  | .update _ p => p ≠ .nan
  | _ => True

theorem written_lemma {s b t} (h : R s b t) {k : Key} {hp : HArr} {p : Pri} {e0 : Entry} {b' : Book}
    (hwf : (s.wrote k p hp).WF)
    (hbk : b' k = some e0) (hp0 : e0.pri = p) (hw0 : e0.written = t)
    (hother : ∀ k', k' ≠ k → b' k' = b k') :
    R (s.wrote k p hp) b' (t + 1) := by
  refine ⟨hwf, ?_, ?_, ?_, ?_, ?_, ?_⟩
  · intro k' x hx
    simp only [wrote_get] at hx
    by_cases hkk : k' = k
    · subst hkk
      simp at hx
      exact ⟨e0, hbk, by rw [← hx, hp0]; rfl⟩
    · simp only [hkk, if_false] at hx
      rw [hother k' hkk]
      exact h.some_ k' x hx
  · intro k' hx
    simp only [wrote_get] at hx
    by_cases hkk : k' = k
    · simp [hkk] at hx
    · simp only [hkk, if_false] at hx
      rw [hother k' hkk]; exact h.none_ k' hx
  · intro k1 k2 x1 x2 e1 e2 h1 h2 he1 he2
    simp only [wrote_get] at h1 h2
    by_cases hk1 : k1 = k <;> by_cases hk2 : k2 = k
    · subst hk1; subst hk2
      simp at h1 h2; subst h1; subst h2
      rw [he1] at he2; simp at he2; subst he2
      simp
    · subst hk1
      simp only [if_true, hk2, if_false, Option.some.injEq] at h1 h2
      rw [hbk] at he1
      rw [hother _ hk2] at he2
      have u := h.upd _ _ h2
      have v := h.past _ _ he2
      simp at he1; subst he1; subst h1; simp only
      omega
    · subst hk2
      simp only [if_true, hk1, if_false, Option.some.injEq] at h1 h2
      rw [hbk] at he2
      rw [hother _ hk1] at he1
      have u := h.upd _ _ h1
      have v := h.past _ _ he1
      simp at he2; subst he2; subst h2; simp only
      omega
    · simp only [hk1, hk2, if_false] at h1 h2
      rw [hother _ hk1] at he1
      rw [hother _ hk2] at he2
      exact h.mono _ _ _ _ _ _ h1 h2 he1 he2
  · intro k1 k2 x1 x2 h1 h2 hu
    simp only [wrote_get] at h1 h2
    by_cases hk1 : k1 = k <;> by_cases hk2 : k2 = k
    · rw [hk1, hk2]
    · simp only [hk1, hk2, if_true, if_false, Option.some.injEq] at h1 h2
      have := h.upd _ _ h2
      subst h1; simp only at hu; omega
    · simp only [hk1, hk2, if_true, if_false, Option.some.injEq] at h1 h2
      have := h.upd _ _ h1
      subst h2; simp only at hu; omega
    · simp only [hk1, hk2, if_false] at h1 h2
      exact h.inj _ _ _ _ h1 h2 hu
  · intro k' x hx
    simp only [wrote_get] at hx
    by_cases hkk : k' = k
    · subst hkk; simp at hx; subst hx; simp [wrote_updates]
    · simp only [hkk, if_false] at hx
      have := h.upd k' x hx
      show x.upd < s.updates + 1; omega
  · intro k' e he
    by_cases hkk : k' = k
    · subst hkk; rw [hbk] at he; simp at he; subst he; omega
    · rw [hother _ hkk] at he
      have := h.past _ _ he; omega

theorem R.step {s : HeapSel} {b : Book} {t : Nat} (h : R s b t) (c : Call) :
    R (s.apply c).1 (b.step Spec.acceptAll t c) (t + 1) ∧
    (s.apply c).2 = (if Spec.succeeds Spec.acceptAll b c then .ok () else .err .invalidArgument) ∧
    ((s.apply c).2 ≠ .ok () → (s.apply c).1 = s) ∧
    (s.apply c).1.minHeap = s.minHeap ∧
    (s.Good → NotNan c → (s.apply c).1.Good) := by
  cases c with
  | insert k p =>
    have hgk := h.get_isSome k
    simp only [apply]
    cases hk : s.nodes.get? k with
    | some x =>
      rw [hk] at hgk
      have hs : (b k).isSome := by simpa using hgk.symm
      have hi : s.insert k p = (s, .err .invalidArgument) := by simp [HeapSel.insert, hk]
      rw [hi]
      refine ⟨?_, ?_, fun _ => rfl, rfl, fun hg _ => hg⟩
      · rw [ListSel.sameSince_insert_fail _ _ _ _ _ (Or.inr hs)]; exact h.later (by omega)
      · cases hbk : b k <;> simp_all [Spec.succeeds]
    | none =>
      rw [hk] at hgk
      have hs : b k = none := by cases hbk : b k <;> simp_all
      obtain ⟨hp, he, hwf, hin, hord⟩ := insert_eq h.wf p hk
      rw [he]
      refine ⟨?_, by simp [Spec.succeeds, Spec.acceptAll, hs], by simp, rfl, ?_⟩
      · apply written_lemma h hwf (e0 := ⟨t, p, t⟩) _ rfl rfl
        · intro k' hkk; simp [Book.step, hkk]
        · simp [Book.step, hs, Spec.acceptAll]
      · intro hg hn
        refine ⟨hord hg.ord hg.valid hn, ?_⟩
        intro i hi
        rcases (hin (hp.at_ i)).mp ⟨i, hi, rfl⟩ with h1 | ⟨j, hj, h1⟩
        · show (hp.at_ i).Valid
          rw [h1]; cases p <;> simp_all [HNode.Valid, Pri.signed, NotNan]
        · show (hp.at_ i).Valid
          rw [← h1]; exact hg.valid j hj
  | update k p =>
    have hgk := h.get_isSome k
    simp only [apply]
    cases hk : s.nodes.get? k with
    | some x =>
      rw [hk] at hgk
      obtain ⟨e, hbe⟩ : ∃ e, b k = some e := Option.isSome_iff_exists.mp (by simpa using hgk.symm)
      obtain ⟨hp, he, hwf, hin, hord⟩ := update_eq h.wf p hk
      rw [he]
      refine ⟨?_, by simp [Spec.succeeds, Spec.acceptAll, hbe], by simp, rfl, ?_⟩
      · apply written_lemma h hwf (e0 := { e with pri := p, written := t }) _ rfl rfl
        · intro k' hkk; simp [Book.step, hkk]
        · simp [Book.step, hbe, Spec.acceptAll]
      · intro hg hn
        refine ⟨hord hg.ord hg.valid hn, ?_⟩
        intro i hi
        rcases (hin (hp.at_ i)).mp ⟨i, hi, rfl⟩ with h1 | ⟨⟨j, hj, h1⟩, _⟩
        · show (hp.at_ i).Valid
          rw [h1]; cases p <;> simp_all [HNode.Valid, Pri.signed, NotNan]
        · show (hp.at_ i).Valid
          rw [← h1]; exact hg.valid j hj
    | none =>
      rw [hk] at hgk
      have hs : b k = none := by cases hbk : b k <;> simp_all
      have hu : s.update k p = (s, .err .invalidArgument) := by simp [HeapSel.update, hk]
      rw [hu]
      refine ⟨?_, by simp [Spec.succeeds, hs], fun _ => rfl, rfl, fun hg _ => hg⟩
      have : b.step Spec.acceptAll t (.update k p) = b := by
        funext k'; simp only [Book.step]
        split
        · rename_i hc; rw [hc.1, hs]; rfl
        · rfl
      rw [this]; exact h.later (by omega)
  | delete k =>
    have hgk := h.get_isSome k
    simp only [apply]
    cases hk : s.nodes.get? k with
    | some x =>
      rw [hk] at hgk
      obtain ⟨hp, he, hwf, hin, hord⟩ := delete_eq h.wf hk
      rw [he]
      refine ⟨⟨hwf, ?_, ?_, ?_, ?_, ?_, ?_⟩, by simp [Spec.succeeds, ← hgk], by simp, rfl, ?_⟩
      · intro k' x' hx'
        simp only [AMap.get?_erase] at hx'
        split at hx'
        · simp at hx'
        · rename_i hkk
          simp only [Book.step, hkk, if_false]; exact h.some_ k' x' hx'
      · intro k' hx'
        simp only [AMap.get?_erase] at hx'
        simp only [Book.step]
        split
        · rfl
        · rename_i hkk; simp only [hkk, if_false] at hx'; exact h.none_ k' hx'
      · intro k1 k2 x1 x2 e1 e2 h1 h2 he1 he2
        simp only [AMap.get?_erase, Book.step] at h1 h2 he1 he2
        split at h1
        · simp at h1
        · split at h2
          · simp at h2
          · simp_all
            exact h.mono _ _ _ _ _ _ h1 h2 he1 he2
      · intro k1 k2 x1 x2 h1 h2 hu
        simp only [AMap.get?_erase] at h1 h2
        split at h1
        · simp at h1
        · split at h2
          · simp at h2
          · exact h.inj _ _ _ _ h1 h2 hu
      · intro k' x' hx'
        simp only [AMap.get?_erase] at hx'
        split at hx'
        · simp at hx'
        · exact h.upd k' x' hx'
      · intro k' e he
        simp only [Book.step] at he
        split at he
        · simp at he
        · have := h.past k' e he; omega
      · intro hg _
        refine ⟨hord hg.ord hg.valid, ?_⟩
        intro i hi
        obtain ⟨⟨j, hj, h1⟩, _⟩ := (hin (hp.at_ i)).mp ⟨i, hi, rfl⟩
        show (hp.at_ i).Valid
        rw [← h1]; exact hg.valid j hj
    | none =>
      rw [hk] at hgk
      have hs : b k = none := by cases hbk : b k <;> simp_all
      have hd : s.delete k = (s, .err .invalidArgument) := by simp [HeapSel.delete, hk]
      rw [hd]
      refine ⟨?_, by simp [Spec.succeeds, hs], fun _ => rfl, rfl, fun hg _ => hg⟩
      rw [ListSel.step_delete_absent _ _ _ _ hs]; exact h.later (by omega)
  | clear =>
    refine ⟨⟨⟨?_, ?_⟩, ?_, ?_, ?_, ?_, ?_, ?_⟩, by simp [apply, Spec.succeeds], by simp [apply], rfl, ?_⟩
    · intro k i; simp [apply, clear]
    · intro k x; simp [apply, clear, HArr.In]
    · simp [apply, clear]
    · simp [apply, clear, Book.step]
    · simp [apply, clear]
    · simp [apply, clear]
    · simp [apply, clear]
    · simp [Book.step]
    · intro _ _
      constructor
      · intro i _ hi; simp [apply, clear] at hi
      · intro i hi; simp [apply, clear] at hi

theorem R.runFrom (cs : List Call) : ∀ {s b t}, R s b t →
    R (runCalls HeapSel.apply s cs) (Book.runFrom Spec.acceptAll t b cs) (t + cs.length) ∧
    (runCalls HeapSel.apply s cs).minHeap = s.minHeap ∧
    (s.Good → (∀ c ∈ cs, NotNan c) → (runCalls HeapSel.apply s cs).Good) := by
  induction cs with
  | nil => intro s b t h; exact ⟨h, rfl, fun hg _ => hg⟩
  | cons c cs ih =>
    intro s b t h
    obtain ⟨h1, _, _, h4, h5⟩ := h.step c
    obtain ⟨i1, i2, i3⟩ := ih h1
    refine ⟨?_, i2.trans h4, ?_⟩
    · have e : t + (c :: cs).length = t + 1 + cs.length := by simp; omega
      rw [e]; exact i1
    · intro hg hn
      exact i3 (h5 hg (hn c (by simp))) (fun c' hc' => hn c' (by simp [hc']))

theorem WF.n_zero_iff {s : HeapSel} (h : s.WF) : s.heap.n = 0 ↔ s.nodes.size = 0 := by
  rw [AMap.size_eq_zero_iff]
  constructor
  · intro h0 k
    cases hk : s.nodes.get? k with
    | none => rfl
    | some x =>
      obtain ⟨⟨i, hi, _⟩, _⟩ := (h.nodes k x).mp hk
      omega
  · intro hall
    apply Classical.byContradiction
    intro h0
    have := (h.nodes (s.heap.at_ 0).key (s.heap.at_ 0)).mpr ⟨⟨0, by omega, rfl⟩, rfl⟩
    rw [hall] at this; simp at this

end HeapSel
end Verif
