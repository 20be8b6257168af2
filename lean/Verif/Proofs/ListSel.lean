import Verif.Model.Selector
namespace Verif
open Spec (Call Book Entry)

namespace ListSel

/-- `a` was inserted before `b` according to the book. -/
def Before (b : Book) (x y : Key) : Prop :=
  ∃ e e', b x = some e ∧ b y = some e' ∧ e.since < e'.since

/-- Refinement relation; `fwd` is FIFO (oldest first), otherwise newest first. -/
structure R (fwd : Bool) (s : ListSel) (b : Book) (t : Nat) : Prop where
  iters : ∀ k id, s.iters.get? k = some id ↔ (id, k) ∈ s.nodes
  inj : ∀ id k k', (id, k) ∈ s.nodes → (id, k') ∈ s.nodes → k = k'
  fresh : ∀ id k, (id, k) ∈ s.nodes → id < s.next
  present : ∀ k, (b k).isSome ↔ ∃ id, (id, k) ∈ s.nodes
  order : s.nodes.Pairwise (fun x y => if fwd then Before b x.2 y.2 else Before b y.2 x.2)
  past : ∀ k e, b k = some e → e.since < t

theorem R.init (fwd : Bool) : R fwd ListSel.init (fun _ => none) 0 := by
  constructor <;> simp [ListSel.init]

theorem R.get_isSome {fwd s b t} (h : R fwd s b t) (k : Key) :
    (s.iters.get? k).isSome = (b k).isSome := by
  rw [Bool.eq_iff_iff, h.present, Option.isSome_iff_exists]
  simp only [h.iters]

/-- Presence and insertion times as recorded in a book. -/
def SameSince (b b' : Book) : Prop := ∀ k, (b k).map Entry.since = (b' k).map Entry.since

theorem before_congr {b b' : Book} (h : SameSince b b') (x y : Key) :
    Before b x y ↔ Before b' x y := by
  have hx := h x
  have hy := h y
  unfold Before
  cases h1 : b x <;> cases h2 : b' x <;> cases h3 : b y <;> cases h4 : b' y <;>
    simp_all

theorem R.congr {fwd s b b' t} (h : R fwd s b t) (hb : SameSince b b') : R fwd s b' (t + 1) := by
  refine ⟨h.iters, h.inj, h.fresh, ?_, ?_, ?_⟩
  · intro k
    rw [← h.present k]
    have := hb k
    cases h1 : b k <;> cases h2 : b' k <;> simp_all
  · refine h.order.imp ?_
    intro x y hxy
    simpa only [before_congr hb] using hxy
  · intro k e he
    have hk := hb k
    rw [he] at hk
    cases h1 : b k with
    | none => simp [h1] at hk
    | some e' =>
      have := h.past k e' h1
      simp [h1] at hk; omega

theorem sameSince_update (accept) (t : Nat) (b : Book) (k : Key) (p : Pri) :
    SameSince b (b.step accept t (.update k p)) := by
  intro k'
  simp only [Book.step]
  split
  · rename_i hc; rw [hc.1]; cases b k <;> simp
  · rfl

theorem sameSince_refl (b : Book) : SameSince b b := fun _ => rfl

theorem sameSince_insert_fail (accept) (t : Nat) (b : Book) (k : Key) (p : Pri)
    (h : accept p = false ∨ (b k).isSome) : b.step accept t (.insert k p) = b := by
  funext k'
  simp only [Book.step]
  split
  · rename_i hc
    rcases h with h | h
    · simp [h] at hc
    · simp [hc.2.2] at h
  · rfl

theorem step_delete_absent (accept) (t : Nat) (b : Book) (k : Key) (h : b k = none) :
    b.step accept t (.delete k) = b := by
  funext k'
  simp only [Book.step]
  split
  · rename_i hc; rw [hc, h]
  · rfl

theorem R.delete {fwd s b t k id} (h : R fwd s b t) (hid : s.iters.get? k = some id) :
    R fwd { s with nodes := s.nodes.filter (fun n => n.1 ≠ id), iters := s.iters.erase k }
      (b.step Spec.acceptAll t (.delete k)) (t + 1) := by
  have hmem := (h.iters k id).mp hid
  have key : ∀ id' k', (id', k') ∈ s.nodes → (id' ≠ id ↔ k' ≠ k) := by
    intro id' k' hm
    constructor
    · intro hne hk
      subst hk
      have := (h.iters _ _).mpr hm
      rw [hid] at this; simp at this; exact hne this.symm
    · intro hne he
      subst he
      exact hne (h.inj _ _ _ hm hmem)
  refine ⟨?_, ?_, ?_, ?_, ?_, ?_⟩
  · intro k' id'
    simp only [AMap.get?_erase, List.mem_filter, decide_eq_true_eq]
    by_cases hk : k' = k
    · simp only [hk, if_true]
      constructor
      · simp
      · rintro ⟨hm, hne⟩
        exact absurd rfl ((key _ _ hm).mp hne)
    · simp only [hk, if_false, h.iters]
      constructor
      · intro hm; exact ⟨hm, (key _ _ hm).mpr hk⟩
      · exact fun hm => hm.1
  · intro id' a c ha hc
    exact h.inj id' a c (List.mem_filter.mp ha).1 (List.mem_filter.mp hc).1
  · intro id' a ha
    exact h.fresh id' a (List.mem_filter.mp ha).1
  · intro k'
    simp only [Book.step, List.mem_filter, decide_eq_true_eq]
    by_cases hk : k' = k
    · simp only [hk, if_true, Option.isSome_none, Bool.false_eq_true, false_iff, not_exists, not_and]
      intro id' hm hne
      exact absurd rfl ((key _ _ hm).mp hne)
    · simp only [hk, if_false, h.present]
      constructor
      · rintro ⟨id', hm⟩; exact ⟨id', hm, (key _ _ hm).mpr hk⟩
      · rintro ⟨id', hm, _⟩; exact ⟨id', hm⟩
  · have h2 : (s.nodes.filter (fun n => decide (n.1 ≠ id))).Pairwise
        (fun x y => if fwd then Before b x.2 y.2 else Before b y.2 x.2) :=
      h.order.sublist List.filter_sublist
    refine List.Pairwise.imp_of_mem ?_ h2
    intro x y hx hy hxy
    have hx' := (key x.1 x.2 (List.mem_filter.mp hx).1).mp (by simpa using (List.mem_filter.mp hx).2)
    have hy' := (key y.1 y.2 (List.mem_filter.mp hy).1).mp (by simpa using (List.mem_filter.mp hy).2)
    simpa only [Before, Book.step, hx', hy', if_false] using hxy
  · intro k' e he
    simp only [Book.step] at he
    split at he
    · simp at he
    · have := h.past _ _ he; omega

theorem before_insert {b : Book} {t : Nat} {k : Key} {p : Pri} (hk : b k = none)
    (hpast : ∀ k e, b k = some e → e.since < t) {x : Key} (hx : (b x).isSome) :
    Before (b.step Spec.acceptAll t (.insert k p)) x k := by
  obtain ⟨e, he⟩ := Option.isSome_iff_exists.mp hx
  have hxk : x ≠ k := by rintro rfl; simp [hk] at he
  refine ⟨e, ⟨t, p, t⟩, ?_, ?_, hpast x e he⟩
  · simp [Book.step, hxk, he]
  · simp [Book.step, hk, Spec.acceptAll]

theorem before_insert_other {b : Book} {t : Nat} {k : Key} {p : Pri} (hk : b k = none)
    {x y : Key} (h : Before b x y) : Before (b.step Spec.acceptAll t (.insert k p)) x y := by
  obtain ⟨e, e', hx, hy, hlt⟩ := h
  have hxk : x ≠ k := by rintro rfl; simp [hk] at hx
  have hyk : y ≠ k := by rintro rfl; simp [hk] at hy
  exact ⟨e, e', by simp [Book.step, hxk, hx], by simp [Book.step, hyk, hy], hlt⟩

theorem R.insert {fwd : Bool} {s b t k p} (h : R fwd s b t) (hk : s.iters.get? k = none) :
    R fwd { nodes := if fwd then s.nodes ++ [(s.next, k)] else (s.next, k) :: s.nodes,
            iters := s.iters.insert k s.next, next := s.next + 1 }
      (b.step Spec.acceptAll t (.insert k p)) (t + 1) := by
  have hb : b k = none := by
    have := h.get_isSome k
    rw [hk] at this
    cases hbk : b k <;> simp_all
  have hnm : ∀ id, (id, k) ∉ s.nodes := by
    intro id hm
    have := (h.iters k id).mpr hm
    simp [hk] at this
  have hmem : ∀ id' k', (id', k') ∈ (if fwd then s.nodes ++ [(s.next, k)] else (s.next, k) :: s.nodes)
      ↔ (id', k') ∈ s.nodes ∨ (id' = s.next ∧ k' = k) := by
    intro id' k'
    cases fwd <;> simp [or_comm]
  have hpres : ∀ x ∈ s.nodes, (b x.2).isSome := fun x hx => (h.present x.2).mpr ⟨x.1, hx⟩
  refine ⟨?_, ?_, ?_, ?_, ?_, ?_⟩
  · intro k' id'
    simp only [AMap.get?_insert, hmem]
    by_cases hkk : k' = k
    · subst hkk
      simp only [if_true, Option.some.injEq, hnm, false_or, and_true]
      exact eq_comm
    · simp [hkk, h.iters]
  · intro id' a c ha hc
    simp only [hmem] at ha hc
    rcases ha with ha | ⟨ha, rfl⟩ <;> rcases hc with hc | ⟨hc, rfl⟩
    · exact h.inj _ _ _ ha hc
    · have := h.fresh _ _ ha; omega
    · have := h.fresh _ _ hc; omega
    · rfl
  · intro id' a ha
    simp only [hmem] at ha
    rcases ha with ha | ⟨ha, rfl⟩
    · have := h.fresh _ _ ha; show id' < s.next + 1; omega
    · show id' < s.next + 1; omega
  · intro k'
    simp only [Book.step, hmem, Spec.acceptAll, hb, and_true]
    by_cases hkk : k' = k
    · subst hkk; simp
    · simp [hkk, h.present]
  · have hold : s.nodes.Pairwise (fun x y => if fwd then
        Before (b.step Spec.acceptAll t (.insert k p)) x.2 y.2 else
        Before (b.step Spec.acceptAll t (.insert k p)) y.2 x.2) := by
      refine h.order.imp ?_
      intro x y hxy
      cases fwd
      · exact before_insert_other hb hxy
      · exact before_insert_other hb hxy
    cases fwd
    · simp only [Bool.false_eq_true, if_false] at hold ⊢
      refine List.pairwise_cons.mpr ⟨?_, hold⟩
      intro y hy
      exact before_insert hb h.past (hpres y hy)
    · simp only [if_true] at hold ⊢
      refine List.pairwise_append.mpr ⟨hold, by simp, ?_⟩
      intro x hx y hy
      simp only [List.mem_singleton] at hy
      subst hy
      exact before_insert hb h.past (hpres x hx)
  · intro k' e he
    simp only [Book.step] at he
    split at he
    · simp at he; subst he; simp
    · have := h.past _ _ he; omega

/-- Dispatch for both directions. -/
def applyDir (fwd : Bool) (s : ListSel) (c : Call) : ListSel × Res Unit :=
  if fwd then s.applyFifo c else s.applyLifo c

/-- The result every call must have. -/
theorem R.step {fwd : Bool} {s b t} (h : R fwd s b t) (c : Call) :
    R fwd (applyDir fwd s c).1 (b.step Spec.acceptAll t c) (t + 1) ∧
    (applyDir fwd s c).2 =
      (if Spec.succeeds Spec.acceptAll b c then .ok () else .err .invalidArgument) ∧
    ((applyDir fwd s c).2 ≠ .ok () → (applyDir fwd s c).1 = s) := by
  cases c with
  | insert k p =>
    have hg := h.get_isSome k
    cases hk : s.iters.get? k with
    | some id =>
      rw [hk] at hg
      have hs : (b k).isSome := by simpa using hg.symm
      have hr : applyDir fwd s (.insert k p) = (s, .err .invalidArgument) := by
        cases fwd <;> simp [applyDir, applyFifo, applyLifo, insertBack, insertFront, hk]
      rw [hr]
      refine ⟨?_, ?_, fun _ => rfl⟩
      · rw [sameSince_insert_fail _ _ _ _ _ (Or.inr hs)]
        exact h.congr (sameSince_refl b)
      · cases hbk : b k <;> simp_all [Spec.succeeds]
    | none =>
      rw [hk] at hg
      have hs : b k = none := by cases hbk : b k <;> simp_all
      have hi := h.insert (p := p) hk
      cases fwd
      · simp only [applyDir, applyLifo, insertFront, hk, Bool.false_eq_true, if_false] at hi ⊢
        exact ⟨hi, by simp [Spec.succeeds, Spec.acceptAll, hs], by simp⟩
      · simp only [applyDir, applyFifo, insertBack, hk, if_true] at hi ⊢
        exact ⟨hi, by simp [Spec.succeeds, Spec.acceptAll, hs], by simp⟩
  | update k p =>
    have hg := h.get_isSome k
    have hr : applyDir fwd s (.update k p) = s.update k p := by
      cases fwd <;> simp [applyDir, applyFifo, applyLifo]
    rw [hr]
    have hst := h.congr (sameSince_update Spec.acceptAll t b k p)
    unfold ListSel.update
    cases hk : s.iters.get? k with
    | some id =>
      rw [hk] at hg
      refine ⟨hst, ?_, fun _ => rfl⟩
      simp [Spec.succeeds, Spec.acceptAll, ← hg]
    | none =>
      rw [hk] at hg
      refine ⟨hst, ?_, fun _ => rfl⟩
      simp [Spec.succeeds, Spec.acceptAll, ← hg]
  | delete k =>
    have hg := h.get_isSome k
    have hr : applyDir fwd s (.delete k) = s.delete k := by
      cases fwd <;> simp [applyDir, applyFifo, applyLifo]
    rw [hr]
    unfold ListSel.delete
    cases hk : s.iters.get? k with
    | some id =>
      rw [hk] at hg
      exact ⟨h.delete hk, by simp [Spec.succeeds, ← hg], by simp⟩
    | none =>
      rw [hk] at hg
      have hs : b k = none := by cases hbk : b k <;> simp_all
      refine ⟨?_, by simp [Spec.succeeds, hs], fun _ => rfl⟩
      rw [step_delete_absent _ _ _ _ hs]
      exact h.congr (sameSince_refl b)
  | clear =>
    have hr : applyDir fwd s .clear = (s.clear, .ok ()) := by
      cases fwd <;> simp [applyDir, applyFifo, applyLifo]
    rw [hr]
    refine ⟨?_, by simp [Spec.succeeds], by simp⟩
    constructor <;> simp [ListSel.clear, Book.step]

theorem R.runFrom {fwd : Bool} (cs : List Call) : ∀ {s b t}, R fwd s b t →
    R fwd (runCalls (applyDir fwd) s cs) (Book.runFrom Spec.acceptAll t b cs) (t + cs.length) := by
  induction cs with
  | nil => intro s b t h; simpa [runCalls, Book.runFrom] using h
  | cons c cs ih =>
    intro s b t h
    have := ih (h.step c).1
    simp only [List.length_cons, Book.runFrom]
    have e : t + (cs.length + 1) = t + 1 + cs.length := by omega
    rw [e]
    exact this

/-- The front of the list is the oldest (newest) present key. -/
theorem R.sample_iff {fwd : Bool} {s b t} (h : R fwd s b t) (k : Key) (pr : Rat) :
    s.sample = .ok (k, pr) ↔ pr = 1 ∧ ∃ e, b k = some e ∧
      ∀ k' e', b k' = some e' → k' ≠ k →
        (if fwd then e.since < e'.since else e'.since < e.since) := by
  have hpres : ∀ x ∈ s.nodes, (b x.2).isSome := fun x hx => (h.present x.2).mpr ⟨x.1, hx⟩
  unfold ListSel.sample
  cases hn : s.nodes with
  | nil =>
    simp only [reduceCtorEq, false_iff]
    rintro ⟨_, e, he, _⟩
    have := (h.present k).mp (by simp [he])
    simp [hn] at this
  | cons x xs =>
    have hord := h.order
    rw [hn] at hord
    have hord := (List.pairwise_cons.mp hord).1
    obtain ⟨e0, he0⟩ := Option.isSome_iff_exists.mp (hpres x (by simp [hn]))
    have hfirst : ∀ k' e', b k' = some e' → k' ≠ x.2 →
        (if fwd then e0.since < e'.since else e'.since < e0.since) := by
      intro k' e' he' hne
      obtain ⟨id', hm⟩ := (h.present k').mp (by simp [he'])
      rw [hn] at hm
      rcases List.mem_cons.mp hm with hm | hm
      · exact absurd (by rw [← hm]) hne
      · have := hord _ hm
        cases fwd <;> simp only [Bool.false_eq_true, if_false, if_true] at this ⊢ <;>
          (obtain ⟨e1, e2, h1, h2, h3⟩ := this
           simp_all)
    simp only [Res.ok.injEq, Prod.mk.injEq]
    constructor
    · rintro ⟨rfl, rfl⟩
      exact ⟨rfl, e0, he0, hfirst⟩
    · rintro ⟨rfl, e, he, hmin⟩
      refine ⟨?_, rfl⟩
      apply Classical.byContradiction
      intro hne
      have h1 := hfirst k e he (fun hc => hne hc.symm)
      have h2 := hmin x.2 e0 he0 hne
      cases fwd <;> simp at h1 h2 <;> omega

theorem R.sample_died {fwd : Bool} {s b t} (h : R fwd s b t) :
    s.sample = .died ↔ ∀ k, b k = none := by
  unfold ListSel.sample
  cases hn : s.nodes with
  | nil =>
    simp only [true_iff]
    intro k
    have := h.present k
    simp [hn] at this
    exact this
  | cons x xs =>
    simp only [reduceCtorEq, false_iff]
    intro hall
    have := (h.present x.2).mpr ⟨x.1, by simp [hn]⟩
    simp [hall] at this

end ListSel
end Verif
