import Verif.Spec.Wiring
import Verif.Proofs.LogGrows
namespace Verif.Wiring
open Table (Op)

/-- The extension as registered with `tid`. -/
def Xt.registered (e : Xt) (tid log : Nat) : Xt := { e with owner := some tid, before := e.heard, skipped := log }

/-- The extension as unregistered. -/
def Xt.freed (e : Xt) : Xt := { e with owner := none }

/-- The extension after it was told something. -/
def Xt.told (e : Xt) (evs : List ExtEvent) : Xt := { e with heard := e.heard ++ evs }

/-- No table has it. -/
def World.Free (w : World) (x : Nat) : Prop := ∃ e, w.exts.get? x = some e ∧ e.owner = none

theorem register_some {w w' : World} {tid log x : Nat} (h : register w tid log x = some w') :
    ∃ e, w.exts.get? x = some e ∧ e.owner = none ∧ w' = { w with exts := w.exts.insert x (e.registered tid log) } := by
  unfold register at h
  split at h
  · cases h
  · rename_i e he
    split at h
    · cases h
    · rename_i ho
      cases h
      exact ⟨e, he, ho, rfl⟩

theorem register_none {w : World} {tid log x : Nat} : register w tid log x = none ↔ ¬ w.Free x := by
  unfold register World.Free
  cases he : w.exts.get? x with
  | none => simp
  | some e =>
    cases ho : e.owner with
    | none => simp [ho]
    | some o => simp [ho]

theorem registerAll_some {tid : Nat} : ∀ {xs : List Nat} {w w' : World}, registerAll tid w xs = some w' →
    w'.lims = w.lims ∧ w'.tabs = w.tabs ∧ xs.Nodup ∧ (∀ x ∈ xs, w.Free x) ∧
    ∀ x, w'.exts.get? x = if x ∈ xs then (w.exts.get? x).map (·.registered tid 0) else w.exts.get? x := by
  intro xs
  induction xs with
  | nil => intro w w' h; cases h; simp
  | cons a xs ih =>
    intro w w' h
    simp only [registerAll] at h
    split at h
    · cases h
    · rename_i w1 h1
      obtain ⟨e, he, ho, rfl⟩ := register_some h1
      obtain ⟨g1, g2, g3, g4, g5⟩ := ih h
      have ha : a ∉ xs := by
        intro ha
        obtain ⟨e', h1, h2⟩ := g4 a ha
        simp only [AMap.get?_insert_self, Option.some.injEq] at h1
        subst h1
        cases h2
      refine ⟨g1, g2, List.nodup_cons.mpr ⟨ha, g3⟩, ?_, ?_⟩
      · intro x hx
        rcases List.mem_cons.mp hx with rfl | hx
        · exact ⟨e, he, ho⟩
        · obtain ⟨e', h1, h2⟩ := g4 x hx
          have hne : x ≠ a := fun h => ha (h ▸ hx)
          simp only [AMap.get?_insert, hne, if_false] at h1
          exact ⟨e', h1, h2⟩
      · intro x
        rw [g5]
        by_cases hx : x = a
        · subst hx
          simp [ha, he]
        · simp [AMap.get?_insert, hx]

theorem registerAll_none {tid : Nat} : ∀ {xs : List Nat} {w : World},
    registerAll tid w xs = none ↔ ¬ (xs.Nodup ∧ ∀ x ∈ xs, w.Free x) := by
  intro xs
  induction xs with
  | nil => intro w; simp [registerAll]
  | cons a xs ih =>
    intro w
    simp only [registerAll]
    cases h1 : register w tid 0 a with
    | none =>
      simp only [true_iff]
      intro h
      exact register_none.mp h1 (h.2 a (by simp))
    | some w1 =>
      obtain ⟨e, he, ho, rfl⟩ := register_some h1
      simp only [ih]
      apply not_congr
      constructor
      · intro ⟨h1, h2⟩
        have ha : a ∉ xs := by
          intro ha
          obtain ⟨e', h1, h2⟩ := h2 a ha
          simp only [AMap.get?_insert_self, Option.some.injEq] at h1
          subst h1
          cases h2
        refine ⟨List.nodup_cons.mpr ⟨ha, h1⟩, ?_⟩
        intro x hx
        rcases List.mem_cons.mp hx with rfl | hx
        · exact ⟨e, he, ho⟩
        · obtain ⟨e', h1, h2⟩ := h2 x hx
          have hne : x ≠ a := fun h => ha (h ▸ hx)
          simp only [AMap.get?_insert, hne, if_false] at h1
          exact ⟨e', h1, h2⟩
      · intro ⟨h1, h2⟩
        obtain ⟨ha, h1⟩ := List.nodup_cons.mp h1
        refine ⟨h1, ?_⟩
        intro x hx
        obtain ⟨e', h3, h4⟩ := h2 x (by simp [hx])
        have hne : x ≠ a := fun h => ha (h ▸ hx)
        exact ⟨e', by simp only [AMap.get?_insert, hne, if_false]; exact h3, h4⟩

theorem unregisterAll_spec {tid : Nat} : ∀ {xs : List Nat} {w : World}, xs.Nodup →
    (∀ x ∈ xs, ∃ e, w.exts.get? x = some e ∧ e.owner = some tid) →
    ∃ w', unregisterAll tid w xs = some w' ∧ w'.lims = w.lims ∧ w'.tabs = w.tabs ∧
      ∀ x, w'.exts.get? x = if x ∈ xs then (w.exts.get? x).map Xt.freed else w.exts.get? x := by
  intro xs
  induction xs with
  | nil => intro w _ _; exact ⟨w, rfl, rfl, rfl, by simp⟩
  | cons a xs ih =>
    intro w hn ho
    obtain ⟨ha, hn⟩ := List.nodup_cons.mp hn
    obtain ⟨e, he, heo⟩ := ho a (by simp)
    have h1 : unregister w tid a = some { w with exts := w.exts.insert a e.freed } := by
      simp [unregister, he, heo, Xt.freed]
    obtain ⟨w', g1, g2, g3, g4⟩ := ih (w := { w with exts := w.exts.insert a e.freed }) hn (by
      intro x hx
      obtain ⟨e', h3, h4⟩ := ho x (by simp [hx])
      have hne : x ≠ a := fun h => ha (h ▸ hx)
      exact ⟨e', by simp only [AMap.get?_insert, hne, if_false]; exact h3, h4⟩)
    refine ⟨w', by simp only [unregisterAll, h1]; exact g1, g2, g3, ?_⟩
    intro x
    rw [g4]
    by_cases hx : x = a
    · subst hx
      simp [ha, he]
    · simp [AMap.get?_insert, hx]

theorem tellAll_spec {evs : List ExtEvent} : ∀ {xs : List Nat} {w : World}, xs.Nodup →
    (tellAll w evs xs).lims = w.lims ∧ (tellAll w evs xs).tabs = w.tabs ∧
      ∀ x, (tellAll w evs xs).exts.get? x = if x ∈ xs then (w.exts.get? x).map (·.told evs) else w.exts.get? x := by
  intro xs
  induction xs with
  | nil => intro w _; simp [tellAll]
  | cons a xs ih =>
    intro w hn
    obtain ⟨ha, hn⟩ := List.nodup_cons.mp hn
    have e1 : tellAll w evs (a :: xs) = tellAll (tell w evs a) evs xs := rfl
    rw [e1]
    obtain ⟨g1, g2, g3⟩ := ih (w := tell w evs a) hn
    have h1 : (tell w evs a).lims = w.lims ∧ (tell w evs a).tabs = w.tabs ∧
        ∀ x, (tell w evs a).exts.get? x = if x = a then (w.exts.get? x).map (·.told evs) else w.exts.get? x := by
      unfold tell
      split
      · rename_i he
        refine ⟨rfl, rfl, fun x => ?_⟩
        by_cases hx : x = a
        · subst hx; simp [he]
        · simp [hx]
      · rename_i e he
        refine ⟨rfl, rfl, fun x => ?_⟩
        by_cases hx : x = a
        · subst hx; simp [he, Xt.told]
        · simp [AMap.get?_insert, hx]
    refine ⟨g1.trans h1.1, g2.trans h1.2.1, fun x => ?_⟩
    rw [g3, h1.2.2]
    by_cases hx : x = a
    · subst hx; simp [ha]
    · simp [hx]

/-- Who belongs to whom. -/
structure Inv (w : World) : Prop where
  ext : ∀ x e, w.exts.get? x = some e → ∀ tid, e.owner = some tid → ∃ b, w.tabs.get? tid = some b ∧ x ∈ b.sync ++ b.async
  listed : ∀ tid b, w.tabs.get? tid = some b → (b.sync ++ b.async).Nodup ∧
    ∀ x ∈ b.sync ++ b.async, ∃ e, w.exts.get? x = some e ∧ e.owner = some tid
  lim : ∀ l o, w.lims.get? l = some o → ∀ tid, o.owner = some tid → ∃ b, w.tabs.get? tid = some b ∧ b.lim = l
  limOf : ∀ tid b, w.tabs.get? tid = some b → ∃ o, w.lims.get? b.lim = some o ∧ o.owner = some tid
  plain : ∀ tid b, w.tabs.get? tid = some b → b.worker = false → b.async = [] ∧ b.reqs = [] ∧ b.hasAsync = false
  wired : ∀ tid b, w.tabs.get? tid = some b → b.hasAsync = false → ∀ r ∈ b.reqs, ∃ i, r = .delete i

/-- What the extensions of a table have been told, for one table. -/
structure Told (w : World) (b : Tb) : Prop where
  on : b.worker = true → b.hasAsync = true ∨ b.async = []
  sync : ∀ x ∈ b.sync, ∀ e, w.exts.get? x = some e →
    e.skipped ≤ b.table.log.length ∧ e.heard = e.before ++ b.table.log.drop e.skipped
  async : ∀ x ∈ b.async, ∀ e, w.exts.get? x = some e →
    e.skipped ≤ b.table.log.length ∧ e.heard ++ b.reqs = e.before ++ b.table.log.drop e.skipped

/-- What asynchronous extensions of a table have been told that were all added late. -/
def Deaf (w : World) (b : Tb) : Prop :=
  b.hasAsync = false → ∀ x ∈ b.async, ∀ e, w.exts.get? x = some e →
    ∃ h, e.heard = e.before ++ h ∧ ∀ r ∈ h, r = .reset ∨ ∃ i, r = .delete i

theorem get?_of_map {κ α β : Type} [DecidableEq κ] (f : α → β) (m : AMap κ α) (h : ((m.entries.map fun e => (e.1, f e.2)).map Prod.fst).Nodup)
    (k : κ) : (⟨m.entries.map fun e => (e.1, f e.2), h⟩ : AMap κ β).get? k = (m.get? k).map f := by
  simp only [AMap.get?]
  clear h
  induction m.entries with
  | nil => rfl
  | cons a l ih =>
    obtain ⟨a1, a2⟩ := a
    simp only [List.map_cons, List.lookup_cons]
    split
    · rfl
    · exact ih

theorem init_inv (lims : AMap Nat Limiter) (exts : AMap Nat Bool) : Inv (init lims exts) := by
  constructor
  · intro x e he tid ho
    have := get?_of_map (fun c => (⟨c, none, [], [], 0⟩ : Xt)) exts (by rw [List.map_map]; exact exts.nodup) x
    simp only [init] at he
    rw [this] at he
    cases hx : exts.get? x with
    | none => simp [hx] at he
    | some c => simp [hx] at he; subst he; cases ho
  · intro tid b hb; simp [init] at hb
  · intro x e he tid ho
    have := get?_of_map (fun c => (⟨c, none⟩ : Lim)) lims (by rw [List.map_map]; exact lims.nodup) x
    simp only [init] at he
    rw [this] at he
    cases hx : lims.get? x with
    | none => simp [hx] at he
    | some c => simp [hx] at he; subst he; cases ho
  · intro tid b hb; simp [init] at hb
  · intro tid b hb; simp [init] at hb
  · intro tid b hb; simp [init] at hb

theorem canAsync_eq {w : World} {x : Nat} {e : Xt} (h : w.exts.get? x = some e) : w.canAsync x = e.canAsync := by
  simp [World.canAsync, h]

theorem construct_next {w w' : World} {tid lim : Nat} {t : Table} {xs : List Nat} (h : construct w tid t lim xs = .next w') :
    ∃ l w1, w.lims.get? lim = some l ∧ l.owner = none ∧
      registerAll tid { w with lims := w.lims.insert lim { l with owner := some tid } } xs = some w1 ∧
      w' = { w1 with tabs := w1.tabs.insert tid ⟨t, lim, xs, [], false, false, []⟩ } := by
  unfold construct at h
  split at h
  · cases h
  · rename_i l hl
    split at h
    · cases h
    · rename_i ho
      split at h
      · cases h
      · rename_i w1 hw
        cases h
        exact ⟨l, w1, hl, by simpa using ho, hw, rfl⟩

theorem Inv.construct {w w' : World} {tid lim : Nat} {t : Table} {xs : List Nat} (hi : Inv w) (hf : w.tabs.get? tid = none)
    (h : construct w tid t lim xs = .next w') : Inv w' := by
  obtain ⟨l, w1, hl, ho, hr, rfl⟩ := construct_next h
  obtain ⟨g1, g2, g3, g4, g5⟩ := registerAll_some hr
  obtain ⟨i1, i2, i3, i4, i5, i6⟩ := hi
  simp only at g1 g2
  have hfree : ∀ x ∈ xs, ∃ e, w.exts.get? x = some e ∧ e.owner = none := g4
  simp only at g5
  constructor
  · intro x e he tid' ho'
    simp only [g2, g5, AMap.get?_insert] at he ⊢
    by_cases hx : x ∈ xs
    · simp only [hx, if_true, Option.map_eq_some_iff] at he
      obtain ⟨e0, he0, rfl⟩ := he
      simp only [Xt.registered, Option.some.injEq] at ho'
      subst ho'
      exact ⟨_, by rw [if_pos rfl], by simp [hx]⟩
    · simp only [hx, if_false] at he
      obtain ⟨b, hb, hm⟩ := i1 x e he tid' ho'
      have : tid' ≠ tid := by rintro rfl; rw [hf] at hb; cases hb
      exact ⟨b, by rw [if_neg this]; exact hb, hm⟩
  · intro tid' b hb
    simp only [g2, AMap.get?_insert] at hb
    split at hb
    · rename_i he
      subst he
      cases hb
      refine ⟨by simpa using g3, ?_⟩
      intro x hx
      simp only [List.append_nil] at hx
      obtain ⟨e, he, _⟩ := hfree x hx
      exact ⟨_, by simp only [g5, hx, if_true, he]; rfl, rfl⟩
    · obtain ⟨n1, n2⟩ := i2 tid' b hb
      refine ⟨n1, fun x hx => ?_⟩
      obtain ⟨e, he, ho'⟩ := n2 x hx
      have : x ∉ xs := by
        intro h
        obtain ⟨e', he', ho''⟩ := hfree x h
        rw [he] at he'; cases he'
        rw [ho'] at ho''; cases ho''
      exact ⟨e, by simp only [g5, this, if_false]; exact he, ho'⟩
  · intro l' o hl' tid' ho'
    simp only [g1, AMap.get?_insert] at hl'
    simp only [g2, AMap.get?_insert]
    split at hl'
    · cases hl'
      simp only [Option.some.injEq] at ho'
      subst ho'
      rename_i he
      exact ⟨_, by rw [if_pos rfl], he.symm⟩
    · obtain ⟨b, hb, hm⟩ := i3 l' o hl' tid' ho'
      have : tid' ≠ tid := by rintro rfl; rw [hf] at hb; cases hb
      exact ⟨b, by rw [if_neg this]; exact hb, hm⟩
  · intro tid' b hb
    simp only [g2, AMap.get?_insert] at hb
    simp only [g1, AMap.get?_insert]
    split at hb
    · rename_i he
      subst he
      cases hb
      exact ⟨_, by rw [if_pos rfl], rfl⟩
    · obtain ⟨o, ho1, ho2⟩ := i4 tid' b hb
      have : b.lim ≠ lim := by
        intro h
        rw [h, hl] at ho1; cases ho1
        rw [ho] at ho2; cases ho2
      exact ⟨o, by rw [if_neg this]; exact ho1, ho2⟩
  · intro tid' b hb
    simp only [g2, AMap.get?_insert] at hb
    split at hb
    · cases hb; simp
    · exact i5 tid' b hb
  · intro tid' b hb
    simp only [g2, AMap.get?_insert] at hb
    split at hb
    · cases hb; simp
    · exact i6 tid' b hb

theorem destroy_ok {w : World} {tid : Nat} {b : Tb} (hi : Inv w) (hb : w.tabs.get? tid = some b) :
    ∃ w', destroy w tid = .next w' ∧ w'.tabs = w.tabs.erase tid ∧
      w'.lims = w.lims.insert b.lim ⟨b.table.limiter.cancel.reset, none⟩ ∧
      ∀ x, w'.exts.get? x = if x ∈ b.sync ++ b.async then (w.exts.get? x).map Xt.freed else w.exts.get? x := by
  obtain ⟨o, ho1, ho2⟩ := hi.limOf tid b hb
  obtain ⟨n1, n2⟩ := hi.listed tid b hb
  obtain ⟨w1, g1, g2, g3, g4⟩ := unregisterAll_spec (w := { w with lims := w.lims.insert b.lim ⟨b.table.limiter.cancel.reset, none⟩ }) n1 n2
  refine ⟨{ w1 with tabs := w1.tabs.erase tid }, ?_, ?_, g2, g4⟩
  · simp only [destroy, hb, ho1, ho2, ne_eq, not_true_eq_false, if_false, g1]
  · simp only [g3]

theorem Inv.destroy {w w' : World} {tid : Nat} (hi : Inv w) (h : destroy w tid = .next w') : Inv w' := by
  cases hb : w.tabs.get? tid with
  | none => simp [Wiring.destroy, hb] at h
  | some b =>
    obtain ⟨w1, g1, g2, g3, g4⟩ := destroy_ok hi hb
    rw [g1] at h
    cases h
    obtain ⟨i1, i2, i3, i4, i5, i6⟩ := hi
    constructor
    · intro x e he tid' ho'
      rw [g4] at he
      split at he
      · simp only [Option.map_eq_some_iff] at he
        obtain ⟨e0, he0, rfl⟩ := he
        cases ho'
      · rename_i hx
        obtain ⟨b', hb', hm⟩ := i1 x e he tid' ho'
        have : tid' ≠ tid := by rintro rfl; rw [hb] at hb'; cases hb'; exact hx hm
        exact ⟨b', by simp only [g2, AMap.get?_erase, this, if_false]; exact hb', hm⟩
    · intro tid' b' hb'
      simp only [g2, AMap.get?_erase] at hb'
      split at hb'
      · cases hb'
      · rename_i hne
        obtain ⟨n1, n2⟩ := i2 tid' b' hb'
        refine ⟨n1, fun x hx => ?_⟩
        obtain ⟨e, he, ho'⟩ := n2 x hx
        have : x ∉ b.sync ++ b.async := by
          intro h
          obtain ⟨e', he', ho''⟩ := (i2 tid b hb).2 x h
          rw [he] at he'; cases he'
          rw [ho'] at ho''
          exact hne (Option.some.inj ho'')
        exact ⟨e, by rw [g4, if_neg this]; exact he, ho'⟩
    · intro l o hl tid' ho'
      simp only [g3, AMap.get?_insert] at hl
      split at hl
      · cases hl; cases ho'
      · rename_i hne
        obtain ⟨b', hb', hm⟩ := i3 l o hl tid' ho'
        have : tid' ≠ tid := by rintro rfl; rw [hb] at hb'; cases hb'; exact hne hm.symm
        exact ⟨b', by simp only [g2, AMap.get?_erase, this, if_false]; exact hb', hm⟩
    · intro tid' b' hb'
      simp only [g2, AMap.get?_erase] at hb'
      split at hb'
      · cases hb'
      · rename_i hne
        obtain ⟨o, ho1, ho2⟩ := i4 tid' b' hb'
        have : b'.lim ≠ b.lim := by
          intro h
          obtain ⟨o', ho3, ho4⟩ := i4 tid b hb
          rw [h, ho3] at ho1; cases ho1
          rw [ho4] at ho2
          exact hne (Option.some.inj ho2).symm
        exact ⟨o, by simp only [g3, AMap.get?_insert, this, if_false]; exact ho1, ho2⟩
    · intro tid' b' hb'
      simp only [g2, AMap.get?_erase] at hb'
      split at hb'
      · cases hb'
      · exact i5 tid' b' hb'
    · intro tid' b' hb'
      simp only [g2, AMap.get?_erase] at hb'
      split at hb'
      · cases hb'
      · exact i6 tid' b' hb'

/-- The state of a table is replaced, its lists being rearranged, and extensions keep their owners. -/
theorem Inv.replace {w w' : World} {tid : Nat} {b b' : Tb} (hi : Inv w) (hb : w.tabs.get? tid = some b)
    (hl : w'.lims = w.lims) (ht : ∀ i, w'.tabs.get? i = if i = tid then some b' else w.tabs.get? i) (hlim : b'.lim = b.lim)
    (hx : ∀ x, (w'.exts.get? x).map Xt.owner = (w.exts.get? x).map Xt.owner)
    (hp : (b'.sync ++ b'.async).Perm (b.sync ++ b.async))
    (h5 : b'.worker = false → b'.async = [] ∧ b'.reqs = [] ∧ b'.hasAsync = false)
    (h6 : b'.hasAsync = false → ∀ r ∈ b'.reqs, ∃ i, r = .delete i) : Inv w' := by
  obtain ⟨i1, i2, i3, i4, i5, i6⟩ := hi
  have back : ∀ {x e}, w'.exts.get? x = some e → ∃ e0, w.exts.get? x = some e0 ∧ e0.owner = e.owner := by
    intro x e he
    have := hx x
    rw [he] at this
    simp only [Option.map_some] at this
    exact Option.map_eq_some_iff.mp this.symm
  have forth : ∀ {x e}, w.exts.get? x = some e → ∃ e0, w'.exts.get? x = some e0 ∧ e0.owner = e.owner := by
    intro x e he
    have := hx x
    rw [he] at this
    simp only [Option.map_some] at this
    exact Option.map_eq_some_iff.mp this
  constructor
  · intro x e he tid' ho'
    obtain ⟨e0, he0, h0⟩ := back he
    obtain ⟨b0, hb0, hm⟩ := i1 x e0 he0 tid' (h0.trans ho')
    rw [ht]
    by_cases h : tid' = tid
    · subst h
      rw [hb] at hb0; cases hb0
      exact ⟨b', by rw [if_pos rfl], hp.mem_iff.mpr hm⟩
    · exact ⟨b0, by rw [if_neg h]; exact hb0, hm⟩
  · intro tid' b0 hb0
    rw [ht] at hb0
    have key : (b0.sync ++ b0.async).Nodup ∧ ∀ x ∈ b0.sync ++ b0.async, ∃ e, w.exts.get? x = some e ∧ e.owner = some tid' := by
      split at hb0
      · rename_i h
        subst h
        cases hb0
        exact ⟨hp.nodup_iff.mpr (i2 _ b hb).1, fun x h => (i2 _ b hb).2 x (hp.mem_iff.mp h)⟩
      · exact i2 tid' b0 hb0
    refine ⟨key.1, fun x h => ?_⟩
    obtain ⟨e, he, ho⟩ := key.2 x h
    obtain ⟨e0, he0, h0⟩ := forth he
    exact ⟨e0, he0, h0.trans ho⟩
  · intro l o h tid' ho'
    rw [hl] at h
    obtain ⟨b0, hb0, hm⟩ := i3 l o h tid' ho'
    rw [ht]
    by_cases h : tid' = tid
    · subst h
      rw [hb] at hb0; cases hb0
      exact ⟨b', by rw [if_pos rfl], hlim.trans hm⟩
    · exact ⟨b0, by rw [if_neg h]; exact hb0, hm⟩
  · intro tid' b0 hb0
    rw [ht] at hb0
    rw [hl]
    split at hb0
    · rename_i h
      subst h
      cases hb0
      rw [hlim]
      exact i4 _ b hb
    · exact i4 tid' b0 hb0
  · intro tid' b0 hb0
    rw [ht] at hb0
    split at hb0
    · cases hb0; exact h5
    · exact i5 tid' b0 hb0
  · intro tid' b0 hb0
    rw [ht] at hb0
    split at hb0
    · cases hb0; exact h6
    · exact i6 tid' b0 hb0

theorem enableWorker_next {w w' : World} {tid : Nat} (h : enableWorker w tid = .next w') :
    ∃ b, w.tabs.get? tid = some b ∧ b.worker = false ∧ w' = { w with
      tabs := w.tabs.insert tid { b with
        sync := b.sync.filter fun x => !w.canAsync x
        async := b.async ++ b.sync.filter fun x => w.canAsync x
        worker := true
        hasAsync := !(b.async ++ b.sync.filter fun x => w.canAsync x).isEmpty } } := by
  unfold enableWorker at h
  split at h
  · cases h
  · rename_i b hb
    split at h
    · cases h
    · rename_i hw
      cases h
      exact ⟨b, hb, by simpa using hw, rfl⟩

theorem Inv.enableWorker {w w' : World} {tid : Nat} (hi : Inv w) (h : enableWorker w tid = .next w') : Inv w' := by
  obtain ⟨b, hb, hw, rfl⟩ := enableWorker_next h
  obtain ⟨a1, a2, a3⟩ := hi.plain tid b hb hw
  refine hi.replace (tid := tid) hb rfl (fun i => AMap.get?_insert _ _ _ _) rfl (fun x => rfl) ?_ ?_ ?_
  · simp only [a1, List.nil_append, List.append_nil]
    exact (List.perm_append_comm).trans (List.filter_append_perm _ _)
  · simp
  · simp [a2]

theorem work_next {w w' : World} {tid : Nat} (hi : Inv w) (h : work w tid = .next w') :
    ∃ b, w.tabs.get? tid = some b ∧ b.worker = true ∧ w'.lims = w.lims ∧
      (∀ i, w'.tabs.get? i = if i = tid then some { b with reqs := [] } else w.tabs.get? i) ∧
      ∀ x, w'.exts.get? x = if x ∈ b.async then (w.exts.get? x).map (·.told b.reqs) else w.exts.get? x := by
  unfold work at h
  split at h
  · cases h
  · rename_i b hb
    split at h
    · cases h
    · rename_i hw
      cases h
      obtain ⟨g1, g2, g3⟩ := tellAll_spec (evs := b.reqs) (w := w) (List.nodup_append.mp (hi.listed tid b hb).1).2.1
      refine ⟨b, hb, by simpa using hw, g1, fun i => ?_, g3⟩
      simp only [g2]
      exact AMap.get?_insert _ _ _ _

theorem owner_told {o : Option Xt} {evs : List ExtEvent} : (o.map (·.told evs)).map Xt.owner = o.map Xt.owner := by
  cases o <;> rfl

theorem Inv.work {w w' : World} {tid : Nat} (hi : Inv w) (h : work w tid = .next w') : Inv w' := by
  obtain ⟨b, hb, hw, g1, g2, g3⟩ := work_next hi h
  refine hi.replace hb g1 g2 rfl (fun x => ?_) (List.Perm.refl _) ?_ ?_
  · rw [g3]; split
    · exact owner_told
    · rfl
  · simp [hw]
  · simp

/-- What `Reset` is, and what is not. -/
def isReset (op : Op) : Bool := op matches .reset

theorem isReset_iff {op : Op} : isReset op = true ↔ op = .reset := by cases op <;> simp [isReset]

theorem operate_next {w w' : World} {tid : Nat} {op : Op} (hi : Inv w) (h : operate w tid op = .next w') :
    ∃ b news, w.tabs.get? tid = some b ∧ (b.table.step op).1.log = b.table.log ++ news ∧ w'.lims = w.lims ∧
      (isReset op = true → b.worker = true → b.reqs = []) ∧
      (∀ i, w'.tabs.get? i = if i = tid then some { b with
          table := (b.table.step op).1
          reqs := if isReset op = true ∨ b.worker = false then b.reqs
            else b.reqs ++ (if b.hasAsync then news else news.filter isDelete) } else w.tabs.get? i) ∧
      ∀ x, w'.exts.get? x = if x ∈ b.sync ∨ (isReset op = true ∧ x ∈ b.async) then (w.exts.get? x).map (·.told news) else w.exts.get? x := by
  unfold operate at h
  change (match w.tabs.get? tid with
    | none => Outcome.impossible
    | some b => if (isReset op && b.worker && !b.reqs.isEmpty) = true then _ else _) = _ at h
  split at h
  · cases h
  · rename_i b hb
    split at h
    · cases h
    · rename_i hr
      split at h
      · cases h
      · obtain ⟨news, hn⟩ := Table.step_log b.table op
        have hd : (b.table.step op).1.log.drop b.table.log.length = news := by rw [← hn]; simp
        simp only [hd] at h
        obtain ⟨n1, n2, n3⟩ := List.nodup_append.mp (hi.listed tid b hb).1
        obtain ⟨g1, g2, g3⟩ := tellAll_spec (evs := news) (w := w) n1
        refine ⟨b, news, hb, hn.symm, ?_⟩
        change (if isReset op = true then _ else _) = _ at h
        split at h
        · rename_i ho
          cases h
          obtain ⟨k1, k2, k3⟩ := tellAll_spec (evs := news) (w := tellAll w news b.sync) n2
          refine ⟨by simp only [k1, g1], ?_, ?_, ?_⟩
          · intro _ hw
            simpa [ho, hw] using hr
          · intro i
            simp only [k2, g2, AMap.get?_insert, ho, true_or, if_true]
          · intro x
            simp only [k3, g3, ho, true_and]
            by_cases hx : x ∈ b.sync
            · have : x ∉ b.async := fun h => n3 x hx x h rfl
              simp [hx, this]
            · simp [hx]
        · rename_i ho
          cases h
          refine ⟨g1, fun h => absurd h ho, ?_, ?_⟩
          · intro i
            simp only [g2, AMap.get?_insert]
            cases hw : b.worker <;> simp [ho]
          · intro x
            simp only [g3]
            simp [ho]

theorem Inv.operate {w w' : World} {tid : Nat} {op : Op} (hi : Inv w) (h : operate w tid op = .next w') : Inv w' := by
  obtain ⟨b, news, hb, _, g1, _, g2, g3⟩ := operate_next hi h
  refine hi.replace hb g1 g2 rfl (fun x => ?_) (List.Perm.refl _) ?_ ?_
  · rw [g3]; split
    · exact owner_told
    · rfl
  · intro hw
    simp only at hw
    simp only [hw, or_true, if_true]
    exact hi.plain tid b hb hw
  · intro hh r hr
    simp only at hh hr
    split at hr
    · exact hi.wired tid b hb hh r hr
    · rcases List.mem_append.mp hr with hr | hr
      · exact hi.wired tid b hb hh r hr
      · simp only [hh, Bool.false_eq_true, if_false, List.mem_filter] at hr
        obtain ⟨_, hr⟩ := hr
        cases r <;> simp [isDelete] at hr ⊢

theorem addExtension_next {w w' : World} {tid x : Nat} (h : addExtension w tid x = .next w') :
    ∃ b e, w.tabs.get? tid = some b ∧ w.exts.get? x = some e ∧ e.owner = none ∧ b.table.data.size = 0 ∧
      w' = { w with
        exts := w.exts.insert x (e.registered tid b.table.log.length)
        tabs := w.tabs.insert tid (if e.canAsync && b.worker then { b with async := b.async ++ [x] } else { b with sync := b.sync ++ [x] }) } := by
  unfold addExtension at h
  split at h
  · rename_i b e hb he
    split at h
    · cases h
    · rename_i w1 hr
      obtain ⟨e', he', ho, rfl⟩ := register_some hr
      rw [he] at he'; cases he'
      split at h
      · cases h
      · rename_i hz
        split at h
        · rename_i hc
          cases h
          exact ⟨b, e, hb, he, ho, by simpa using hz, by simp only [hc, if_true]⟩
        · rename_i hc
          cases h
          exact ⟨b, e, hb, he, ho, by simpa using hz, by simp only [hc, Bool.false_eq_true, if_false]⟩
  · cases h

theorem Inv.addExtension {w w' : World} {tid x : Nat} (hi : Inv w) (h : addExtension w tid x = .next w') : Inv w' := by
  obtain ⟨b, e, hb, he, ho, _, rfl⟩ := addExtension_next h
  obtain ⟨i1, i2, i3, i4, i5, i6⟩ := hi
  have hnot : ∀ tid' b', w.tabs.get? tid' = some b' → x ∉ b'.sync ++ b'.async := by
    intro tid' b' hb' hx
    obtain ⟨e', he', ho'⟩ := (i2 tid' b' hb').2 x hx
    rw [he] at he'; cases he'
    rw [ho] at ho'; cases ho'
  have hfacts : ∀ b', b' = (if e.canAsync && b.worker then { b with async := b.async ++ [x] } else { b with sync := b.sync ++ [x] }) →
      b'.lim = b.lim ∧ (b'.sync ++ b'.async).Perm (x :: (b.sync ++ b.async)) ∧ b'.worker = b.worker ∧ b'.reqs = b.reqs ∧
        b'.hasAsync = b.hasAsync ∧ (b.worker = false → b'.async = b.async) := by
    rintro b' rfl
    split
    · rename_i hc
      refine ⟨rfl, ?_, rfl, rfl, rfl, ?_⟩
      · rw [← List.append_assoc]; exact List.perm_append_singleton _ _
      · intro hw; simp [hw] at hc
    · refine ⟨rfl, ?_, rfl, rfl, rfl, fun _ => rfl⟩
      simp only [List.append_assoc, List.singleton_append]
      exact List.perm_middle
  obtain ⟨f1, f2, f3, f4, f5, f6⟩ := hfacts _ rfl
  generalize (if e.canAsync && b.worker then { b with async := b.async ++ [x] } else { b with sync := b.sync ++ [x] }) = b' at *
  constructor
  · intro y e' he' tid' ho'
    simp only [AMap.get?_insert] at he' ⊢
    split at he'
    · rename_i hy
      cases he'
      simp only [Xt.registered, Option.some.injEq] at ho'
      subst ho'
      exact ⟨b', by rw [if_pos rfl], f2.mem_iff.mpr (by simp [hy])⟩
    · obtain ⟨b0, hb0, hm⟩ := i1 y e' he' tid' ho'
      by_cases h : tid' = tid
      · subst h
        rw [hb] at hb0; cases hb0
        exact ⟨b', by rw [if_pos rfl], f2.mem_iff.mpr (List.mem_cons_of_mem _ hm)⟩
      · exact ⟨b0, by rw [if_neg h]; exact hb0, hm⟩
  · intro tid' b0 hb0
    simp only [AMap.get?_insert] at hb0 ⊢
    split at hb0
    · rename_i h
      subst h
      cases hb0
      refine ⟨f2.nodup_iff.mpr (List.nodup_cons.mpr ⟨hnot _ b hb, (i2 _ b hb).1⟩), fun y hy => ?_⟩
      rcases List.mem_cons.mp (f2.mem_iff.mp hy) with rfl | hy
      · exact ⟨_, by rw [if_pos rfl], rfl⟩
      · have : y ≠ x := fun h => hnot _ b hb (h ▸ hy)
        rw [if_neg this]
        exact (i2 _ b hb).2 y hy
    · refine ⟨(i2 tid' b0 hb0).1, fun y hy => ?_⟩
      have : y ≠ x := fun h => hnot _ b0 hb0 (h ▸ hy)
      rw [if_neg this]
      exact (i2 tid' b0 hb0).2 y hy
  · intro l o hl tid' ho'
    obtain ⟨b0, hb0, hm⟩ := i3 l o hl tid' ho'
    simp only [AMap.get?_insert]
    by_cases h : tid' = tid
    · subst h
      rw [hb] at hb0; cases hb0
      exact ⟨b', by rw [if_pos rfl], f1.trans hm⟩
    · exact ⟨b0, by rw [if_neg h]; exact hb0, hm⟩
  · intro tid' b0 hb0
    simp only [AMap.get?_insert] at hb0
    split at hb0
    · rename_i h
      subst h
      cases hb0
      rw [f1]
      exact i4 _ b hb
    · exact i4 tid' b0 hb0
  · intro tid' b0 hb0
    simp only [AMap.get?_insert] at hb0
    split at hb0
    · rename_i h
      subst h
      cases hb0
      intro hw
      rw [f3] at hw
      rw [f6 hw, f4, f5]
      exact i5 _ b hb hw
    · exact i5 tid' b0 hb0
  · intro tid' b0 hb0
    simp only [AMap.get?_insert] at hb0
    split at hb0
    · rename_i h
      subst h
      cases hb0
      rw [f4, f5]
      exact i6 _ b hb
    · exact i6 tid' b0 hb0

theorem clearExtensions_spec {w : World} {tid : Nat} {b : Tb} (hi : Inv w) (hb : w.tabs.get? tid = some b) (hz : b.table.data.size = 0) :
    ∃ w', clearExtensions w tid b = some (b.sync ++ b.async, w') ∧ w'.lims = w.lims ∧
      (∀ i, w'.tabs.get? i = if i = tid then some { b with sync := [], async := [] } else w.tabs.get? i) ∧
      ∀ x, w'.exts.get? x = if x ∈ b.sync ++ b.async then (w.exts.get? x).map Xt.freed else w.exts.get? x := by
  obtain ⟨n1, n2⟩ := hi.listed tid b hb
  obtain ⟨w1, g1, g2, g3, g4⟩ := unregisterAll_spec (w := { w with tabs := w.tabs.insert tid { b with sync := [], async := [] } }) n1 n2
  refine ⟨w1, ?_, g2, fun i => ?_, g4⟩
  · simp only [clearExtensions, hz, ne_eq, not_true_eq_false, if_false, g1]
  · rw [g3]; exact AMap.get?_insert _ _ _ _

theorem Inv.clear {w w' : World} {tid : Nat} {b : Tb} (hi : Inv w) (hb : w.tabs.get? tid = some b) (hl : w'.lims = w.lims)
    (ht : ∀ i, w'.tabs.get? i = if i = tid then some { b with sync := [], async := [] } else w.tabs.get? i)
    (hx : ∀ x, w'.exts.get? x = if x ∈ b.sync ++ b.async then (w.exts.get? x).map Xt.freed else w.exts.get? x) : Inv w' := by
  obtain ⟨i1, i2, i3, i4, i5, i6⟩ := hi
  constructor
  · intro x e he tid' ho'
    rw [hx] at he
    split at he
    · simp only [Option.map_eq_some_iff] at he
      obtain ⟨e0, he0, rfl⟩ := he
      cases ho'
    · rename_i hn
      obtain ⟨b', hb', hm⟩ := i1 x e he tid' ho'
      have : tid' ≠ tid := by rintro rfl; rw [hb] at hb'; cases hb'; exact hn hm
      exact ⟨b', by rw [ht, if_neg this]; exact hb', hm⟩
  · intro tid' b' hb'
    rw [ht] at hb'
    split at hb'
    · cases hb'; simp
    · rename_i hne
      obtain ⟨n1, n2⟩ := i2 tid' b' hb'
      refine ⟨n1, fun x hm => ?_⟩
      obtain ⟨e, he, ho'⟩ := n2 x hm
      have : x ∉ b.sync ++ b.async := by
        intro h
        obtain ⟨e', he', ho''⟩ := (i2 tid b hb).2 x h
        rw [he] at he'; cases he'
        rw [ho'] at ho''
        exact hne (Option.some.inj ho'')
      exact ⟨e, by rw [hx, if_neg this]; exact he, ho'⟩
  · intro l o h tid' ho'
    rw [hl] at h
    obtain ⟨b', hb', hm⟩ := i3 l o h tid' ho'
    rw [ht]
    by_cases h : tid' = tid
    · subst h
      rw [hb] at hb'; cases hb'
      exact ⟨{ b with sync := [], async := [] }, by rw [if_pos rfl], hm⟩
    · exact ⟨b', by rw [if_neg h]; exact hb', hm⟩
  · intro tid' b' hb'
    rw [ht] at hb'
    rw [hl]
    split at hb'
    · rename_i h
      subst h
      cases hb'
      exact i4 _ b hb
    · exact i4 tid' b' hb'
  · intro tid' b' hb'
    rw [ht] at hb'
    split at hb'
    · rename_i h
      subst h
      cases hb'
      exact fun hw => ⟨rfl, (i5 _ b hb hw).2⟩
    · exact i5 tid' b' hb'
  · intro tid' b' hb'
    rw [ht] at hb'
    split at hb'
    · rename_i h
      subst h
      cases hb'
      exact i6 _ b hb
    · exact i6 tid' b' hb'

theorem Inv.newLimiter {w : World} {l : Nat} {o : Limiter} (hi : Inv w) (hf : w.lims.get? l = none) :
    Inv { w with lims := w.lims.insert l ⟨o, none⟩ } := by
  obtain ⟨i1, i2, i3, i4, i5, i6⟩ := hi
  refine ⟨i1, i2, ?_, ?_, i5, i6⟩
  · intro l' o' h tid ho
    simp only [AMap.get?_insert] at h
    split at h
    · cases h; cases ho
    · exact i3 l' o' h tid ho
  · intro tid b hb
    obtain ⟨o', h1, h2⟩ := i4 tid b hb
    have : b.lim ≠ l := by intro h; rw [h, hf] at h1; cases h1
    exact ⟨o', by simp only [AMap.get?_insert, this, if_false]; exact h1, h2⟩

/-- What loading does, all of it. -/
theorem load_next {w w' : World} {tid tid' lim : Nat} {c : Checkpoint} {chunks : List ChunkRef} (hi : Inv w)
    (h : load w tid tid' lim c chunks = .next w') :
    ∃ b t, w.tabs.get? tid = some b ∧ w.tabs.get? tid' = none ∧ w.lims.get? lim = none ∧ b.table.data.size = 0 ∧
      restore c chunks = .ok t ∧ Inv w' ∧
      (∀ l, w'.lims.get? l = if l = lim then some ⟨c.limiter.restored, some tid'⟩ else w.lims.get? l) ∧
      (∀ i, w'.tabs.get? i = if i = tid' then some ⟨t, lim, b.sync ++ b.async, [], false, false, []⟩
        else if i = tid then some { b with sync := [], async := [] } else w.tabs.get? i) ∧
      ∀ x, w'.exts.get? x = if x ∈ b.sync ++ b.async then (w.exts.get? x).map (fun e => (e.registered tid' 0).told t.log)
        else w.exts.get? x := by
  unfold load at h
  split at h
  · rename_i b hb ht' hlim
    split at h
    · cases h
    · rename_i xs w1 hc
      have hz : b.table.data.size = 0 := by
        unfold clearExtensions at hc
        split at hc
        · cases hc
        · rename_i hz; simpa using hz
      obtain ⟨w2, c1, c2, c3, c4⟩ := clearExtensions_spec hi hb hz
      rw [hc] at c1
      simp only [Option.some.injEq, Prod.mk.injEq] at c1
      obtain ⟨rfl, rfl⟩ := c1
      have hi1 := hi.clear hb c2 c3 c4
      have hl1 : w1.lims.get? lim = none := by rw [c2]; exact hlim
      have hne : tid' ≠ tid := by rintro rfl; rw [hb] at ht'; cases ht'
      have ht1 : w1.tabs.get? tid' = none := by rw [c3, if_neg hne]; exact ht'
      have hi2 := hi1.newLimiter (o := c.limiter.restored) hl1
      split at h
      · rename_i w3 hcon
        have hi3 := hi2.construct ht1 hcon
        split at h
        · rename_i t ht
          cases h
          obtain ⟨l, w4, d1, d2, d3, rfl⟩ := construct_next hcon
          simp only [AMap.get?_insert_self, Option.some.injEq] at d1
          subst d1
          obtain ⟨r1, r2, r3, r4, r5⟩ := registerAll_some d3
          simp only at r1 r2 r5 hi3
          obtain ⟨k1, k2, k3⟩ := tellAll_spec (evs := t.log) (w := { w4 with
            tabs := w4.tabs.insert tid' ⟨{ Table.make c.maxSize c.maxTimesSampled c.sampler c.remover c.limiter.restored with
              numDeletedEpisodes := c.numDeletedEpisodes
              numUniqueSamples := c.numUniqueSamples }, lim, b.sync ++ b.async, [], false, false, []⟩ }) r3
          simp only at k1 k2 k3
          generalize tellAll _ t.log _ = w5 at *
          refine ⟨b, t, hb, ht', hlim, hz, ht, ?_, ?_, ?_, ?_⟩
          · refine hi3.replace (tid := tid') (b := _) (b' := ⟨t, lim, b.sync ++ b.async, [], false, false, []⟩) (AMap.get?_insert_self _ _ _)
              (by simp only [k1]) (fun i => AMap.get?_insert _ _ _ _) rfl (fun x => ?_) (List.Perm.refl _) (by simp) (by simp)
            simp only [k3]
            split
            · exact owner_told
            · rfl
          · intro l
            rw [k1, r1]
            simp only [AMap.get?_insert, c2]
            split <;> rfl
          · intro i
            simp only [r2, AMap.get?_insert, c3]
            split
            · rfl
            · rfl
          · intro x
            simp only [k3, r5, c4]
            split
            · cases w.exts.get? x <;> rfl
            · rfl
        · cases h
      · rename_i o hno
        exact absurd h (by intro h; exact hno _ h)
  · cases h

theorem Inv.step {w w' : World} {e : Event} (hi : Inv w) (h : step w e = .next w') : Inv w' := by
  cases e with
  | construct tid ms mt kS kR lim xs =>
    simp only [Wiring.step] at h
    split at h
    · rename_i hf
      split at h
      · exact hi.construct hf h
      · cases h
    · cases h
  | destroy tid => exact hi.destroy h
  | enableWorker tid => exact hi.enableWorker h
  | addExtension tid x => exact hi.addExtension h
  | op tid op => exact hi.operate h
  | work tid => exact hi.work h
  | load tid tid' lim c chunks =>
    obtain ⟨_, _, _, _, _, _, _, h, _⟩ := load_next hi h
    exact h

theorem Path.inv {P : World → Event → Prop} {w w' : World} (h : Path P w w') (hi : Inv w) : Inv w' := by
  induction h with
  | refl => exact hi
  | step _ _ hs ih => exact ih.step hs

theorem Reachable.inv {w : World} (h : Reachable w) : Inv w := by
  obtain ⟨lims, exts, hp⟩ := h
  exact hp.inv (init_inv _ _)

/-- Two tables have no extension in common. -/
theorem Inv.apart {w : World} (hi : Inv w) {i j : Nat} {a b : Tb} (ha : w.tabs.get? i = some a) (hb : w.tabs.get? j = some b)
    {x : Nat} (hx : x ∈ a.sync ++ a.async) (hy : x ∈ b.sync ++ b.async) : i = j := by
  obtain ⟨e, he, ho⟩ := (hi.listed i a ha).2 x hx
  obtain ⟨e', he', ho'⟩ := (hi.listed j b hb).2 x hy
  rw [he] at he'; cases he'
  rw [ho] at ho'
  exact Option.some.inj ho'

/-- What the tables, one by one, may say of their extensions: it does not change if neither does. -/
def Stable (Q : World → Tb → Prop) : Prop :=
  ∀ w w' b, (∀ x ∈ b.sync ++ b.async, w'.exts.get? x = w.exts.get? x) → Q w b → Q w' b

theorem told_stable : Stable Told := by
  intro w w' b hx h
  exact ⟨h.on, fun x hm e he => h.sync x hm e (by rw [← hx x (by simp [hm])]; exact he),
    fun x hm e he => h.async x hm e (by rw [← hx x (by simp [hm])]; exact he)⟩

theorem deaf_stable : Stable Deaf := by
  intro w w' b hx h ha x hm e he
  exact h ha x hm e (by rw [← hx x (by simp [hm])]; exact he)

/-- How such a statement is shown for all tables after an event: for the tables that the event is about. -/
theorem all_step {Q : World → Tb → Prop} (hs : Stable Q) {w w' : World} {e : Event} (hi : Inv w) (h : step w e = .next w')
    (hq : ∀ i b, w.tabs.get? i = some b → Q w b)
    (qnew : ∀ w' t lim xs, (∀ x ∈ xs, ∀ e, w'.exts.get? x = some e → e.skipped = 0 ∧ e.heard = e.before ++ t.log) →
      Q w' ⟨t, lim, xs, [], false, false, []⟩)
    (qclear : ∀ (w' : World) (b : Tb), Q w' { b with sync := [], async := [] })
    (qworker : ∀ tid b, e = .enableWorker tid → w.tabs.get? tid = some b → b.worker = false → Q w b → w'.exts = w.exts →
      ∀ b', w'.tabs.get? tid = some b' → Q w' b')
    (qadd : ∀ tid x, e = .addExtension tid x → ∀ b, w.tabs.get? tid = some b → Q w b →
      ∀ b', w'.tabs.get? tid = some b' → Q w' b')
    (qop : ∀ tid op, e = .op tid op → ∀ b, w.tabs.get? tid = some b → Q w b → ∀ b', w'.tabs.get? tid = some b' → Q w' b')
    (qwork : ∀ tid, e = .work tid → ∀ b, w.tabs.get? tid = some b → Q w b → ∀ b', w'.tabs.get? tid = some b' → Q w' b') :
    ∀ i b, w'.tabs.get? i = some b → Q w' b := by
  intro i b' hb'
  cases e with
  | construct tid ms mt kS kR lim xs =>
    simp only [step] at h
    split at h
    · rename_i l0 hl0 hf
      split at h
      · obtain ⟨l, w1, d1, d2, d3, rfl⟩ := construct_next h
        obtain ⟨r1, r2, r3, r4, r5⟩ := registerAll_some d3
        simp only at r1 r2 r5
        simp only [r2, AMap.get?_insert] at hb'
        split at hb'
        · cases hb'
          refine qnew _ _ _ _ fun x hx e he => ?_
          simp only [r5, hx, if_true, Option.map_eq_some_iff] at he
          obtain ⟨e0, _, rfl⟩ := he
          exact ⟨rfl, by simp [Xt.registered, Table.make]⟩
        · refine hs w _ b' (fun x hx => ?_) (hq i b' hb')
          simp only [r5]
          rw [if_neg]
          intro hm
          obtain ⟨e, he, ho⟩ := (hi.listed i b' hb').2 x hx
          obtain ⟨e', he', ho'⟩ := r4 x hm
          simp only at he'
          rw [he] at he'; cases he'
          rw [ho] at ho'; cases ho'
      · cases h
    · cases h
  | destroy tid =>
    cases hb : w.tabs.get? tid with
    | none => simp [step, destroy, hb] at h
    | some b =>
      obtain ⟨w1, g1, g2, g3, g4⟩ := destroy_ok hi hb
      simp only [step] at h
      rw [g1] at h
      cases h
      simp only [g2, AMap.get?_erase] at hb'
      split at hb'
      · cases hb'
      · rename_i hne
        refine hs w _ b' (fun x hx => ?_) (hq i b' hb')
        rw [g4, if_neg]
        exact fun hm => hne (hi.apart hb' hb hx hm)
  | enableWorker tid =>
    obtain ⟨b, hb, hw, rfl⟩ := enableWorker_next h
    by_cases hne : i = tid
    · subst hne
      exact qworker i b rfl hb hw (hq i b hb) rfl b' hb'
    · simp only [AMap.get?_insert, hne, if_false] at hb'
      exact hs w _ b' (fun x hx => rfl) (hq i b' hb')
  | addExtension tid x =>
    obtain ⟨b, e, hb, he, ho, _, rfl⟩ := addExtension_next h
    by_cases hne : i = tid
    · subst hne
      exact qadd i x rfl b hb (hq i b hb) b' hb'
    · simp only [AMap.get?_insert, hne, if_false] at hb'
      refine hs w _ b' (fun y hy => ?_) (hq i b' hb')
      simp only [AMap.get?_insert]
      rw [if_neg]
      rintro rfl
      obtain ⟨e', he', ho'⟩ := (hi.listed i b' hb').2 y hy
      rw [he] at he'; cases he'
      rw [ho] at ho'; cases ho'
  | op tid op =>
    obtain ⟨b, news, hb, _, g1, _, g2, g3⟩ := operate_next hi h
    by_cases hne : i = tid
    · subst hne
      exact qop i op rfl b hb (hq i b hb) b' hb'
    · rw [g2, if_neg hne] at hb'
      refine hs w _ b' (fun y hy => ?_) (hq i b' hb')
      rw [g3, if_neg]
      rintro (hm | ⟨_, hm⟩)
      · exact hne (hi.apart hb' hb hy (by simp [hm]))
      · exact hne (hi.apart hb' hb hy (by simp [hm]))
  | work tid =>
    obtain ⟨b, hb, _, g1, g2, g3⟩ := work_next hi h
    by_cases hne : i = tid
    · subst hne
      exact qwork i rfl b hb (hq i b hb) b' hb'
    · rw [g2, if_neg hne] at hb'
      refine hs w _ b' (fun y hy => ?_) (hq i b' hb')
      rw [g3, if_neg]
      exact fun hm => hne (hi.apart hb' hb hy (by simp [hm]))
  | load tid tid' lim c chunks =>
    obtain ⟨b, t, hb, hf, _, _, _, _, _, g2, g3⟩ := load_next hi h
    rw [g2] at hb'
    split at hb'
    · cases hb'
      refine qnew _ _ _ _ fun x hx e he => ?_
      rw [g3, if_pos hx] at he
      simp only [Option.map_eq_some_iff] at he
      obtain ⟨e0, _, rfl⟩ := he
      exact ⟨rfl, rfl⟩
    · split at hb'
      · cases hb'
        exact qclear _ _
      · rename_i hne
        refine hs w _ b' (fun y hy => ?_) (hq i b' hb')
        rw [g3, if_neg]
        exact fun hm => hne (hi.apart hb' hb hy hm)

theorem Inv.not_sync {w : World} (hi : Inv w) {i : Nat} {b : Tb} (hb : w.tabs.get? i = some b) {x : Nat} (h : x ∈ b.async) :
    x ∉ b.sync := fun h' => (List.nodup_append.mp (hi.listed i b hb).1).2.2 x h' x h rfl

theorem told_step {w w' : World} {e : Event} (hi : Inv w) (h : step w e = .next w') (hl : NotLate w e)
    (hq : ∀ i b, w.tabs.get? i = some b → Told w b) : ∀ i b, w'.tabs.get? i = some b → Told w' b := by
  refine all_step told_stable hi h hq ?_ ?_ ?_ ?_ ?_ ?_
  · intro w' t lim xs hx
    refine ⟨by simp, fun x hm e he => ?_, by simp⟩
    obtain ⟨h1, h2⟩ := hx x hm e he
    simp [h1, h2]
  · intro w' b
    exact ⟨by simp, by simp, by simp⟩
  · intro tid b he hb hw ht hx b' hb'
    subst he
    obtain ⟨b0, hb0, _, rfl⟩ := enableWorker_next h
    rw [hb] at hb0; cases hb0
    simp only [AMap.get?_insert_self, Option.some.injEq] at hb'
    subst hb'
    obtain ⟨a1, a2, a3⟩ := hi.plain tid b hb hw
    refine ⟨?_, ?_, ?_⟩
    · intro _
      simp only
      generalize b.async ++ b.sync.filter (fun x => w.canAsync x) = l
      cases l <;> simp
    · intro x hm e he
      exact ht.sync x (List.mem_filter.mp hm).1 e he
    · intro x hm e he
      simp only [a1, List.nil_append] at hm
      have := ht.sync x (List.mem_filter.mp hm).1 e he
      simpa [a2] using this
  · intro tid x he b hb ht b' hb'
    subst he
    obtain ⟨b0, e, hb0, he, ho, _, rfl⟩ := addExtension_next h
    rw [hb] at hb0; cases hb0
    have hc : (e.canAsync && b.worker) = false := by
      cases hc : e.canAsync with
      | false => simp
      | true => simp [hl tid x rfl (by rw [canAsync_eq he]; exact hc) b hb]
    simp only [AMap.get?_insert_self, Option.some.injEq, hc, Bool.false_eq_true, if_false] at hb'
    subst hb'
    have old : ∀ y, y ∈ b.sync ++ b.async → y ≠ x := by
      rintro y hy rfl
      obtain ⟨e', he', ho'⟩ := (hi.listed tid b hb).2 y hy
      rw [he] at he'; cases he'
      rw [ho] at ho'; cases ho'
    refine ⟨ht.on, ?_, ?_⟩
    · intro y hm e' he'
      simp only [AMap.get?_insert] at he'
      rcases List.mem_append.mp hm with hm | hm
      · rw [if_neg (old y (by simp [hm]))] at he'
        exact ht.sync y hm e' he'
      · simp only [List.mem_singleton] at hm
        subst hm
        simp only [if_true, Option.some.injEq] at he'
        subst he'
        simp [Xt.registered]
    · intro y hm e' he'
      simp only [AMap.get?_insert] at he'
      rw [if_neg (old y (by simp only [List.mem_append]; exact .inr hm))] at he'
      exact ht.async y hm e' he'
  · intro tid op he b hb ht b' hb'
    subst he
    obtain ⟨b0, news, hb0, g0, _, g1, g2, g3⟩ := operate_next hi h
    rw [hb] at hb0; cases hb0
    simp only [g2, if_true, Option.some.injEq] at hb'
    subst hb'
    refine ⟨ht.on, ?_, ?_⟩
    · intro x hm e he
      simp only at hm
      simp only [g3, hm, true_or, if_true, Option.map_eq_some_iff] at he
      obtain ⟨e0, he0, rfl⟩ := he
      obtain ⟨k1, k2⟩ := ht.sync x hm e0 he0
      refine ⟨?_, ?_⟩
      · simp only [g0, List.length_append, Xt.told]; omega
      · simp only [g0, Xt.told, List.drop_append_of_le_length k1, k2, List.append_assoc]
    · intro x hm e he
      simp only at hm
      have hns := hi.not_sync hb hm
      have hw : b.worker = true := by
        cases hw : b.worker with
        | true => rfl
        | false => rw [(hi.plain tid b hb hw).1] at hm; cases hm
      have hh : b.hasAsync = true := by
        rcases ht.on hw with h | h
        · exact h
        · rw [h] at hm; cases hm
      simp only [g3, hm, hns, false_or, and_true] at he
      simp only [hw, hh, Bool.true_eq_false, or_false, if_true]
      by_cases hr : isReset op = true
      · simp only [hr, if_true, Option.map_eq_some_iff] at he ⊢
        obtain ⟨e0, he0, rfl⟩ := he
        obtain ⟨k1, k2⟩ := ht.async x hm e0 he0
        rw [g1 hr hw] at k2 ⊢
        refine ⟨?_, ?_⟩
        · simp only [g0, List.length_append, Xt.told]; omega
        · simp only [List.append_nil] at k2 ⊢
          simp only [g0, Xt.told, List.drop_append_of_le_length k1, k2, List.append_assoc]
      · simp only [hr, if_false, Bool.false_eq_true] at he ⊢
        obtain ⟨k1, k2⟩ := ht.async x hm e he
        refine ⟨?_, ?_⟩
        · simp only [g0, List.length_append]; omega
        · rw [g0, List.drop_append_of_le_length k1, ← List.append_assoc, k2, List.append_assoc]
  · intro tid he b hb ht b' hb'
    subst he
    obtain ⟨b0, hb0, _, g1, g2, g3⟩ := work_next hi h
    rw [hb] at hb0; cases hb0
    simp only [g2, if_true, Option.some.injEq] at hb'
    subst hb'
    refine ⟨ht.on, ?_, ?_⟩
    · intro x hm e he
      simp only at hm
      have : x ∉ b.async := fun h => hi.not_sync hb h hm
      rw [g3, if_neg this] at he
      exact ht.sync x hm e he
    · intro x hm e he
      simp only at hm
      rw [g3, if_pos hm] at he
      simp only [Option.map_eq_some_iff] at he
      obtain ⟨e0, he0, rfl⟩ := he
      obtain ⟨k1, k2⟩ := ht.async x hm e0 he0
      exact ⟨k1, by simpa [Xt.told] using k2⟩

theorem deaf_step {w w' : World} {e : Event} (hi : Inv w) (h : step w e = .next w')
    (hq : ∀ i b, w.tabs.get? i = some b → Deaf w b) : ∀ i b, w'.tabs.get? i = some b → Deaf w' b := by
  refine all_step deaf_stable hi h hq ?_ ?_ ?_ ?_ ?_ ?_
  · intro w' t lim xs hx _ x hm; cases hm
  · intro w' b _ x hm; cases hm
  · intro tid b he hb hw ht hx b' hb' hh x hm
    subst he
    obtain ⟨b0, hb0, _, rfl⟩ := enableWorker_next h
    rw [hb] at hb0; cases hb0
    simp only [AMap.get?_insert_self, Option.some.injEq] at hb'
    subst hb'
    simp only at hh hm
    generalize b.async ++ b.sync.filter (fun x => w.canAsync x) = l at hh hm
    cases l with
    | nil => cases hm
    | cons => simp at hh
  · intro tid x he b hb ht b' hb' hh y hm e' he'
    subst he
    obtain ⟨b0, e, hb0, he, ho, _, rfl⟩ := addExtension_next h
    rw [hb] at hb0; cases hb0
    simp only [AMap.get?_insert_self, Option.some.injEq] at hb'
    simp only [AMap.get?_insert] at he'
    by_cases hy : y = x
    · simp only [hy, if_true, Option.some.injEq] at he'
      subst he'
      exact ⟨[], by simp [Xt.registered], by simp⟩
    · rw [if_neg hy] at he'
      split at hb'
      · subst hb'
        simp only [List.mem_append, List.mem_singleton, hy, or_false] at hm
        exact ht hh y hm e' he'
      · subst hb'
        exact ht hh y hm e' he'
  · intro tid op he b hb ht b' hb' hh x hm e he'
    subst he
    obtain ⟨b0, news, hb0, g0, _, g1, g2, g3⟩ := operate_next hi h
    rw [hb] at hb0; cases hb0
    simp only [g2, if_true, Option.some.injEq] at hb'
    subst hb'
    simp only at hh hm
    have hns := hi.not_sync hb hm
    simp only [g3, hm, hns, false_or, and_true] at he'
    by_cases hr : isReset op = true
    · simp only [hr, if_true, Option.map_eq_some_iff] at he'
      obtain ⟨e0, he0, rfl⟩ := he'
      obtain ⟨k, k1, k2⟩ := ht hh x hm e0 he0
      have hop := isReset_iff.mp hr
      subst hop
      have hn : news = [.reset] := by
        simp only [Table.step, Table.reset] at g0
        exact (List.append_cancel_left g0).symm
      refine ⟨k ++ news, by simp [Xt.told, k1], ?_⟩
      intro r hm
      rcases List.mem_append.mp hm with h | h
      · exact k2 r h
      · rw [hn] at h
        exact .inl (by simpa using h)
    · simp only [hr, if_false, Bool.false_eq_true] at he'
      exact ht hh x hm e he'
  · intro tid he b hb ht b' hb' hh x hm e he'
    subst he
    obtain ⟨b0, hb0, _, g1, g2, g3⟩ := work_next hi h
    rw [hb] at hb0; cases hb0
    simp only [g2, if_true, Option.some.injEq] at hb'
    subst hb'
    simp only at hh hm
    rw [g3, if_pos hm] at he'
    simp only [Option.map_eq_some_iff] at he'
    obtain ⟨e0, he0, rfl⟩ := he'
    obtain ⟨k, k1, k2⟩ := ht hh x hm e0 he0
    refine ⟨k ++ b.reqs, by simp [Xt.told, k1], ?_⟩
    intro r hm
    rcases List.mem_append.mp hm with h | h
    · exact k2 r h
    · exact .inr (hi.wired tid b hb hh r h)

theorem Path.told {w w' : World} (h : Path NotLate w w') (hi : Inv w) (hq : ∀ i b, w.tabs.get? i = some b → Told w b) :
    ∀ i b, w'.tabs.get? i = some b → Told w' b := by
  induction h with
  | refl => exact hq
  | step hp hl hs ih => exact told_step (hp.inv hi) hs hl ih

theorem Path.deaf {P : World → Event → Prop} {w w' : World} (h : Path P w w') (hi : Inv w) (hq : ∀ i b, w.tabs.get? i = some b → Deaf w b) :
    ∀ i b, w'.tabs.get? i = some b → Deaf w' b := by
  induction h with
  | refl => exact hq
  | step hp hl hs ih => exact deaf_step (hp.inv hi) hs ih

theorem Path.mono {P Q : World → Event → Prop} (hpq : ∀ w e, P w e → Q w e) {w w' : World} (h : Path P w w') : Path Q w w' := by
  induction h with
  | refl => exact .refl
  | step _ hl hs ih => exact .step ih (hpq _ _ hl) hs

theorem ReachableInTime.reachable {w : World} (h : ReachableInTime w) : Reachable w := by
  obtain ⟨lims, exts, hp⟩ := h
  exact ⟨lims, exts, hp.mono fun _ _ _ => trivial⟩

theorem Path.of_run {w w' : World} {es : List Event} : ∀ {w0}, Path (fun _ _ => True) w0 w → run w es = some w' → Path (fun _ _ => True) w0 w' := by
  induction es generalizing w with
  | nil => intro w0 hp h; cases h; exact hp
  | cons e es ih =>
    intro w0 hp h
    simp only [run] at h
    split at h
    · rename_i w1 h1
      exact ih (.step hp trivial h1) h
    · cases h

end Verif.Wiring
