import Verif.Proofs.ObjectsFrame
import Verif.Spec.Objects
/-
Invariants of all programs that make tables and servers.
-/
namespace Verif
namespace World
open View (Tame Frame upd_self upd_ne)

/-- What holds in every state of every program. -/
structure Base (w : World) : Prop where
  bound : ∀ (t : Nat) (o : TabObj), w.tab t = some o → t < w.numTabs
  own : ∀ (t : Nat) (o : TabObj), w.tab t = some o → w.owner o.limiter = some t
  reg : ∀ (l : LimId) (t : Nat), w.owner l = some t → ∃ o : TabObj, w.tab t = some o ∧ o.limiter = l
  selOwn : ∀ (t : Nat) (o : TabObj), w.tab t = some o → ∀ (t' : Nat) (b : Bool), o.sampler = .own t' b ∨ o.remover = .own t' b → t' = t
  selPy : ∀ (t : Nat) (o : TabObj), w.tab t = some o → ∀ n : Nat, o.sampler = .py n ∨ o.remover = .py n → n < w.numSels
  limOwn : ∀ (t : Nat) (o : TabObj), w.tab t = some o → ∀ t' : Nat, o.limiter = .own t' → t' = t
  limPy : ∀ (t : Nat) (o : TabObj), w.tab t = some o → ∀ n : Nat, o.limiter = .py n → n < w.numLims
  hosts : ∀ (s : Nat) (l : List (String × Nat)), w.servers[s]? = some (some l) → ∀ x ∈ l, ∃ o : TabObj, w.tab x.2 = some o ∧ o.name = x.1

theorem base_init : Base init := by
  constructor <;> intros <;> simp_all [init]

theorem tab_of_view {w : World} {t : Nat} {v : View} (h : w.view t = some v) : w.tab t = some v.t ∧ v.objs = w.objs := by
  unfold view at h
  cases ht : w.tab t with
  | none => simp [ht] at h
  | some o =>
    simp only [ht, Option.map_some, Option.some.injEq] at h
    subst h
    exact ⟨rfl, rfl⟩

theorem view_of_tab {w : World} {t : Nat} {o : TabObj} (h : w.tab t = some o) : w.view t = some ⟨w.objs, o⟩ := by simp [view, h]

theorem table_of_tab {w : World} {t : Nat} {o : TabObj} (h : w.tab t = some o) : w.table t = some (View.table ⟨w.objs, o⟩) := by
  simp [table, view, h]

theorem tab_of_table {w : World} {t : Nat} {T : Table} (h : w.table t = some T) : ∃ o, w.tab t = some o ∧ T = View.table ⟨w.objs, o⟩ := by
  unfold table view at h
  cases ht : w.tab t with
  | none => simp [ht] at h
  | some o =>
    simp only [ht, Option.map_some, Option.some.injEq] at h
    exact ⟨o, rfl, h.symm⟩

theorem put_tab {w : World} {t : Nat} {v : View} (t' : Nat) : (w.put t v).tab t' = if t' = t then some v.t else w.tab t' := rfl

theorem Base.put {w : World} (h : Base w) {t : Nat} {v v' : View} (hv : w.view t = some v) (hf : Tame v v') : Base (w.put t v') := by
  obtain ⟨ht, -⟩ := tab_of_view hv
  have f := hf.1
  have key : ∀ (t' : Nat) (o : TabObj), (w.put t v').tab t' = some o → ∃ o' : TabObj, w.tab t' = some o' ∧ o.limiter = o'.limiter ∧
      o.sampler = o'.sampler ∧ o.remover = o'.remover ∧ o.name = o'.name := by
    intro t' o ho
    rw [put_tab] at ho
    split at ho
    · rename_i e
      subst e
      obtain rfl := Option.some.inj ho
      exact ⟨v.t, ht, f.limiter, f.sampler, f.remover, f.name⟩
    · exact ⟨o, ho, rfl, rfl, rfl, rfl⟩
  have key2 : ∀ (t' : Nat) (o : TabObj), w.tab t' = some o → ∃ o' : TabObj, (w.put t v').tab t' = some o' ∧ o'.limiter = o.limiter ∧ o'.name = o.name := by
    intro t' o ho
    rw [put_tab]
    split
    · rename_i e
      subst e
      rw [ht] at ho
      obtain rfl := Option.some.inj ho
      exact ⟨_, rfl, f.limiter, f.name⟩
    · exact ⟨o, ho, rfl, rfl⟩
  constructor
  · intro t' o ho
    obtain ⟨o', h1, _⟩ := key t' o ho
    exact h.bound t' o' h1
  · intro t' o ho
    obtain ⟨o', h1, h2, _⟩ := key t' o ho
    rw [h2]; exact h.own t' o' h1
  · intro l t' hl
    obtain ⟨o, h1, h2⟩ := h.reg l t' hl
    obtain ⟨o', h3, h4, _⟩ := key2 t' o h1
    exact ⟨o', h3, h4.trans h2⟩
  · intro t' o ho t'' b hb
    obtain ⟨o', h1, h2, h3, h4, _⟩ := key t' o ho
    rw [h3, h4] at hb
    exact h.selOwn t' o' h1 t'' b hb
  · intro t' o ho n hb
    obtain ⟨o', h1, h2, h3, h4, _⟩ := key t' o ho
    rw [h3, h4] at hb
    exact h.selPy t' o' h1 n hb
  · intro t' o ho n hb
    obtain ⟨o', h1, h2, _⟩ := key t' o ho
    rw [h2] at hb
    exact h.limOwn t' o' h1 n hb
  · intro t' o ho n hb
    obtain ⟨o', h1, h2, _⟩ := key t' o ho
    rw [h2] at hb
    exact h.limPy t' o' h1 n hb
  · intro s l hl x hx
    obtain ⟨o, h1, h2⟩ := h.hosts s l hl x hx
    obtain ⟨o', h3, _, h5⟩ := key2 x.2 o h1
    exact ⟨o', h3, h5.trans h2⟩

/-- Two live tables have different limiters. -/
theorem Base.limiters_ne {w : World} (h : Base w) {t t' : Nat} {o o' : TabObj} (ho : w.tab t = some o) (ho' : w.tab t' = some o') (hne : t ≠ t') :
    o.limiter ≠ o'.limiter := by
  intro e
  have h1 := h.own t o ho
  rw [e, h.own t' o' ho'] at h1
  exact hne (Option.some.inj h1).symm

theorem not_hosted {w : World} {t : Nat} (h : w.hosted t = false) {s : Nat} {l : List (String × Nat)} (hs : w.servers[s]? = some (some l)) :
    ∀ x ∈ l, x.2 ≠ t := by
  intro x hx e
  have : w.hosted t = true := by
    unfold hosted
    rw [List.any_eq_true]
    refine ⟨some l, List.mem_of_getElem? hs, ?_⟩
    simp only [Option.any_some, List.any_eq_true]
    exact ⟨x, hx, by simp [e]⟩
  rw [h] at this
  cases this

/-- What the destruction of a table changes. -/
theorem destroy_eq {w : World} {t : Nat} {o : TabObj} (h : w.tab t = some o) :
    w.destroy t = { w with
      objs := { w.objs with lim := upd w.objs.lim o.limiter (w.objs.lim o.limiter).cancel.reset }
      owner := upd w.owner o.limiter none
      tab := upd w.tab t none } := by
  unfold destroy
  rw [view_of_tab h]
  simp only [View.close, View.setLimiter, View.limiter, upd_self]
  congr 2
  funext l
  unfold upd
  split <;> rfl

theorem Base.destroy {w : World} (h : Base w) {t : Nat} (hh : w.hosted t = false) : Base (w.destroy t) := by
  cases ht : w.tab t with
  | none =>
    have : w.destroy t = w := by unfold World.destroy; simp [view, ht]
    rw [this]; exact h
  | some o =>
    rw [destroy_eq ht]
    have key : ∀ (t' : Nat) (o' : TabObj), upd w.tab t none t' = some o' → t' ≠ t ∧ w.tab t' = some o' := by
      intro t' o' ho
      unfold upd at ho
      split at ho
      · cases ho
      · exact ⟨by assumption, ho⟩
    constructor
    · intro t' o' ho; exact h.bound t' o' (key t' o' ho).2
    · intro t' o' ho
      obtain ⟨hne, h1⟩ := key t' o' ho
      show upd w.owner o.limiter none o'.limiter = some t'
      rw [upd_ne _ _ (h.limiters_ne h1 ht hne)]
      exact h.own t' o' h1
    · intro l t' hl
      have hl' : upd w.owner o.limiter none l = some t' := hl
      unfold upd at hl'
      split at hl'
      · cases hl'
      · rename_i hne
        obtain ⟨o', h1, h2⟩ := h.reg l t' hl'
        refine ⟨o', ?_, h2⟩
        show upd w.tab t none t' = some o'
        rw [upd_ne _ _ ?_]
        · exact h1
        · intro e
          subst e
          rw [ht] at h1
          obtain rfl := Option.some.inj h1
          exact hne h2.symm
    · intro t' o' ho; exact h.selOwn t' o' (key t' o' ho).2
    · intro t' o' ho; exact h.selPy t' o' (key t' o' ho).2
    · intro t' o' ho; exact h.limOwn t' o' (key t' o' ho).2
    · intro t' o' ho; exact h.limPy t' o' (key t' o' ho).2
    · intro s l hl x hx
      obtain ⟨o', h1, h2⟩ := h.hosts s l hl x hx
      refine ⟨o', ?_, h2⟩
      show upd w.tab t none x.2 = some o'
      rw [upd_ne _ _ (not_hosted hh hl x hx)]
      exact h1

theorem destroy_servers (w : World) (t : Nat) : (w.destroy t).servers = w.servers := by
  unfold destroy; split <;> rfl

/-- Induction over the destruction of tables. -/
theorem collect_induct (P : World → Prop) (ts : List Nat)
    (hstep : ∀ (w : World) (t : Nat) (o : TabObj), P w → w.tab t = some o → o.held = false → w.hosted t = false → P (w.destroy t)) :
    ∀ w : World, P w → P (w.collect ts) := by
  induction ts with
  | nil => intro w h; exact h
  | cons t ts ih =>
    intro w h
    unfold collect
    split
    · rename_i o ho
      split
      · rename_i hc
        simp only [Bool.and_eq_true, Bool.not_eq_true'] at hc
        exact ih _ (hstep w t o h ho hc.1 hc.2)
      · exact ih w h
    · exact ih w h

theorem Base.collect {w : World} (h : Base w) (ts : List Nat) : Base (w.collect ts) :=
  collect_induct Base ts (fun _ _ _ hb _ _ hh => hb.destroy hh) w h

/-- Induction over the closing of tables. -/
theorem closeAll_induct (P : World → Prop) (l : List (String × Nat))
    (hstep : ∀ (w : World) (t : Nat) (v : View), P w → w.view t = some v → P (w.put t v.close)) : ∀ w : World, P w → P (w.closeAll l) := by
  induction l with
  | nil => intro w h; exact h
  | cons x l ih =>
    intro w h
    obtain ⟨n, t⟩ := x
    unfold closeAll
    split
    · rename_i v hv
      exact ih _ (hstep w t v h hv)
    · exact ih w h

theorem Base.closeAll {w : World} (h : Base w) (l : List (String × Nat)) : Base (w.closeAll l) :=
  closeAll_induct Base l (fun _ _ _ hb hv => hb.put hv (View.close_tame _)) w h

theorem Base.adopt {w : World} (h : Base w) (name : String) (b : Table) : Base (w.adopt name b).1 := by
  have hnew : w.tab w.numTabs = none := by
    cases ht : w.tab w.numTabs with
    | none => rfl
    | some o => have := h.bound _ o ht; omega
  generalize hO : (⟨name, b.maxSize, b.maxTimesSampled, .own w.numTabs false, .own w.numTabs true, .own w.numTabs, b.data, b.episodeRefs,
    b.numDeletedEpisodes, b.numUniqueSamples, b.log, false⟩ : TabObj) = O
  have e1 : (w.adopt name b).1.tab = upd w.tab w.numTabs (some O) := by rw [← hO]; rfl
  have e2 : (w.adopt name b).1.owner = upd w.owner (.own w.numTabs) (some w.numTabs) := rfl
  have key : ∀ (t' : Nat) (o' : TabObj), upd w.tab w.numTabs (some O) t' = some o' → (t' = w.numTabs ∧ o' = O) ∨ (t' ≠ w.numTabs ∧ w.tab t' = some o') := by
    intro t' o' ho
    unfold upd at ho
    split at ho
    · exact .inl ⟨by assumption, (Option.some.inj ho).symm⟩
    · exact .inr ⟨by assumption, ho⟩
  constructor
  · intro t' o' ho
    rw [e1] at ho
    show t' < w.numTabs + 1
    rcases key t' o' ho with ⟨h1, -⟩ | ⟨_, h1⟩
    · omega
    · have := h.bound t' o' h1; omega
  · intro t' o' ho
    rw [e1] at ho
    rw [e2]
    rcases key t' o' ho with ⟨h1, h2⟩ | ⟨hne, h1⟩
    · subst h2 h1
      rw [← hO]; exact upd_self _ _ _
    · rw [upd_ne _ _ ?_]
      · exact h.own t' o' h1
      · intro e
        exact hne (h.limOwn t' o' h1 _ e).symm
  · intro l t' hl
    rw [e2] at hl
    rw [e1]
    unfold upd at hl
    split at hl
    · rename_i e
      obtain rfl := Option.some.inj hl
      exact ⟨O, upd_self _ _ _, by rw [← hO, e]⟩
    · obtain ⟨o', h1, h2⟩ := h.reg l t' hl
      refine ⟨o', ?_, h2⟩
      rw [upd_ne _ _ ?_]
      · exact h1
      · intro e
        rw [e, hnew] at h1
        cases h1
  · intro t' o' ho t'' bb hb
    rw [e1] at ho
    rcases key t' o' ho with ⟨h1, h2⟩ | ⟨hne, h1⟩
    · subst h2 h1
      rw [← hO] at hb
      simp only [SelId.own.injEq] at hb
      rcases hb with hb | hb <;> exact hb.1.symm
    · exact h.selOwn t' o' h1 t'' bb hb
  · intro t' o' ho n hb
    rw [e1] at ho
    rcases key t' o' ho with ⟨h1, h2⟩ | ⟨hne, h1⟩
    · subst h2 h1
      rw [← hO] at hb
      simp at hb
    · exact h.selPy t' o' h1 n hb
  · intro t' o' ho n hb
    rw [e1] at ho
    rcases key t' o' ho with ⟨h1, h2⟩ | ⟨hne, h1⟩
    · subst h2 h1
      rw [← hO] at hb
      simp only [LimId.own.injEq] at hb
      exact hb.symm
    · exact h.limOwn t' o' h1 n hb
  · intro t' o' ho n hb
    rw [e1] at ho
    rcases key t' o' ho with ⟨h1, h2⟩ | ⟨hne, h1⟩
    · subst h2 h1
      rw [← hO] at hb
      simp at hb
    · exact h.limPy t' o' h1 n hb
  · intro s l hl x hx
    obtain ⟨o', h1, h2⟩ := h.hosts s l hl x hx
    refine ⟨o', ?_, h2⟩
    rw [e1, upd_ne _ _ ?_]
    · exact h1
    · intro e
      rw [e, hnew] at h1
      cases h1

/-- Induction over the restoring of tables; `Q` is about the vector `tables`. -/
theorem load_induct (chunks : List ChunkRef) (Q : World → List (String × Nat) → Prop)
    (hstep : ∀ (w : World) (l : List (String × Nat)) (i : Nat) (name : String) (c : Checkpoint) (b : Table), Q w l → restore c chunks = .ok b →
      (l.findIdx? fun x => x.1 = name) = some i → Q (w.adopt name b).1 (l.set i (name, (w.adopt name b).2))) (records : List (String × Checkpoint)) :
    ∀ (w : World) (l : List (String × Nat)) (w' : World) (l' : List (String × Nat)), Q w l → load chunks w l records = .ok (w', l') → Q w' l' := by
  induction records with
  | nil =>
    intro w l w' l' h hl
    simp only [load, Res.ok.injEq, Prod.mk.injEq] at hl
    obtain ⟨rfl, rfl⟩ := hl
    exact h
  | cons x records ih =>
    intro w l w' l' h hl
    obtain ⟨name, c⟩ := x
    unfold load at hl
    split at hl
    · cases hl
    · rename_i i hi
      split at hl
      · rename_i b hb
        exact ih _ _ _ _ (hstep w l i name c b h hb hi) hl
      · cases hl
      · cases hl

/-- The vector `tables` consists of live tables with their names. -/
def Named (w : World) (l : List (String × Nat)) : Prop := ∀ x ∈ l, ∃ o : TabObj, w.tab x.2 = some o ∧ o.name = x.1

theorem adopt_tab_new (w : World) (name : String) (b : Table) : ∃ o : TabObj, (w.adopt name b).1.tab (w.adopt name b).2 = some o ∧ o.name = name :=
  ⟨_, upd_self _ _ _, rfl⟩

theorem Named.adopt {w : World} (h : Base w) {l : List (String × Nat)} (hl : Named w l) (i : Nat) (name : String) (b : Table) :
    Named (w.adopt name b).1 (l.set i (name, (w.adopt name b).2)) := by
  intro x hx
  rcases List.mem_or_eq_of_mem_set hx with hx | rfl
  · obtain ⟨o, h1, h2⟩ := hl x hx
    refine ⟨o, ?_, h2⟩
    show upd w.tab w.numTabs _ x.2 = some o
    rw [upd_ne _ _ ?_]
    · exact h1
    · have := h.bound _ o h1; omega
  · exact adopt_tab_new w name b

theorem named_names {w : World} {ts : List Nat} {l : List (String × Nat)} (h : w.names ts = some l) : Named w l := by
  induction ts generalizing l with
  | nil =>
    simp only [names, Option.some.injEq] at h
    subst h
    intro x hx
    cases hx
  | cons t ts ih =>
    unfold names at h
    split at h
    · rename_i o l' ho hl'
      split at h
      · obtain rfl := Option.some.inj h
        intro x hx
        rcases List.mem_cons.mp hx with rfl | hx
        · exact ⟨o, ho, rfl⟩
        · exact ih hl' x hx
      · cases h
    · cases h

theorem Base.addServer {w : World} (h : Base w) {l : List (String × Nat)} (hl : Named w l) : Base { w with servers := w.servers ++ [some l] } := by
  refine ⟨h.bound, h.own, h.reg, h.selOwn, h.selPy, h.limOwn, h.limPy, ?_⟩
  intro s l' hs
  simp only [List.getElem?_append] at hs
  split at hs
  · exact h.hosts s l' hs
  · rw [List.getElem?_singleton] at hs
    split at hs
    · obtain rfl := Option.some.inj (Option.some.inj hs)
      exact hl
    · cases hs

/-- A table that nobody refers to is gone once tables have been collected; the others are what they were. -/
theorem collect_servers (ts : List Nat) (w : World) : (w.collect ts).servers = w.servers :=
  collect_induct (fun w' => w'.servers = w.servers) ts (fun w' t _ hp _ _ _ => by rw [destroy_servers]; exact hp) w rfl

theorem Base.unheld {w : World} (h : Base w) {t : Nat} {o : TabObj} (ho : w.tab t = some o) :
    Base { w with tab := upd w.tab t (some { o with held := false }) } := by
  have key : ∀ (t' : Nat) (o' : TabObj), upd w.tab t (some { o with held := false }) t' = some o' →
      ∃ o'' : TabObj, w.tab t' = some o'' ∧ o'.limiter = o''.limiter ∧ o'.sampler = o''.sampler ∧ o'.remover = o''.remover := by
    intro t' o' ho'
    unfold upd at ho'
    split at ho'
    · rename_i e
      subst e
      obtain rfl := Option.some.inj ho'
      exact ⟨o, ho, rfl, rfl, rfl⟩
    · exact ⟨o', ho', rfl, rfl, rfl⟩
  have key2 : ∀ (t' : Nat) (o' : TabObj), w.tab t' = some o' →
      ∃ o'' : TabObj, upd w.tab t (some { o with held := false }) t' = some o'' ∧ o''.limiter = o'.limiter ∧ o''.name = o'.name := by
    intro t' o' ho'
    unfold upd
    split
    · rename_i e
      subst e
      rw [ho] at ho'
      obtain rfl := Option.some.inj ho'
      exact ⟨_, rfl, rfl, rfl⟩
    · exact ⟨o', ho', rfl, rfl⟩
  constructor
  · intro t' o' ho'
    obtain ⟨x, h1, _⟩ := key t' o' ho'
    exact h.bound t' x h1
  · intro t' o' ho'
    obtain ⟨x, h1, h2, _⟩ := key t' o' ho'
    show w.owner o'.limiter = some t'
    rw [h2]; exact h.own t' x h1
  · intro l t' hl
    obtain ⟨x, h1, h2⟩ := h.reg l t' hl
    obtain ⟨y, h3, h4, _⟩ := key2 t' x h1
    exact ⟨y, h3, h4.trans h2⟩
  · intro t' o' ho' t'' b hb
    obtain ⟨x, h1, h2, h3, h4⟩ := key t' o' ho'
    rw [h3, h4] at hb
    exact h.selOwn t' x h1 t'' b hb
  · intro t' o' ho' n hb
    obtain ⟨x, h1, h2, h3, h4⟩ := key t' o' ho'
    rw [h3, h4] at hb
    exact h.selPy t' x h1 n hb
  · intro t' o' ho' n hb
    obtain ⟨x, h1, h2, _⟩ := key t' o' ho'
    rw [h2] at hb
    exact h.limOwn t' x h1 n hb
  · intro t' o' ho' n hb
    obtain ⟨x, h1, h2, _⟩ := key t' o' ho'
    rw [h2] at hb
    exact h.limPy t' x h1 n hb
  · intro s l hl x hx
    obtain ⟨y, h1, h2⟩ := h.hosts s l hl x hx
    obtain ⟨z, h3, _, h5⟩ := key2 x.2 y h1
    exact ⟨z, h3, h5.trans h2⟩

theorem Base.dropServer {w : World} (h : Base w) (i : Nat) : Base { w with servers := w.servers.set i none } := by
  refine ⟨h.bound, h.own, h.reg, h.selOwn, h.selPy, h.limOwn, h.limPy, ?_⟩
  intro j l' hj
  have hj' : (w.servers.set i none)[j]? = some (some l') := hj
  rw [List.getElem?_set] at hj'
  split at hj'
  · split at hj' <;> simp at hj'
  · exact h.hosts j l' hj'

/-- Every statement keeps the invariants. -/
theorem Base.step {w : World} (h : Base w) {s : Stmt} {w' : World} {r : PyRes Out} (hs : w.step s = some (w', r)) : Base w' := by
  cases s with
  | selector k =>
    simp only [World.step, Option.some.injEq, Prod.mk.injEq] at hs
    obtain ⟨rfl, -⟩ := hs
    exact ⟨h.bound, h.own, h.reg, h.selOwn, fun t o ho n hb => Nat.lt_succ_of_lt (h.selPy t o ho n hb), h.limOwn, h.limPy, h.hosts⟩
  | limiter spi m lo hi =>
    simp only [World.step] at hs
    split at hs
    · simp only [Option.some.injEq, Prod.mk.injEq] at hs
      obtain ⟨rfl, -⟩ := hs
      exact ⟨h.bound, h.own, h.reg, h.selOwn, h.selPy, h.limOwn, fun t o ho n hb => Nat.lt_succ_of_lt (h.limPy t o ho n hb), h.hosts⟩
    · simp only [Option.some.injEq, Prod.mk.injEq] at hs
      obtain ⟨rfl, -⟩ := hs
      exact h
  | table a =>
    simp only [World.step, makeTable] at hs
    split at hs
    · rename_i hex
      split at hs
      · simp only [Option.some.injEq, Prod.mk.injEq] at hs
        obtain ⟨rfl, -⟩ := hs
        exact h
      · split at hs
        · simp only [Option.some.injEq, Prod.mk.injEq] at hs
          obtain ⟨rfl, -⟩ := hs
          exact h
        · split at hs
          · simp only [Option.some.injEq, Prod.mk.injEq] at hs
            obtain ⟨rfl, -⟩ := hs
            exact h
          · rename_i hfree
            simp only [Option.some.injEq, Prod.mk.injEq] at hs
            obtain ⟨rfl, -⟩ := hs
            have hnew : w.tab w.numTabs = none := by
              cases ht : w.tab w.numTabs with
              | none => rfl
              | some o => have := h.bound _ o ht; omega
            generalize hO : (⟨a.name, a.maxSize.toNat, a.maxTimesSampled, .py a.sampler, .py a.remover, .py a.limiter, AMap.empty,
              AMap.empty, 0, 0, [], true⟩ : TabObj) = O
            have key : ∀ (t' : Nat) (o' : TabObj), upd w.tab w.numTabs (some O) t' = some o' →
                (t' = w.numTabs ∧ o' = O) ∨ (t' ≠ w.numTabs ∧ w.tab t' = some o') := by
              intro t' o' ho
              unfold upd at ho
              split at ho
              · exact .inl ⟨by assumption, (Option.some.inj ho).symm⟩
              · exact .inr ⟨by assumption, ho⟩
            constructor
            · intro t' o' ho
              show t' < w.numTabs + 1
              rcases key t' o' ho with ⟨h1, -⟩ | ⟨_, h1⟩
              · omega
              · have := h.bound t' o' h1; omega
            · intro t' o' ho
              show upd w.owner (.py a.limiter) (some w.numTabs) o'.limiter = some t'
              rcases key t' o' ho with ⟨h1, h2⟩ | ⟨hne, h1⟩
              · subst h2 h1
                rw [← hO]; exact upd_self _ _ _
              · have := h.own t' o' h1
                rw [upd_ne _ _ ?_]
                · exact this
                · intro e
                  rw [e, hfree] at this
                  cases this
            · intro l t' hl
              have hl' : upd w.owner (.py a.limiter) (some w.numTabs) l = some t' := hl
              unfold upd at hl'
              split at hl'
              · rename_i e
                obtain rfl := Option.some.inj hl'
                exact ⟨O, upd_self _ _ _, by rw [← hO, e]⟩
              · obtain ⟨o', h1, h2⟩ := h.reg l t' hl'
                refine ⟨o', ?_, h2⟩
                show upd w.tab w.numTabs (some O) t' = some o'
                rw [upd_ne _ _ ?_]
                · exact h1
                · intro e
                  rw [e, hnew] at h1
                  cases h1
            · intro t' o' ho t'' bb hb
              rcases key t' o' ho with ⟨h1, h2⟩ | ⟨hne, h1⟩
              · subst h2 h1
                rw [← hO] at hb
                simp at hb
              · exact h.selOwn t' o' h1 t'' bb hb
            · intro t' o' ho n hb
              rcases key t' o' ho with ⟨h1, h2⟩ | ⟨hne, h1⟩
              · subst h2 h1
                rw [← hO] at hb
                simp only [SelId.py.injEq] at hb
                show n < w.numSels
                rcases hb with hb | hb <;> omega
              · exact h.selPy t' o' h1 n hb
            · intro t' o' ho n hb
              rcases key t' o' ho with ⟨h1, h2⟩ | ⟨hne, h1⟩
              · subst h2 h1
                rw [← hO] at hb
                simp at hb
              · exact h.limOwn t' o' h1 n hb
            · intro t' o' ho n hb
              rcases key t' o' ho with ⟨h1, h2⟩ | ⟨hne, h1⟩
              · subst h2 h1
                rw [← hO] at hb
                simp only [LimId.py.injEq] at hb
                show n < w.numLims
                omega
              · exact h.limPy t' o' h1 n hb
            · intro s l hl x hx
              obtain ⟨o', h1, h2⟩ := h.hosts s l hl x hx
              refine ⟨o', ?_, h2⟩
              show upd w.tab w.numTabs (some O) x.2 = some o'
              rw [upd_ne _ _ ?_]
              · exact h1
              · intro e
                rw [e, hnew] at h1
                cases h1
    · cases hs
  | forget t =>
    simp only [World.step] at hs
    split at hs
    · cases hs
    · rename_i o ho
      split at hs
      · simp only [Option.some.injEq, Prod.mk.injEq] at hs
        obtain ⟨rfl, -⟩ := hs
        apply Base.collect
        exact h.unheld ho
      · cases hs
  | server ts found =>
    simp only [World.step, makeServer] at hs
    split at hs
    · cases hs
    · rename_i l hl
      have hn := named_names hl
      split at hs
      · simp only [Option.some.injEq, Prod.mk.injEq] at hs
        obtain ⟨rfl, -⟩ := hs
        exact h
      · split at hs
        · simp only [Option.some.injEq, Prod.mk.injEq] at hs
          obtain ⟨rfl, -⟩ := hs
          exact h
        · split at hs
          · simp only [Option.some.injEq, Prod.mk.injEq] at hs
            obtain ⟨rfl, -⟩ := hs
            exact h.addServer hn
          · rename_i sv
            split at hs
            · rename_i w1 l1 hld
              simp only [Option.some.injEq, Prod.mk.injEq] at hs
              obtain ⟨rfl, -⟩ := hs
              have := load_induct sv.chunks (fun w l => Base w ∧ Named w l)
                (fun w l i name c b hq _ _ => ⟨hq.1.adopt name b, hq.2.adopt hq.1 i name b⟩) sv.tables w l w1 l1 ⟨h, hn⟩ hld
              exact (this.1.addServer this.2).collect _
            · simp only [Option.some.injEq, Prod.mk.injEq] at hs
              obtain ⟨rfl, -⟩ := hs
              exact h
            · simp only [Option.some.injEq, Prod.mk.injEq] at hs
              obtain ⟨rfl, -⟩ := hs
              exact h
  | stop i =>
    simp only [World.step] at hs
    split at hs
    · simp only [Option.some.injEq, Prod.mk.injEq] at hs
      obtain ⟨rfl, -⟩ := hs
      exact h.closeAll _
    · cases hs
  | delete i =>
    simp only [World.step] at hs
    split at hs
    · rename_i l hl
      simp only [Option.some.injEq, Prod.mk.injEq] at hs
      obtain ⟨rfl, -⟩ := hs
      apply Base.collect
      exact (h.closeAll l).dropServer i
    · cases hs
  | use t op =>
    simp only [World.step] at hs
    split at hs
    · cases hs
    · rename_i v hv
      split at hs <;>
      · simp only [Option.some.injEq, Prod.mk.injEq] at hs
        obtain ⟨rfl, -⟩ := hs
        exact h.put hv (View.step_tame v op)

/-- Induction over programs. -/
theorem run_induct (P : World → Prop) (hstep : ∀ (w : World) (s : Stmt) (w' : World) (r : PyRes Out), P w → w.step s = some (w', r) → r ≠ .died → P w')
    (ss : List Stmt) : ∀ (w w' : World), P w → w.run ss = some w' → P w' := by
  induction ss with
  | nil =>
    intro w w' h hr
    simp only [run, Option.some.injEq] at hr
    subst hr
    exact h
  | cons s ss ih =>
    intro w w' h hr
    unfold run at hr
    split at hr
    · cases hr
    · cases hr
    · rename_i w1 r hd hs
      exact ih _ _ (hstep w s w1 r h hs (by intro e; subst e; exact hd rfl)) hr

theorem base_run {ss : List Stmt} {w : World} (h : init.run ss = some w) : Base w :=
  run_induct Base (fun _ _ _ _ hb hs _ => hb.step hs) ss init w base_init h

end World
end Verif
