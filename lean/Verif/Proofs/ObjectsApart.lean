import Verif.Proofs.ObjectsWorld
/-
Programs that hand every selector and every limiter to one table only: the tables are independent of each other.
-/
namespace Verif
namespace World
open View (Tame Frame Split upd_self upd_ne)

/-- No two tables have a selector in common, and no table has one selector twice. -/
structure Disjoint (w : World) : Prop where
  split : ∀ (t : Nat) (o : TabObj), w.tab t = some o → o.sampler ≠ o.remover
  disj : ∀ (t t' : Nat) (o o' : TabObj), w.tab t = some o → w.tab t' = some o' → t ≠ t' →
    o'.sampler ≠ o.sampler ∧ o'.sampler ≠ o.remover ∧ o'.remover ≠ o.sampler ∧ o'.remover ≠ o.remover

/-- A table looks the same if the objects it refers to are the same. -/
theorem table_congr {objs objs' : Objects} {o : TabObj} (h1 : objs'.sel o.sampler = objs.sel o.sampler) (h2 : objs'.sel o.remover = objs.sel o.remover)
    (h3 : objs'.lim o.limiter = objs.lim o.limiter) : View.table ⟨objs', o⟩ = View.table ⟨objs, o⟩ := by
  simp only [View.table, View.limiter, h1, h2, h3]

/-- A call on a table is not seen in the others. -/
theorem put_other {w : World} (hb : Base w) (hd : Disjoint w) {t t' : Nat} {v v' : View} (hv : w.view t = some v) (hf : Frame v v') (hne : t' ≠ t) :
    (w.put t v').table t' = w.table t' := by
  obtain ⟨ht, ho⟩ := tab_of_view hv
  have e : (w.put t v').tab t' = w.tab t' := by rw [put_tab, if_neg hne]
  cases hx : w.tab t' with
  | none => simp [World.table, World.view, e, hx]
  | some o =>
    rw [table_of_tab hx, table_of_tab (e.trans hx)]
    congr 1
    obtain ⟨h1, h2, h3, h4⟩ := hd.disj t t' v.t o ht hx (Ne.symm hne)
    have h5 := hb.limiters_ne hx ht hne
    apply table_congr
    · show v'.objs.sel o.sampler = _
      rw [hf.sels _ h1 h2, ho]
    · show v'.objs.sel o.remover = _
      rw [hf.sels _ h3 h4, ho]
    · show v'.objs.lim o.limiter = _
      rw [hf.lims _ h5, ho]

theorem put_self {w : World} {t : Nat} {v : View} : (w.put t v).table t = some v.table := by
  have : (w.put t v).tab t = some v.t := by rw [put_tab, if_pos rfl]
  rw [table_of_tab this]
  rfl

theorem Disjoint.put {w : World} (hd : Disjoint w) {t : Nat} {v v' : View} (hv : w.view t = some v) (f : Frame v v') : Disjoint (w.put t v') := by
  obtain ⟨ht, -⟩ := tab_of_view hv
  have key : ∀ (t' : Nat) (o : TabObj), (w.put t v').tab t' = some o → ∃ o' : TabObj, w.tab t' = some o' ∧ o.sampler = o'.sampler ∧ o.remover = o'.remover := by
    intro t' o ho
    rw [put_tab] at ho
    split at ho
    · rename_i e
      subst e
      obtain rfl := Option.some.inj ho
      exact ⟨v.t, ht, f.sampler, f.remover⟩
    · exact ⟨o, ho, rfl, rfl⟩
  constructor
  · intro t' o ho
    obtain ⟨o', h1, h2, h3⟩ := key t' o ho
    rw [h2, h3]; exact hd.split t' o' h1
  · intro t1 t2 o1 o2 h1 h2 hne
    obtain ⟨p1, a1, a2, a3⟩ := key t1 o1 h1
    obtain ⟨p2, b1, b2, b3⟩ := key t2 o2 h2
    rw [a2, a3, b2, b3]
    exact hd.disj t1 t2 p1 p2 a1 b1 hne

theorem table_some_view {w : World} {t : Nat} {T : Table} (h : w.table t = some T) : ∃ v, w.view t = some v ∧ v.table = T := by
  obtain ⟨o, h1, h2⟩ := tab_of_table h
  exact ⟨_, view_of_tab h1, h2.symm⟩

theorem destroy_other {w : World} (hb : Base w) {t t' : Nat} (hne : t' ≠ t) : (w.destroy t).table t' = w.table t' := by
  cases ht : w.tab t with
  | none =>
    have : w.destroy t = w := by unfold World.destroy; simp [view, ht]
    rw [this]
  | some o =>
    rw [destroy_eq ht]
    have e : upd w.tab t none t' = w.tab t' := upd_ne _ _ hne
    cases hx : w.tab t' with
    | none => simp only [World.table, World.view, e, hx]; rfl
    | some o' =>
      rw [table_of_tab hx]
      simp only [World.table, World.view, e, hx, Option.map_some]
      congr 1
      apply table_congr
      · rfl
      · rfl
      · exact upd_ne _ _ (hb.limiters_ne hx ht hne)

theorem destroy_self {w : World} {t : Nat} : (w.destroy t).table t = none := by
  cases ht : w.tab t with
  | none =>
    have : w.destroy t = w := by unfold World.destroy; simp [view, ht]
    rw [this]; simp [World.table, World.view, ht]
  | some o =>
    rw [destroy_eq ht]
    simp [World.table, World.view, upd_self]

theorem destroy_tab {w : World} {t t' : Nat} {o : TabObj} (h : (w.destroy t).tab t' = some o) : t' ≠ t ∧ w.tab t' = some o := by
  cases ht : w.tab t with
  | none =>
    have e : w.destroy t = w := by unfold World.destroy; simp [view, ht]
    rw [e] at h
    refine ⟨?_, h⟩
    intro e'
    subst e'
    rw [ht] at h
    cases h
  | some o' =>
    rw [destroy_eq ht] at h
    have h' : upd w.tab t none t' = some o := h
    unfold upd at h'
    split at h'
    · cases h'
    · exact ⟨by assumption, h'⟩

theorem Disjoint.destroy {w : World} (hd : Disjoint w) (t : Nat) : Disjoint (w.destroy t) := by
  constructor
  · intro t' o ho
    exact hd.split t' o (destroy_tab ho).2
  · intro t1 t2 o1 o2 h1 h2 hne
    exact hd.disj t1 t2 o1 o2 (destroy_tab h1).2 (destroy_tab h2).2 hne

/-- A limiter as it is made. -/
def NewLimiter (l : Limiter) : Prop := ∃ (spi : Rat) (m : Int) (lo hi : Rat), 0 < m ∧ l = ⟨spi, m, lo, hi, 0, 0, 0, false⟩

/-- What holds in the programs that use everything once: `us` and `ls` are the selectors and limiters handed over so far. -/
structure Apart (us ls : List Nat) (w : World) : Prop where
  base : Base w
  disjoint : Disjoint w
  used : ∀ (t : Nat) (o : TabObj), w.tab t = some o → ∀ n : Nat, o.sampler = .py n ∨ o.remover = .py n → n ∈ us
  usedL : ∀ (t : Nat) (o : TabObj), w.tab t = some o → ∀ n : Nat, o.limiter = .py n → n ∈ ls
  fresh : ∀ n : Nat, n < w.numSels → n ∉ us → ∃ k : SelKind, w.objs.sel (.py n) = k.make
  freshL : ∀ n : Nat, n < w.numLims → n ∉ ls → NewLimiter (w.objs.lim (.py n))
  story : ∀ (t : Nat) (T : Table), w.table t = some T → OwnHistory T

theorem apart_init : Apart [] [] init :=
  ⟨base_init, ⟨by intro t o h; simp [init] at h, by intro t t' o o' h; simp [init] at h⟩, by intro t o h; simp [init] at h,
   by intro t o h; simp [init] at h, by intro n h; simp [init] at h, by intro n h; simp [init] at h, by intro t T h; simp [init, table, view] at h⟩

theorem run_snoc {t : Table} {ops : List Table.Op} {T : Table} (h : t.run ops = some T) {op : Table.Op} (hd : (T.step op).2 ≠ .died) :
    t.run (ops ++ [op]) = some (T.step op).1 := by
  induction ops generalizing t with
  | nil =>
    simp only [Table.run, Option.some.injEq] at h
    subst h
    simp only [List.nil_append, Table.run]
  | cons o ops ih =>
    simp only [List.cons_append, Table.run] at h ⊢
    split at h
    · cases h
    · exact ih h

theorem OwnHistory.step {T : Table} (h : OwnHistory T) {op : Table.Op} (hd : (T.step op).2 ≠ .died) : OwnHistory (T.step op).1 := by
  obtain ⟨start, ops, hr, hs⟩ := h
  exact ⟨start, ops ++ [op], run_snoc hr hd, hs⟩

theorem put_tabs {w : World} {t : Nat} {v v' : View} (hv : w.view t = some v) (f : Frame v v') {t' : Nat} {o : TabObj} (ho : (w.put t v').tab t' = some o) :
    ∃ o' : TabObj, w.tab t' = some o' ∧ o.limiter = o'.limiter ∧ o.sampler = o'.sampler ∧ o.remover = o'.remover := by
  obtain ⟨ht, -⟩ := tab_of_view hv
  rw [put_tab] at ho
  split at ho
  · rename_i e
    subst e
    obtain rfl := Option.some.inj ho
    exact ⟨v.t, ht, f.limiter, f.sampler, f.remover⟩
  · exact ⟨o, ho, rfl, rfl, rfl⟩

theorem Apart.put {us ls : List Nat} {w : World} (h : Apart us ls w) {t : Nat} {v : View} (hv : w.view t = some v) {op : Table.Op}
    (hd : (v.step op).2 ≠ .died) : Apart us ls (w.put t (v.step op).1) := by
  obtain ⟨ht, ho⟩ := tab_of_view hv
  have hsp : v.Split := h.disjoint.split t v.t ht
  have sim := View.step_sim hsp op
  have f := (View.step_tame v op).1
  constructor
  · exact h.base.put hv (View.step_tame v op)
  · exact h.disjoint.put hv f
  · intro t' o ho' n hn
    obtain ⟨o', h1, h2, h3, h4⟩ := put_tabs hv f ho'
    rw [h3, h4] at hn
    exact h.used t' o' h1 n hn
  · intro t' o ho' n hn
    obtain ⟨o', h1, h2, h3, h4⟩ := put_tabs hv f ho'
    rw [h2] at hn
    exact h.usedL t' o' h1 n hn
  · intro n hn hu
    obtain ⟨k, hk⟩ := h.fresh n hn hu
    refine ⟨k, ?_⟩
    show (v.step op).1.objs.sel (.py n) = _
    rw [f.sels, ho, hk]
    · intro e; exact hu (h.used t v.t ht n (.inl e.symm))
    · intro e; exact hu (h.used t v.t ht n (.inr e.symm))
  · intro n hn hu
    have := h.freshL n hn hu
    show NewLimiter ((v.step op).1.objs.lim (.py n))
    rw [f.lims, ho]
    · exact this
    · intro e; exact hu (h.usedL t v.t ht n e.symm)
  · intro t' T hT
    by_cases e : t' = t
    · subst e
      rw [put_self, sim.tab] at hT
      obtain rfl := Option.some.inj hT
      refine (h.story t' v.table ?_).step ?_
      · simp [World.table, hv]
      · rw [← sim.res]; exact hd
    · rw [put_other h.base h.disjoint hv f e] at hT
      exact h.story t' T hT

theorem Apart.destroy {us ls : List Nat} {w : World} (h : Apart us ls w) {t : Nat} (hh : w.hosted t = false) : Apart us ls (w.destroy t) := by
  cases ht : w.tab t with
  | none =>
    have e : w.destroy t = w := by unfold World.destroy; simp [view, ht]
    rw [e]; exact h
  | some o =>
    constructor
    · exact h.base.destroy hh
    · exact h.disjoint.destroy t
    · intro t' o' ho n hn
      exact h.used t' o' (destroy_tab ho).2 n hn
    · intro t' o' ho n hn
      exact h.usedL t' o' (destroy_tab ho).2 n hn
    · intro n hn hu
      rw [destroy_eq ht] at hn ⊢
      exact h.fresh n hn hu
    · intro n hn hu
      rw [destroy_eq ht] at hn ⊢
      show NewLimiter (upd w.objs.lim o.limiter _ (.py n))
      rw [upd_ne _ _ ?_]
      · exact h.freshL n hn hu
      · intro e; exact hu (h.usedL t o ht n e.symm)
    · intro t' T hT
      by_cases e : t' = t
      · subst e
        rw [destroy_self] at hT
        cases hT
      · rw [destroy_other h.base e] at hT
        exact h.story t' T hT

theorem Apart.collect {us ls : List Nat} {w : World} (h : Apart us ls w) (ts : List Nat) : Apart us ls (w.collect ts) :=
  collect_induct (Apart us ls) ts (fun _ _ _ hb _ _ hh => hb.destroy hh) w h

theorem Apart.closeAll {us ls : List Nat} {w : World} (h : Apart us ls w) (l : List (String × Nat)) : Apart us ls (w.closeAll l) :=
  closeAll_induct (Apart us ls) l (fun w t v hb hv => by
    have : v.close = (v.step .close).1 := rfl
    rw [this]
    exact hb.put hv (by intro e; cases e)) w h

theorem adopt_tab {w : World} {name : String} {b : Table} {t : Nat} {o : TabObj} (h : (w.adopt name b).1.tab t = some o) :
    (t = w.numTabs ∧ o = ⟨name, b.maxSize, b.maxTimesSampled, .own t false, .own t true, .own t, b.data, b.episodeRefs, b.numDeletedEpisodes,
        b.numUniqueSamples, b.log, false⟩) ∨ (t ≠ w.numTabs ∧ w.tab t = some o) := by
  have h' : upd w.tab w.numTabs _ t = some o := h
  unfold upd at h'
  split at h'
  · rename_i e
    subst e
    exact .inl ⟨rfl, (Option.some.inj h').symm⟩
  · exact .inr ⟨by assumption, h'⟩

/-- The table that `Load` has built is what is seen under the new number; the other tables do not change. -/
theorem adopt_table {w : World} (hb : Base w) (name : String) (b : Table) (t : Nat) :
    (w.adopt name b).1.table t = if t = w.numTabs then some b else w.table t := by
  split
  · rename_i e
    subst e
    have : (w.adopt name b).1.tab w.numTabs = some ⟨name, b.maxSize, b.maxTimesSampled, .own w.numTabs false, .own w.numTabs true, .own w.numTabs,
      b.data, b.episodeRefs, b.numDeletedEpisodes, b.numUniqueSamples, b.log, false⟩ := upd_self _ _ _
    rw [table_of_tab this]
    congr 1
    simp [View.table, View.limiter, World.adopt, upd]
  · rename_i hne
    cases hx : w.tab t with
    | none =>
      have : (w.adopt name b).1.tab t = none := (upd_ne _ _ hne).trans hx
      simp [World.table, World.view, this, hx]
    | some o =>
      have : (w.adopt name b).1.tab t = some o := (upd_ne _ _ hne).trans hx
      rw [table_of_tab this, table_of_tab hx]
      congr 1
      have hs : ∀ s : SelId, (s = o.sampler ∨ s = o.remover) → ∀ bb, s ≠ .own w.numTabs bb := by
        intro s hs bb e
        subst e
        exact hne (hb.selOwn t o hx _ bb (by rcases hs with hs | hs <;> simp [hs])).symm
      apply table_congr
      · show upd (upd w.objs.sel _ _) _ _ o.sampler = _
        rw [upd_ne _ _ (hs _ (.inl rfl) _), upd_ne _ _ (hs _ (.inl rfl) _)]
      · show upd (upd w.objs.sel _ _) _ _ o.remover = _
        rw [upd_ne _ _ (hs _ (.inr rfl) _), upd_ne _ _ (hs _ (.inr rfl) _)]
      · show upd w.objs.lim _ _ o.limiter = _
        rw [upd_ne]
        intro e
        exact hne (hb.limOwn t o hx _ e).symm

theorem Apart.adopt {us ls : List Nat} {w : World} (h : Apart us ls w) (name : String) {b : Table} {c : Checkpoint} {chunks : List ChunkRef}
    (hr : restore c chunks = .ok b) : Apart us ls (w.adopt name b).1 := by
  have old : ∀ (t : Nat) (o : TabObj), w.tab t = some o → ∀ s : SelId, (s = o.sampler ∨ s = o.remover) → ∀ t' bb, s = .own t' bb → t' = t := by
    intro t o ho s hs t' bb e
    subst e
    exact h.base.selOwn t o ho t' bb (by rcases hs with hs | hs <;> simp [hs])
  constructor
  · exact h.base.adopt name b
  · constructor
    · intro t o ho
      rcases adopt_tab ho with ⟨-, rfl⟩ | ⟨-, h1⟩
      · simp
      · exact h.disjoint.split t o h1
    · intro t1 t2 o1 o2 h1 h2 hne
      rcases adopt_tab h1 with ⟨e1, q1⟩ | ⟨e1, q1⟩ <;> rcases adopt_tab h2 with ⟨e2, q2⟩ | ⟨e2, q2⟩
      · omega
      · subst q1
        refine ⟨?_, ?_, ?_, ?_⟩ <;> intro e
        · exact hne (old t2 o2 q2 _ (.inl rfl) _ _ e)
        · exact hne (old t2 o2 q2 _ (.inl rfl) _ _ e)
        · exact hne (old t2 o2 q2 _ (.inr rfl) _ _ e)
        · exact hne (old t2 o2 q2 _ (.inr rfl) _ _ e)
      · subst q2
        refine ⟨?_, ?_, ?_, ?_⟩ <;> intro e
        · exact hne (old t1 o1 q1 _ (.inl rfl) _ _ e.symm).symm
        · exact hne (old t1 o1 q1 _ (.inr rfl) _ _ e.symm).symm
        · exact hne (old t1 o1 q1 _ (.inl rfl) _ _ e.symm).symm
        · exact hne (old t1 o1 q1 _ (.inr rfl) _ _ e.symm).symm
      · exact h.disjoint.disj t1 t2 o1 o2 q1 q2 hne
  · intro t o ho n hn
    rcases adopt_tab ho with ⟨-, rfl⟩ | ⟨-, h1⟩
    · simp at hn
    · exact h.used t o h1 n hn
  · intro t o ho n hn
    rcases adopt_tab ho with ⟨-, rfl⟩ | ⟨-, h1⟩
    · simp at hn
    · exact h.usedL t o h1 n hn
  · intro n hn hu
    obtain ⟨k, hk⟩ := h.fresh n hn hu
    exact ⟨k, hk⟩
  · intro n hn hu
    exact h.freshL n hn hu
  · intro t T hT
    rw [adopt_table h.base] at hT
    split at hT
    · obtain rfl := Option.some.inj hT
      exact ⟨b, [], rfl, .inr ⟨c, chunks, hr⟩⟩
    · exact h.story t T hT

theorem Apart.servers {us ls : List Nat} {w : World} (h : Apart us ls w) {sv : List (Option (List (String × Nat)))} (hb : Base { w with servers := sv }) :
    Apart us ls { w with servers := sv } :=
  ⟨hb, ⟨h.disjoint.split, h.disjoint.disj⟩, h.used, h.usedL, h.fresh, h.freshL, h.story⟩

theorem Apart.mono {us ls us' ls' : List Nat} {w : World} (h : Apart us ls w) (hu : ∀ n ∈ us, n ∈ us') (hl : ∀ n ∈ ls, n ∈ ls') : Apart us' ls' w :=
  ⟨h.base, h.disjoint, fun t o ho n hn => hu n (h.used t o ho n hn), fun t o ho n hn => hl n (h.usedL t o ho n hn),
   fun n hn hx => h.fresh n hn (fun hy => hx (hu n hy)), fun n hn hx => h.freshL n hn (fun hy => hx (hl n hy)), h.story⟩

/-- The program refers to the table no longer: nothing is seen of that. -/
theorem unheld_table {w : World} {t : Nat} {o : TabObj} (ho : w.tab t = some o) (t' : Nat) :
    ({ w with tab := upd w.tab t (some { o with held := false }) } : World).table t' = w.table t' := by
  by_cases e : t' = t
  · subst e
    rw [table_of_tab ho]
    simp only [World.table, World.view, upd_self, Option.map_some]
    rfl
  · simp only [World.table, World.view, upd_ne _ _ e]

/-- Every statement keeps the invariants, if it hands over what has not been handed over before. -/
theorem Apart.step {us ls : List Nat} {w : World} (h : Apart us ls w) {s : Stmt} {w' : World} {r : PyRes Out} (hs : w.step s = some (w', r))
    (hd : r ≠ .died) (hu : (us ++ s.selectors).Nodup) (hl : (ls ++ s.limiters).Nodup) : Apart (us ++ s.selectors) (ls ++ s.limiters) w' := by
  have hbase := h.base.step hs
  have hm : ∀ x : World, Apart us ls x → Apart (us ++ s.selectors) (ls ++ s.limiters) x :=
    fun x hx => hx.mono (fun n hn => List.mem_append_left _ hn) (fun n hn => List.mem_append_left _ hn)
  cases s with
  | selector k =>
    simp only [World.step, Option.some.injEq, Prod.mk.injEq] at hs
    obtain ⟨rfl, -⟩ := hs
    apply hm
    have hne : ∀ (t : Nat) (o : TabObj), w.tab t = some o → ∀ s : SelId, (s = o.sampler ∨ s = o.remover) → s ≠ .py w.numSels := by
      intro t o ho s hs e
      subst e
      have := h.base.selPy t o ho w.numSels (by rcases hs with hs | hs <;> simp [hs])
      omega
    refine ⟨hbase, ⟨h.disjoint.split, h.disjoint.disj⟩, h.used, h.usedL, ?_, h.freshL, ?_⟩
    · intro n hn hx
      by_cases e : n = w.numSels
      · subst e
        exact ⟨k, upd_self _ _ _⟩
      · have hn' : n < w.numSels + 1 := hn
        obtain ⟨k', hk'⟩ := h.fresh n (by omega) hx
        exact ⟨k', (upd_ne _ _ (by simpa using e)).trans hk'⟩
    · intro t T hT
      apply h.story t T
      obtain ⟨o, ho, rfl⟩ := tab_of_table hT
      rw [table_of_tab (show w.tab t = some o from ho)]
      congr 1
      symm
      apply table_congr
      · exact upd_ne _ _ (hne t o ho _ (.inl rfl))
      · exact upd_ne _ _ (hne t o ho _ (.inr rfl))
      · rfl
  | limiter spi m lo hi =>
    simp only [World.step] at hs
    split at hs
    · rename_i l hl'
      simp only [Option.some.injEq, Prod.mk.injEq] at hs
      obtain ⟨rfl, -⟩ := hs
      apply hm
      have hnew : NewLimiter l := by
        unfold Limiter.make at hl'
        split at hl'
        · obtain rfl := Res.ok.inj hl'
          exact ⟨spi, m, lo, hi, by assumption, rfl⟩
        · cases hl'
      have hne : ∀ (t : Nat) (o : TabObj), w.tab t = some o → o.limiter ≠ .py w.numLims := by
        intro t o ho e
        have := h.base.limPy t o ho _ e
        omega
      refine ⟨hbase, ⟨h.disjoint.split, h.disjoint.disj⟩, h.used, h.usedL, h.fresh, ?_, ?_⟩
      · intro n hn hx
        show NewLimiter (upd w.objs.lim _ _ _)
        by_cases e : n = w.numLims
        · subst e
          rw [upd_self]; exact hnew
        · have hn' : n < w.numLims + 1 := hn
          rw [upd_ne _ _ (by simpa using e)]
          exact h.freshL n (by omega) hx
      · intro t T hT
        apply h.story t T
        obtain ⟨o, ho, rfl⟩ := tab_of_table hT
        rw [table_of_tab (show w.tab t = some o from ho)]
        congr 1
        symm
        apply table_congr
        · rfl
        · rfl
        · exact upd_ne _ _ (hne t o ho)
    · simp only [Option.some.injEq, Prod.mk.injEq] at hs
      exact absurd hs.2.symm hd
  | table a =>
    have hbase' := hbase
    simp only [World.step, makeTable] at hs
    split at hs
    · rename_i hex
      split at hs
      · simp only [Option.some.injEq, Prod.mk.injEq] at hs
        obtain ⟨rfl, -⟩ := hs
        exact hm _ h
      · split at hs
        · simp only [Option.some.injEq, Prod.mk.injEq] at hs
          obtain ⟨rfl, -⟩ := hs
          exact hm _ h
        · split at hs
          · simp only [Option.some.injEq, Prod.mk.injEq] at hs
            exact absurd hs.2.symm hd
          · rename_i hfree
            simp only [Option.some.injEq, Prod.mk.injEq] at hs
            obtain ⟨rfl, -⟩ := hs
            simp only [Stmt.selectors, Stmt.limiters] at hu hl ⊢
            rw [List.nodup_append] at hu hl
            obtain ⟨-, hu1, hu2⟩ := hu
            obtain ⟨-, -, hl2⟩ := hl
            have hsr : a.sampler ≠ a.remover := by
              intro e
              simp [e] at hu1
            have hsu : a.sampler ∉ us := fun hx => hu2 _ hx _ (by simp) rfl
            have hru : a.remover ∉ us := fun hx => hu2 _ hx _ (by simp) rfl
            have hlu : a.limiter ∉ ls := fun hx => hl2 _ hx _ (by simp) rfl
            generalize hO : (⟨a.name, a.maxSize.toNat, a.maxTimesSampled, .py a.sampler, .py a.remover, .py a.limiter, AMap.empty,
              AMap.empty, 0, 0, [], true⟩ : TabObj) = O at hbase' ⊢
            have key : ∀ (t' : Nat) (o' : TabObj), upd w.tab w.numTabs (some O) t' = some o' →
                (t' = w.numTabs ∧ o' = O) ∨ (t' ≠ w.numTabs ∧ w.tab t' = some o') := by
              intro t' o' ho
              unfold upd at ho
              split at ho
              · exact .inl ⟨by assumption, (Option.some.inj ho).symm⟩
              · exact .inr ⟨by assumption, ho⟩
            have os : O.sampler = .py a.sampler := by rw [← hO]
            have orr : O.remover = .py a.remover := by rw [← hO]
            have ol : O.limiter = .py a.limiter := by rw [← hO]
            refine ⟨hbase', ⟨?_, ?_⟩, ?_, ?_, ?_, ?_, ?_⟩
            · intro t o ho
              rcases key t o ho with ⟨-, rfl⟩ | ⟨-, h1⟩
              · rw [os, orr]; simpa using hsr
              · exact h.disjoint.split t o h1
            · intro t1 t2 o1 o2 h1 h2 hne
              rcases key t1 o1 h1 with ⟨e1, q1⟩ | ⟨e1, q1⟩ <;> rcases key t2 o2 h2 with ⟨e2, q2⟩ | ⟨e2, q2⟩
              · omega
              · subst q1
                rw [os, orr]
                refine ⟨?_, ?_, ?_, ?_⟩ <;> intro e
                · exact hsu (h.used t2 o2 q2 _ (.inl e))
                · exact hru (h.used t2 o2 q2 _ (.inl e))
                · exact hsu (h.used t2 o2 q2 _ (.inr e))
                · exact hru (h.used t2 o2 q2 _ (.inr e))
              · subst q2
                rw [os, orr]
                refine ⟨?_, ?_, ?_, ?_⟩ <;> intro e
                · exact hsu (h.used t1 o1 q1 _ (.inl e.symm))
                · exact hsu (h.used t1 o1 q1 _ (.inr e.symm))
                · exact hru (h.used t1 o1 q1 _ (.inl e.symm))
                · exact hru (h.used t1 o1 q1 _ (.inr e.symm))
              · exact h.disjoint.disj t1 t2 o1 o2 q1 q2 hne
            · intro t o ho n hn
              rcases key t o ho with ⟨-, rfl⟩ | ⟨-, h1⟩
              · rw [os, orr] at hn
                simp only [SelId.py.injEq] at hn
                rcases hn with rfl | rfl <;> simp
              · exact List.mem_append_left _ (h.used t o h1 n hn)
            · intro t o ho n hn
              rcases key t o ho with ⟨-, rfl⟩ | ⟨-, h1⟩
              · rw [ol] at hn
                simp only [LimId.py.injEq] at hn
                subst hn
                simp
              · exact List.mem_append_left _ (h.usedL t o h1 n hn)
            · intro n hn hx
              exact h.fresh n hn (fun hy => hx (List.mem_append_left _ hy))
            · intro n hn hx
              exact h.freshL n hn (fun hy => hx (List.mem_append_left _ hy))
            · intro t T hT
              obtain ⟨o, ho, rfl⟩ := tab_of_table hT
              rcases key t o ho with ⟨-, rfl⟩ | ⟨-, h1⟩
              · obtain ⟨k1, hk1⟩ := h.fresh a.sampler hex.1 hsu
                obtain ⟨k2, hk2⟩ := h.fresh a.remover hex.2.1 hru
                obtain ⟨spi, m, lo, hi, hpos, hlim⟩ := h.freshL a.limiter hex.2.2 hlu
                refine ⟨_, [], rfl, .inl ⟨⟨a.maxSize.toNat, a.maxTimesSampled, k1, k2, spi, m, lo, hi, hpos⟩, ?_⟩⟩
                simp only [View.table, View.limiter, os, orr, ol, hk1, hk2, hlim]
                simp only [Config.init, Table.make, ← hO]
              · exact h.story t _ (table_of_tab h1)
    · cases hs
  | forget t =>
    simp only [World.step] at hs
    split at hs
    · cases hs
    · rename_i o ho
      split at hs
      · simp only [Option.some.injEq, Prod.mk.injEq] at hs
        obtain ⟨rfl, -⟩ := hs
        apply hm
        apply Apart.collect
        have hf : Frame ⟨w.objs, o⟩ ⟨w.objs, o⟩ := Frame.refl _
        have key : ∀ (t' : Nat) (o' : TabObj), upd w.tab t (some { o with held := false }) t' = some o' →
            ∃ o'' : TabObj, w.tab t' = some o'' ∧ o'.limiter = o''.limiter ∧ o'.sampler = o''.sampler ∧ o'.remover = o''.remover ∧ o'.name = o''.name := by
          intro t' o' ho'
          unfold upd at ho'
          split at ho'
          · rename_i e
            subst e
            obtain rfl := Option.some.inj ho'
            exact ⟨o, ho, rfl, rfl, rfl, rfl⟩
          · exact ⟨o', ho', rfl, rfl, rfl, rfl⟩
        have key2 : ∀ (t' : Nat) (o' : TabObj), w.tab t' = some o' →
            ∃ o'' : TabObj, upd w.tab t (some { o with held := false }) t' = some o'' ∧ o''.limiter = o'.limiter ∧ o''.name = o'.name := by
          intro t' o' ho'
          unfold upd
          split
          · rename_i e
            subst e
            rw [ho] at ho'
            obtain rfl := Option.some.inj ho'
            exact ⟨_, rfl, rfl, rfl⟩
          · exact ⟨o', ho', rfl, rfl⟩
        refine ⟨h.base.unheld ho, ⟨?_, ?_⟩, ?_, ?_, h.fresh, h.freshL, ?_⟩
        · intro t' o' ho'
          obtain ⟨x, h1, h2, h3, h4, _⟩ := key t' o' ho'
          rw [h3, h4]; exact h.disjoint.split t' x h1
        · intro t1 t2 o1 o2 h1 h2 hne
          obtain ⟨p1, a1, a2, a3, a4, _⟩ := key t1 o1 h1
          obtain ⟨p2, b1, b2, b3, b4, _⟩ := key t2 o2 h2
          rw [a3, a4, b3, b4]
          exact h.disjoint.disj t1 t2 p1 p2 a1 b1 hne
        · intro t' o' ho' n hn
          obtain ⟨x, h1, h2, h3, h4, _⟩ := key t' o' ho'
          rw [h3, h4] at hn
          exact h.used t' x h1 n hn
        · intro t' o' ho' n hn
          obtain ⟨x, h1, h2, _⟩ := key t' o' ho'
          rw [h2] at hn
          exact h.usedL t' x h1 n hn
        · intro t' T hT
          rw [unheld_table ho] at hT
          exact h.story t' T hT
      · cases hs
  | server ts found =>
    simp only [World.step, makeServer] at hs
    split at hs
    · cases hs
    · rename_i l hl'
      have hn := named_names hl'
      split at hs
      · simp only [Option.some.injEq, Prod.mk.injEq] at hs
        obtain ⟨rfl, -⟩ := hs
        exact hm _ h
      · split at hs
        · simp only [Option.some.injEq, Prod.mk.injEq] at hs
          obtain ⟨rfl, -⟩ := hs
          exact hm _ h
        · split at hs
          · simp only [Option.some.injEq, Prod.mk.injEq] at hs
            obtain ⟨rfl, -⟩ := hs
            exact hm _ (h.servers hbase)
          · rename_i sv
            split at hs
            · rename_i w1 l1 hld
              simp only [Option.some.injEq, Prod.mk.injEq] at hs
              obtain ⟨rfl, -⟩ := hs
              have := load_induct sv.chunks (fun w l => Apart us ls w ∧ Named w l)
                (fun w l i name c b hq hr _ => ⟨hq.1.adopt name hr, hq.2.adopt hq.1.base i name b⟩) sv.tables w l w1 l1 ⟨h, hn⟩ hld
              exact hm _ ((this.1.servers (this.1.base.addServer this.2)).collect _)
            · simp only [Option.some.injEq, Prod.mk.injEq] at hs
              obtain ⟨rfl, -⟩ := hs
              exact hm _ h
            · simp only [Option.some.injEq, Prod.mk.injEq] at hs
              exact absurd hs.2.symm hd
  | stop i =>
    simp only [World.step] at hs
    split at hs
    · simp only [Option.some.injEq, Prod.mk.injEq] at hs
      obtain ⟨rfl, -⟩ := hs
      exact hm _ (h.closeAll _)
    · cases hs
  | delete i =>
    simp only [World.step] at hs
    split at hs
    · rename_i l hl'
      simp only [Option.some.injEq, Prod.mk.injEq] at hs
      obtain ⟨rfl, -⟩ := hs
      apply hm
      apply Apart.collect
      exact (h.closeAll l).servers ((h.base.closeAll l).dropServer i)
    · cases hs
  | use t op =>
    simp only [World.step] at hs
    split at hs
    · cases hs
    · rename_i v hv
      split at hs
      · simp only [Option.some.injEq, Prod.mk.injEq] at hs
        exact absurd hs.2.symm hd
      · rename_i hnd
        simp only [Option.some.injEq, Prod.mk.injEq] at hs
        obtain ⟨rfl, -⟩ := hs
        exact hm _ (h.put hv (by intro e; exact hnd e))

theorem apart_from (ss : List Stmt) : ∀ (us ls : List Nat) (w w' : World), Apart us ls w → w.run ss = some w' →
    (us ++ ss.flatMap Stmt.selectors).Nodup → (ls ++ ss.flatMap Stmt.limiters).Nodup →
    Apart (us ++ ss.flatMap Stmt.selectors) (ls ++ ss.flatMap Stmt.limiters) w' := by
  induction ss with
  | nil =>
    intro us ls w w' h hr _ _
    simp only [run, Option.some.injEq] at hr
    subst hr
    simpa using h
  | cons s ss ih =>
    intro us ls w w' h hr hu hl
    simp only [List.flatMap_cons, ← List.append_assoc] at hu hl ⊢
    unfold run at hr
    split at hr
    · cases hr
    · cases hr
    · rename_i w1 r hd hs
      refine ih _ _ w1 w' (h.step hs (by intro e; subst e; exact hd rfl) ?_ ?_) hr hu hl
      · exact (List.nodup_append.mp hu).1
      · exact (List.nodup_append.mp hl).1

theorem apart_run {ss : List Stmt} {w : World} (hs : Separate ss) (h : init.run ss = some w) :
    Apart (ss.flatMap Stmt.selectors) (ss.flatMap Stmt.limiters) w := by
  simpa using apart_from ss [] [] init w apart_init h (by simpa using hs.1) (by simpa using hs.2)

end World
end Verif
