import Verif.Proofs.ObjectsApart
/-
What becomes of a limiter whose table is gone, of a selector that a table has twice, of the tables of a server that is stopped, and of the tables that
`Load` replaces.
-/
namespace Verif

theorem Prio.updateParents_index (s : Prio) (e : Rat) (i : Nat) (d : Rat) : (s.updateParents e i d).1.index = s.index := by
  fun_induction Prio.updateParents s e i d with
  | case1 s e i h r ih => exact ih
  | case2 => rfl

theorem Prio.reinit_index (s : Prio) (i : Nat) : (s.reinit i).index = s.index := by
  fun_induction Prio.reinit s i with
  | case1 => rfl
  | case2 s i x ih => exact ih

theorem Prio.setNode_index (s : Prio) (i : Nat) (v : Rat) : (s.setNode i v).index = s.index := by
  unfold Prio.setNode
  dsimp only
  split
  · rw [Prio.reinit_index, Prio.updateParents_index]; rfl
  · rw [Prio.updateParents_index]; rfl

/-- A selector does not take a key twice. -/
theorem Sel.insert_twice (s : Sel) (k : Key) (p : Pri) (h1 : (s.apply (.insert k p)).2 = .ok ()) :
    ((s.apply (.insert k p)).1.apply (.insert k p)).2 = .err .invalidArgument := by
  cases s with
  | fifo s =>
    simp only [Sel.apply, ListSel.applyFifo, ListSel.insertBack] at h1 ⊢
    cases h : s.iters.get? k with
    | none => simp [AMap.get?_insert]
    | some i => simp [h]
  | lifo s =>
    simp only [Sel.apply, ListSel.applyLifo, ListSel.insertFront] at h1 ⊢
    cases h : s.iters.get? k with
    | none => simp [AMap.get?_insert]
    | some i => simp [h]
  | uniform s =>
    simp only [Sel.apply, Uniform.apply, Uniform.insert] at h1 ⊢
    cases h : s.index.get? k with
    | none => simp [AMap.get?_insert]
    | some i => simp [h]
  | heap s =>
    simp only [Sel.apply, HeapSel.apply, HeapSel.insert] at h1 ⊢
    cases h : s.nodes.get? k with
    | none => simp [AMap.get?_insert]
    | some i => simp [h]
  | prio s =>
    simp only [Sel.apply, Prio.apply] at h1 ⊢
    have twice : ∀ s' : Prio, (s'.index.get? k).isSome → (s'.insert k p).2 = .err .invalidArgument := by
      intro s' hs'
      unfold Prio.insert
      cases Prio.checkPriority p with
      | none => simp
      | some q =>
        obtain ⟨i, hi⟩ := Option.isSome_iff_exists.mp hs'
        dsimp only
        split
        · rfl
        · rename_i he
          split at he <;> simp [hi] at he
    apply twice
    unfold Prio.insert at h1 ⊢
    cases hq : Prio.checkPriority p with
    | none => simp [hq] at h1
    | some q =>
      simp only [hq] at h1 ⊢
      generalize (if s.n = s.capacity then { s with capacity := s.capacity * 2 } else s) = s' at h1 ⊢
      cases hk : s'.index.get? k with
      | some i => simp [hk] at h1
      | none =>
        simp only [hk] at h1 ⊢
        by_cases hc : s.n < s'.capacity
        · rw [if_pos hc, Prio.setNode_index]
          simp [AMap.get?_insert]
        · rw [if_neg hc] at h1
          cases h1

namespace World
open View (Tame Frame Split upd_self upd_ne)

/-- The table `t` has the limiter `l`, or it is gone and the limiter is cancelled. -/
structure Spent (l : LimId) (t : Nat) (w : World) : Prop where
  base : Base w
  tab : t < w.numTabs
  py : ∀ n : Nat, l = .py n → n < w.numLims
  own : ∀ t' : Nat, l = .own t' → t' < w.numTabs
  cases' : (∃ o : TabObj, w.tab t = some o ∧ o.limiter = l) ∨ (w.tab t = none ∧ (w.objs.lim l).cancelled = true)

theorem spent_of_tab {w : World} (h : Base w) {t : Nat} {o : TabObj} (ho : w.tab t = some o) : Spent o.limiter t w :=
  ⟨h, h.bound t o ho, h.limPy t o ho, fun t' e => by rw [h.limOwn t o ho t' e]; exact h.bound t o ho, .inl ⟨o, ho, rfl⟩⟩

theorem Spent.put {l : LimId} {t : Nat} {w : World} (h : Spent l t w) {t1 : Nat} {v v' : View} (hv : w.view t1 = some v) (hf : Tame v v') :
    Spent l t (w.put t1 v') := by
  obtain ⟨ht, ho⟩ := tab_of_view hv
  refine ⟨h.base.put hv hf, h.tab, h.py, h.own, ?_⟩
  rw [put_tab]
  by_cases e : t = t1
  · subst e
    rw [if_pos rfl]
    rcases h.cases' with ⟨o, h1, h2⟩ | ⟨h1, -⟩
    · rw [ht] at h1
      obtain rfl := Option.some.inj h1
      exact .inl ⟨_, rfl, hf.1.limiter.trans h2⟩
    · rw [ht] at h1; cases h1
  · rw [if_neg e]
    rcases h.cases' with h1 | ⟨h1, h2⟩
    · exact .inl h1
    · refine .inr ⟨h1, ?_⟩
      show (v'.objs.lim l).cancelled = true
      by_cases el : l = v.t.limiter
      · subst el
        have := hf.2 (by rw [View.limiter, ho]; exact h2)
        rwa [View.limiter, hf.1.limiter] at this
      · rw [hf.1.lims _ el, ho]; exact h2

theorem Spent.destroy {l : LimId} {t : Nat} {w : World} (h : Spent l t w) {t1 : Nat} (hh : w.hosted t1 = false) : Spent l t (w.destroy t1) := by
  cases ht : w.tab t1 with
  | none =>
    have e : w.destroy t1 = w := by unfold World.destroy; simp [view, ht]
    rw [e]; exact h
  | some o1 =>
    have hb := h.base.destroy hh
    rw [destroy_eq ht] at hb ⊢
    refine ⟨hb, h.tab, h.py, h.own, ?_⟩
    show (∃ o : TabObj, upd w.tab t1 none t = some o ∧ o.limiter = l) ∨ (upd w.tab t1 none t = none ∧ (upd w.objs.lim o1.limiter _ l).cancelled = true)
    by_cases e : t = t1
    · subst e
      rw [upd_self]
      refine .inr ⟨rfl, ?_⟩
      rcases h.cases' with ⟨o, h1, h2⟩ | ⟨h1, -⟩
      · rw [ht] at h1
        obtain rfl := Option.some.inj h1
        rw [h2, upd_self]
        rfl
      · rw [ht] at h1; cases h1
    · rw [upd_ne _ _ e]
      rcases h.cases' with h1 | ⟨h1, h2⟩
      · exact .inl h1
      · refine .inr ⟨h1, ?_⟩
        by_cases el : l = o1.limiter
        · rw [el, upd_self]; rfl
        · rw [upd_ne _ _ el]; exact h2

theorem Spent.collect {l : LimId} {t : Nat} {w : World} (h : Spent l t w) (ts : List Nat) : Spent l t (w.collect ts) :=
  collect_induct (Spent l t) ts (fun _ _ _ hb _ _ hh => hb.destroy hh) w h

theorem Spent.closeAll {l : LimId} {t : Nat} {w : World} (h : Spent l t w) (ls : List (String × Nat)) : Spent l t (w.closeAll ls) :=
  closeAll_induct (Spent l t) ls (fun _ _ _ hb hv => hb.put hv (View.close_tame _)) w h

theorem Spent.adopt {l : LimId} {t : Nat} {w : World} (h : Spent l t w) (name : String) (b : Table) : Spent l t (w.adopt name b).1 := by
  have ht : t ≠ w.numTabs := Nat.ne_of_lt h.tab
  have hl : l ≠ .own w.numTabs := fun e => absurd (h.own _ e) (Nat.lt_irrefl _)
  refine ⟨h.base.adopt name b, Nat.lt_succ_of_lt h.tab, h.py, fun t' e => Nat.lt_succ_of_lt (h.own t' e), ?_⟩
  show (∃ o : TabObj, upd w.tab w.numTabs _ t = some o ∧ o.limiter = l) ∨ (upd w.tab w.numTabs _ t = none ∧ (upd w.objs.lim (.own w.numTabs) _ l).cancelled = true)
  rw [upd_ne _ _ ht, upd_ne _ _ hl]
  exact h.cases'

theorem Spent.servers {l : LimId} {t : Nat} {w : World} (h : Spent l t w) {sv : List (Option (List (String × Nat)))} (hb : Base { w with servers := sv }) :
    Spent l t { w with servers := sv } := ⟨hb, h.tab, h.py, h.own, h.cases'⟩

theorem Spent.step {l : LimId} {t : Nat} {w : World} (h : Spent l t w) {s : Stmt} {w' : World} {r : PyRes Out} (hs : w.step s = some (w', r)) :
    Spent l t w' := by
  have hbase := h.base.step hs
  cases s with
  | selector k =>
    simp only [World.step, Option.some.injEq, Prod.mk.injEq] at hs
    obtain ⟨rfl, -⟩ := hs
    exact ⟨hbase, h.tab, h.py, h.own, h.cases'⟩
  | limiter spi m lo hi =>
    simp only [World.step] at hs
    split at hs
    · simp only [Option.some.injEq, Prod.mk.injEq] at hs
      obtain ⟨rfl, -⟩ := hs
      have hl : l ≠ .py w.numLims := fun e => absurd (h.py _ e) (Nat.lt_irrefl _)
      refine ⟨hbase, h.tab, fun n e => Nat.lt_succ_of_lt (h.py n e), h.own, ?_⟩
      show _ ∨ (_ ∧ (upd w.objs.lim (.py w.numLims) _ l).cancelled = true)
      rw [upd_ne _ _ hl]
      exact h.cases'
    · simp only [Option.some.injEq, Prod.mk.injEq] at hs
      obtain ⟨rfl, -⟩ := hs
      exact h
  | table a =>
    simp only [World.step, makeTable] at hs
    split at hs
    · split at hs
      · simp only [Option.some.injEq, Prod.mk.injEq] at hs
        obtain ⟨rfl, -⟩ := hs
        exact h
      · split at hs
        · simp only [Option.some.injEq, Prod.mk.injEq] at hs
          obtain ⟨rfl, -⟩ := hs
          exact h
        · split at hs
          · simp only [Option.some.injEq, Prod.mk.injEq] at hs
            obtain ⟨rfl, -⟩ := hs
            exact h
          · simp only [Option.some.injEq, Prod.mk.injEq] at hs
            obtain ⟨rfl, -⟩ := hs
            have ht : t ≠ w.numTabs := Nat.ne_of_lt h.tab
            refine ⟨hbase, Nat.lt_succ_of_lt h.tab, h.py, fun t' e => Nat.lt_succ_of_lt (h.own t' e), ?_⟩
            show (∃ o : TabObj, upd w.tab w.numTabs _ t = some o ∧ o.limiter = l) ∨ (upd w.tab w.numTabs _ t = none ∧ _)
            rw [upd_ne _ _ ht]
            exact h.cases'
    · cases hs
  | forget t1 =>
    simp only [World.step] at hs
    split at hs
    · cases hs
    · rename_i o ho
      split at hs
      · simp only [Option.some.injEq, Prod.mk.injEq] at hs
        obtain ⟨rfl, -⟩ := hs
        apply Spent.collect
        refine ⟨h.base.unheld ho, h.tab, h.py, h.own, ?_⟩
        show (∃ o' : TabObj, upd w.tab t1 _ t = some o' ∧ o'.limiter = l) ∨ (upd w.tab t1 _ t = none ∧ _)
        by_cases e : t = t1
        · subst e
          rw [upd_self]
          rcases h.cases' with ⟨o', h1, h2⟩ | ⟨h1, -⟩
          · rw [ho] at h1
            obtain rfl := Option.some.inj h1
            exact .inl ⟨_, rfl, h2⟩
          · rw [ho] at h1; cases h1
        · rw [upd_ne _ _ e]; exact h.cases'
      · cases hs
  | server ts found =>
    simp only [World.step, makeServer] at hs
    split at hs
    · cases hs
    · rename_i l0 hl'
      have hn := named_names hl'
      split at hs
      · simp only [Option.some.injEq, Prod.mk.injEq] at hs
        obtain ⟨rfl, -⟩ := hs
        exact h
      · split at hs
        · simp only [Option.some.injEq, Prod.mk.injEq] at hs
          obtain ⟨rfl, -⟩ := hs
          exact h
        · split at hs
          · simp only [Option.some.injEq, Prod.mk.injEq] at hs
            obtain ⟨rfl, -⟩ := hs
            exact h.servers hbase
          · rename_i sv
            split at hs
            · rename_i w1 l1 hld
              simp only [Option.some.injEq, Prod.mk.injEq] at hs
              obtain ⟨rfl, -⟩ := hs
              have := load_induct sv.chunks (fun w ls => Spent l t w ∧ Named w ls)
                (fun w ls i name c b hq hr _ => ⟨hq.1.adopt name b, hq.2.adopt hq.1.base i name b⟩) sv.tables w l0 w1 l1 ⟨h, hn⟩ hld
              exact (this.1.servers (this.1.base.addServer this.2)).collect _
            · simp only [Option.some.injEq, Prod.mk.injEq] at hs
              obtain ⟨rfl, -⟩ := hs
              exact h
            · simp only [Option.some.injEq, Prod.mk.injEq] at hs
              obtain ⟨rfl, -⟩ := hs
              exact h
  | stop i =>
    simp only [World.step] at hs
    split at hs
    · simp only [Option.some.injEq, Prod.mk.injEq] at hs
      obtain ⟨rfl, -⟩ := hs
      exact h.closeAll _
    · cases hs
  | delete i =>
    simp only [World.step] at hs
    split at hs
    · rename_i l0 hl'
      simp only [Option.some.injEq, Prod.mk.injEq] at hs
      obtain ⟨rfl, -⟩ := hs
      apply Spent.collect
      exact (h.closeAll l0).servers ((h.base.closeAll l0).dropServer i)
    · cases hs
  | use t1 op =>
    simp only [World.step] at hs
    split at hs
    · cases hs
    · rename_i v hv
      split at hs <;>
      · simp only [Option.some.injEq, Prod.mk.injEq] at hs
        obtain ⟨rfl, -⟩ := hs
        exact h.put hv (View.step_tame v op)

theorem spent_run {ss : List Stmt} {l : LimId} {t : Nat} {w w' : World} (h : Spent l t w) (hr : w.run ss = some w') : Spent l t w' :=
  run_induct (Spent l t) (fun _ _ _ _ hb hs _ => hb.step hs) ss w w' h hr

/-- Closing tables cancels their limiters and changes nothing else. -/
theorem closeAll_table {w : World} (hb : Base w) (ls : List (String × Nat)) (t : Nat) :
    (w.closeAll ls).table t = (w.table t).map fun T => if ∃ x ∈ ls, x.2 = t then { T with limiter := T.limiter.cancel } else T := by
  induction ls generalizing w with
  | nil => cases h : w.table t <;> simp [World.closeAll, h]
  | cons x ls ih =>
    obtain ⟨n, t1⟩ := x
    unfold World.closeAll
    split
    · rename_i v hv
      rw [ih (hb.put hv (View.close_tame _))]
      by_cases e : t = t1
      · subst e
        rw [put_self]
        have : w.table t = some v.table := by simp [World.table, hv]
        rw [this]
        simp only [Option.map_some]
        rw [if_pos (c := ∃ x ∈ (n, t) :: ls, x.2 = t) ⟨(n, t), by simp, rfl⟩]
        have hc : v.close.table = { v.table with limiter := v.table.limiter.cancel } := by
          simp [View.close, View.setLimiter, View.table, View.limiter, upd_self]
        rw [hc]
        split
        · simp [Limiter.cancel]
        · rfl
      · have : (w.put t1 v.close).table t = w.table t := by
          obtain ⟨ht, ho⟩ := tab_of_view hv
          have e' : (w.put t1 v.close).tab t = w.tab t := by rw [put_tab, if_neg e]
          cases hx : w.tab t with
          | none => simp [World.table, World.view, e', hx]
          | some o =>
            rw [table_of_tab hx, table_of_tab (e'.trans hx)]
            congr 1
            apply table_congr
            · show v.objs.sel _ = _
              rw [ho]
            · show v.objs.sel _ = _
              rw [ho]
            · show upd v.objs.lim v.t.limiter _ o.limiter = _
              rw [upd_ne _ _ (hb.limiters_ne hx ht e), ho]
        rw [this]
        have : (∃ x ∈ (n, t1) :: ls, x.2 = t) ↔ ∃ x ∈ ls, x.2 = t := by
          simp only [List.mem_cons, exists_eq_or_imp, Prod.exists]
          simp [Ne.symm e]
        simp only [this]
    · rename_i hv
      rw [ih hb]
      by_cases e : t = t1
      · subst e
        simp [World.table, hv]
      · have : (∃ x ∈ (n, t1) :: ls, x.2 = t) ↔ ∃ x ∈ ls, x.2 = t := by
          simp only [List.mem_cons, exists_eq_or_imp, Prod.exists]
          simp [Ne.symm e]
        simp only [this]

theorem hosted_destroy (w : World) (t t1 : Nat) : (w.destroy t1).hosted t = w.hosted t := by
  unfold hosted
  rw [destroy_servers]

/-- A table that the program or a server refers to stays when others are collected. -/
theorem collect_held {ts : List Nat} {w : World} (hb : Base w) {t : Nat} {o : TabObj} (ho : w.tab t = some o) (hh : o.held = true ∨ w.hosted t = true) :
    (w.collect ts).tab t = some o ∧ (w.collect ts).table t = w.table t := by
  have := collect_induct (fun w' => Base w' ∧ w'.tab t = some o ∧ w'.table t = w.table t ∧ w'.hosted t = w.hosted t) ts (fun w1 t1 o1 hp h1 h2 h3 => by
    have hne : t ≠ t1 := by
      intro e
      subst e
      rw [hp.2.1] at h1
      obtain rfl := Option.some.inj h1
      rcases hh with hh | hh
      · rw [hh] at h2
        cases h2
      · rw [hp.2.2.2, hh] at h3
        cases h3
    refine ⟨hp.1.destroy h3, ?_, ?_, ?_⟩
    · rw [destroy_eq h1]
      show upd w1.tab t1 none t = _
      rw [upd_ne _ _ hne]
      exact hp.2.1
    · rw [destroy_other hp.1 hne]
      exact hp.2.2.1
    · rw [hosted_destroy]
      exact hp.2.2.2) w ⟨hb, ho, rfl, rfl⟩
  exact ⟨this.2.1, this.2.2.1⟩

/-- The vector `tables` that a server is made with. -/
theorem names_eq {w : World} {ts : List Nat} {l : List (String × Nat)} (h : w.names ts = some l) :
    l.map Prod.snd = ts ∧ (l.map fun x => some x.1) = (ts.map fun t => (w.tab t).map TabObj.name) ∧ ∀ x ∈ l, ∃ o : TabObj, w.tab x.2 = some o ∧ o.name = x.1 ∧ o.held = true := by
  induction ts generalizing l with
  | nil =>
    simp only [names, Option.some.injEq] at h
    subst h
    simp
  | cons t ts ih =>
    unfold names at h
    split at h
    · rename_i o l' ho hl'
      split at h
      · rename_i hh
        obtain rfl := Option.some.inj h
        obtain ⟨h1, h2, h3⟩ := ih hl'
        refine ⟨by simp [h1], by simp [h2, ho], ?_⟩
        intro x hx
        rcases List.mem_cons.mp hx with rfl | hx
        · exact ⟨o, ho, rfl, hh⟩
        · exact h3 x hx
      · cases h
    · cases h

/-- The names are distinct if the tables have distinct names. -/
theorem names_nodup {w : World} {ts : List Nat} {l : List (String × Nat)} (h : w.names ts = some l) :
    (l.map Prod.fst).Nodup ↔ (ts.map fun t => (w.tab t).map TabObj.name).Nodup := by
  rw [← (names_eq h).2.1]
  have : (l.map fun x => some x.1) = (l.map Prod.fst).map some := by simp
  rw [this]
  constructor
  · intro hn
    exact List.Pairwise.map some (fun a b hab e => hab (Option.some.inj e)) hn
  · intro hn
    exact List.Pairwise.of_map some (fun a b hab e => hab (by rw [e])) hn

theorem lookup_of_mem {l : List (String × Nat)} (hn : (l.map Prod.fst).Nodup) {name : String} {t : Nat} (h : (name, t) ∈ l) : l.lookup name = some t := by
  induction l with
  | nil => cases h
  | cons x l ih =>
    obtain ⟨n, t1⟩ := x
    simp only [List.map_cons, List.nodup_cons] at hn
    rcases List.mem_cons.mp h with e | h'
    · obtain ⟨rfl, rfl⟩ := Prod.mk.inj e
      simp [List.lookup]
    · have hne : name ≠ n := by
        intro e
        subst e
        exact hn.1 (List.mem_map.mpr ⟨(name, t), h', rfl⟩)
      have : (name == n) = false := by simpa using hne
      simp only [List.lookup, this]
      exact ih hn.2 h'

/-- The map of a server stays as it is until the server is deleted. -/
theorem server_step {w w' : World} {s : Stmt} {r : PyRes Out} (hs : w.step s = some (w', r)) {j : Nat} {l : List (String × Nat)}
    (h : w.servers[j]? = some (some l)) : w'.servers[j]? = some (some l) ∨ w'.servers[j]? = some none := by
  have app : ∀ x, (w.servers ++ [x])[j]? = some (some l) := by
    intro x
    rw [List.getElem?_append_left]
    · exact h
    · exact (List.getElem?_eq_some_iff.mp h).1
  have hcl : ∀ ls, (w.closeAll ls).servers = w.servers := fun ls =>
    closeAll_induct (fun w' => w'.servers = w.servers) ls (fun w1 t v hp _ => hp) w rfl
  cases s with
  | selector k =>
    simp only [World.step, Option.some.injEq, Prod.mk.injEq] at hs
    obtain ⟨rfl, -⟩ := hs
    exact .inl h
  | limiter spi m lo hi =>
    simp only [World.step] at hs
    split at hs <;>
    · simp only [Option.some.injEq, Prod.mk.injEq] at hs
      obtain ⟨rfl, -⟩ := hs
      exact .inl h
  | table a =>
    simp only [World.step, makeTable] at hs
    repeat' split at hs
    all_goals
      simp only [Option.some.injEq, Prod.mk.injEq, reduceCtorEq] at hs
      try (obtain ⟨rfl, -⟩ := hs; exact .inl h)
  | forget t1 =>
    simp only [World.step] at hs
    split at hs
    · cases hs
    · split at hs
      · simp only [Option.some.injEq, Prod.mk.injEq] at hs
        obtain ⟨rfl, -⟩ := hs
        rw [collect_servers]
        exact .inl h
      · cases hs
  | server ts found =>
    simp only [World.step, makeServer] at hs
    split at hs
    · cases hs
    · split at hs
      · simp only [Option.some.injEq, Prod.mk.injEq] at hs
        obtain ⟨rfl, -⟩ := hs
        exact .inl h
      · split at hs
        · simp only [Option.some.injEq, Prod.mk.injEq] at hs
          obtain ⟨rfl, -⟩ := hs
          exact .inl h
        · split at hs
          · simp only [Option.some.injEq, Prod.mk.injEq] at hs
            obtain ⟨rfl, -⟩ := hs
            exact .inl (app _)
          · rename_i l0 _ _ _ _ sv
            split at hs
            · rename_i w1 l1 hld
              simp only [Option.some.injEq, Prod.mk.injEq] at hs
              obtain ⟨rfl, -⟩ := hs
              rw [collect_servers]
              have := load_induct sv.chunks (fun w1 _ => w1.servers = w.servers) (fun w1 ls i name c b hq hr _ => hq) sv.tables w l0 w1 l1 rfl hld
              simp only [this]
              exact .inl (app _)
            · simp only [Option.some.injEq, Prod.mk.injEq] at hs
              obtain ⟨rfl, -⟩ := hs
              exact .inl h
            · simp only [Option.some.injEq, Prod.mk.injEq] at hs
              obtain ⟨rfl, -⟩ := hs
              exact .inl h
  | stop i =>
    simp only [World.step] at hs
    split at hs
    · simp only [Option.some.injEq, Prod.mk.injEq] at hs
      obtain ⟨rfl, -⟩ := hs
      rw [hcl]
      exact .inl h
    · cases hs
  | delete i =>
    simp only [World.step] at hs
    split at hs
    · simp only [Option.some.injEq, Prod.mk.injEq] at hs
      obtain ⟨rfl, -⟩ := hs
      rw [collect_servers]
      simp only [hcl]
      rw [List.getElem?_set]
      split
      · rename_i e
        subst e
        rw [if_pos (List.getElem?_eq_some_iff.mp h).1]
        exact .inr rfl
      · exact .inl h
    · cases hs
  | use t1 op =>
    simp only [World.step] at hs
    split at hs
    · cases hs
    · split at hs <;>
      · simp only [Option.some.injEq, Prod.mk.injEq] at hs
        obtain ⟨rfl, -⟩ := hs
        exact .inl h

/-- A server that is deleted stays deleted. -/
theorem deleted_step {w w' : World} {s : Stmt} {r : PyRes Out} (hs : w.step s = some (w', r)) {j : Nat}
    (h : w.servers[j]? = some none) : w'.servers[j]? = some none := by
  have app : ∀ x, (w.servers ++ [x])[j]? = some none := by
    intro x
    rw [List.getElem?_append_left]
    · exact h
    · exact (List.getElem?_eq_some_iff.mp h).1
  have hcl : ∀ ls, (w.closeAll ls).servers = w.servers := fun ls =>
    closeAll_induct (fun w' => w'.servers = w.servers) ls (fun w1 t v hp _ => hp) w rfl
  cases s with
  | selector k =>
    simp only [World.step, Option.some.injEq, Prod.mk.injEq] at hs
    obtain ⟨rfl, -⟩ := hs
    exact h
  | limiter spi m lo hi =>
    simp only [World.step] at hs
    split at hs <;>
    · simp only [Option.some.injEq, Prod.mk.injEq] at hs
      obtain ⟨rfl, -⟩ := hs
      exact h
  | table a =>
    simp only [World.step, makeTable] at hs
    repeat' split at hs
    all_goals
      simp only [Option.some.injEq, Prod.mk.injEq, reduceCtorEq] at hs
      try (obtain ⟨rfl, -⟩ := hs; exact h)
  | forget t1 =>
    simp only [World.step] at hs
    split at hs
    · cases hs
    · split at hs
      · simp only [Option.some.injEq, Prod.mk.injEq] at hs
        obtain ⟨rfl, -⟩ := hs
        rw [collect_servers]
        exact h
      · cases hs
  | server ts found =>
    simp only [World.step, makeServer] at hs
    split at hs
    · cases hs
    · split at hs
      · simp only [Option.some.injEq, Prod.mk.injEq] at hs
        obtain ⟨rfl, -⟩ := hs
        exact h
      · split at hs
        · simp only [Option.some.injEq, Prod.mk.injEq] at hs
          obtain ⟨rfl, -⟩ := hs
          exact h
        · split at hs
          · simp only [Option.some.injEq, Prod.mk.injEq] at hs
            obtain ⟨rfl, -⟩ := hs
            exact app _
          · rename_i l0 _ _ _ _ sv
            split at hs
            · rename_i w1 l1 hld
              simp only [Option.some.injEq, Prod.mk.injEq] at hs
              obtain ⟨rfl, -⟩ := hs
              rw [collect_servers]
              have := load_induct sv.chunks (fun w1 _ => w1.servers = w.servers) (fun w1 ls i name c b hq hr _ => hq) sv.tables w l0 w1 l1 rfl hld
              simp only [this]
              exact app _
            · simp only [Option.some.injEq, Prod.mk.injEq] at hs
              obtain ⟨rfl, -⟩ := hs
              exact h
            · simp only [Option.some.injEq, Prod.mk.injEq] at hs
              obtain ⟨rfl, -⟩ := hs
              exact h
  | stop i =>
    simp only [World.step] at hs
    split at hs
    · simp only [Option.some.injEq, Prod.mk.injEq] at hs
      obtain ⟨rfl, -⟩ := hs
      rw [hcl]
      exact h
    · cases hs
  | delete i =>
    simp only [World.step] at hs
    split at hs
    · simp only [Option.some.injEq, Prod.mk.injEq] at hs
      obtain ⟨rfl, -⟩ := hs
      rw [collect_servers]
      simp only [hcl]
      rw [List.getElem?_set]
      split
      · rename_i e
        subst e
        rw [if_pos (List.getElem?_eq_some_iff.mp h).1]
      · exact h
    · cases hs
  | use t1 op =>
    simp only [World.step] at hs
    split at hs
    · cases hs
    · split at hs <;>
      · simp only [Option.some.injEq, Prod.mk.injEq] at hs
        obtain ⟨rfl, -⟩ := hs
        exact h

theorem server_run {ss : List Stmt} {w w' : World} (hr : w.run ss = some w') {j : Nat} {l : List (String × Nat)} (h : w.servers[j]? = some (some l)) :
    w'.servers[j]? = some (some l) ∨ w'.servers[j]? = some none := by
  refine run_induct (fun w => w.servers[j]? = some (some l) ∨ w.servers[j]? = some none) (fun w1 s w2 r hp hs _ => ?_) ss w w' (.inl h) hr
  rcases hp with hp | hp
  · exact server_step hs hp
  · exact .inr (deleted_step hs hp)

/-- What `Load` does with the tables: those of which there is a record are replaced by new ones, the others remain. -/
theorem load_effect (chunks : List ChunkRef) (records : List (String × Checkpoint)) :
    ∀ (w : World) (l : List (String × Nat)) (w' : World) (l' : List (String × Nat)), Base w → (l.map Prod.fst).Nodup → load chunks w l records = .ok (w', l') →
      Base w' ∧ l'.map Prod.fst = l.map Prod.fst ∧ w'.servers = w.servers ∧ w.numTabs ≤ w'.numTabs ∧
      (∀ t : Nat, t < w.numTabs → w'.tab t = w.tab t ∧ w'.table t = w.table t) ∧
      (∀ (i : Nat) (name : String) (t : Nat), l[i]? = some (name, t) →
        ∃ t' : Nat, l'[i]? = some (name, t') ∧ (t' = t ∧ name ∉ records.map Prod.fst ∨
          name ∈ records.map Prod.fst ∧ w.numTabs ≤ t' ∧ ∃ (c : Checkpoint) (b : Table), (name, c) ∈ records ∧ restore c chunks = .ok b ∧ w'.table t' = some b)) := by
  induction records with
  | nil =>
    intro w l w' l' hb _ hl
    simp only [load, Res.ok.injEq, Prod.mk.injEq] at hl
    obtain ⟨rfl, rfl⟩ := hl
    exact ⟨hb, rfl, rfl, Nat.le_refl _, fun _ _ => ⟨rfl, rfl⟩, fun i name t h => ⟨t, h, .inl ⟨rfl, by simp⟩⟩⟩
  | cons x records ih =>
    intro w l w' l' hb hnd hl
    obtain ⟨name, c⟩ := x
    unfold load at hl
    split at hl
    · cases hl
    · rename_i i hi
      split at hl
      · rename_i b hr
        have hi' := List.findIdx?_eq_some_iff_getElem.mp hi
        obtain ⟨hlt, hname, -⟩ := hi'
        simp only [decide_eq_true_eq] at hname
        have hfst : (l.set i (name, (w.adopt name b).2)).map Prod.fst = l.map Prod.fst := by
          rw [List.map_set]
          apply List.ext_getElem?
          intro j
          rw [List.getElem?_set]
          split
          · rename_i e
            subst e
            simp [hlt, hname]
          · rfl
        obtain ⟨h1, h2, h3, h4, h5, h6⟩ := ih _ _ _ _ (hb.adopt name b) (by rw [hfst]; exact hnd) hl
        have h4' : w.numTabs + 1 ≤ w'.numTabs := h4
        have h5' : ∀ t : Nat, t < w.numTabs + 1 → w'.tab t = (w.adopt name b).1.tab t ∧ w'.table t = (w.adopt name b).1.table t := h5
        refine ⟨h1, h2.trans hfst, h3, by omega, ?_, ?_⟩
        · intro t ht
          obtain ⟨a1, a2⟩ := h5' t (by omega)
          refine ⟨a1.trans (upd_ne _ _ (by omega)), a2.trans ?_⟩
          rw [adopt_table hb, if_neg (by omega)]
        · intro j n t hj
          by_cases e : j = i
          · subst e
            have hn : n = name := by
              rw [List.getElem?_eq_getElem hlt] at hj
              have := Option.some.inj hj
              rw [this] at hname
              exact hname
            subst hn
            obtain ⟨t', q1, q2⟩ := h6 j n w.numTabs (by simp [hlt, World.adopt])
            refine ⟨t', q1, .inr ⟨by simp, ?_⟩⟩
            rcases q2 with ⟨rfl, q3⟩ | ⟨q3, q4, c', b', q5, q6, q7⟩
            · refine ⟨Nat.le_refl _, c, b, by simp, hr, ?_⟩
              rw [(h5' _ (by omega)).2, adopt_table hb, if_pos rfl]
            · have q4' : w.numTabs + 1 ≤ t' := q4
              exact ⟨by omega, c', b', List.mem_cons_of_mem _ q5, q6, q7⟩
          · have hne : n ≠ name := by
              intro e'
              subst e'
              apply e
              have hj1 : (l.map Prod.fst)[j]? = some n := by simp [hj]
              have hi1 : (l.map Prod.fst)[i]? = some n := by simp [hlt, hname]
              exact (List.getElem?_inj (by
                rw [List.getElem?_eq_some_iff] at hj1
                exact hj1.1) hnd).mp (hj1.trans hi1.symm)
            obtain ⟨t', q1, q2⟩ := h6 j n t (by rw [List.getElem?_set_ne (Ne.symm e)]; exact hj)
            refine ⟨t', q1, ?_⟩
            rcases q2 with ⟨rfl, q3⟩ | ⟨q3, q4, c', b', q5, q6, q7⟩
            · exact .inl ⟨rfl, by simpa [hne] using q3⟩
            · have q4' : w.numTabs + 1 ≤ t' := q4
              exact .inr ⟨List.mem_cons_of_mem _ q3, by omega, c', b', List.mem_cons_of_mem _ q5, q6, q7⟩
      · cases hl
      · cases hl

end World
end Verif
