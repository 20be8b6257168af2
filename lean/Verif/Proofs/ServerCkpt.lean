import Verif.Spec.ServerCkpt
import Verif.Proofs.Isolation
import Verif.Props.C23_Checkpoint
import Verif.Props.C90_Isolation
/-
Tables of servers that are saved and started again.
-/
namespace Verif
open Table (Op)
namespace ServerCkpt

/-- The item is well formed and its chunks are those that clients have sent. -/
def Fine (w : Wire) (i : Item) : Prop := Table.itemValid i = true ∧ ∀ cr ∈ i.chunks, cr = (w.content cr.key).ref

theorem fine_stable (w : Wire) : StableOn (Fine w) := by
  intro a b h1 h2 h3 ⟨h4, h5⟩
  refine ⟨?_, h3 ▸ h5⟩
  rw [Table.itemValid] at h4 ⊢
  rw [← h2, ← h3]; exact h4

/-- What is true of a table through all restarts. -/
structure Good (w : Wire) (c : Config) (t : Table) : Prop where
  inv : Table.Inv c.sampler c.remover t
  items : t.AllOf (Fine w)
  keeps : c.Keeps t

theorem Good.init (w : Wire) (c : Config) : Good w c c.init :=
  ⟨c.inv_init, fun k it h => by simp [Config.init, Table.make] at h, ⟨rfl, rfl, rfl, rfl, rfl, rfl⟩⟩

/-- A table that is used. -/
theorem Good.run {w : Wire} {c : Config} {t t' : Table} {ops : List Op} (h : Good w c t) (hr : t.run ops = some t') (ha : ∀ op ∈ ops, c.Admissible op)
    (hi : ∀ op ∈ ops, ∀ i now, Op.item op = some (i, now) → ∀ cr ∈ i.chunks, cr = (w.content cr.key).ref)
    (hv : ∀ i now d, Op.insertResume i now d ∈ ops → Table.itemValid i = true)
    (hw : ∀ i now d, Op.workerInsert i now d ∉ ops) : Good w c t' := by
  obtain ⟨t1, mvs, h1, h2, _⟩ := Table.Inv.run ops h.inv (fun op ho => c.okFor (ha op ho))
  rw [hr] at h1
  cases h1
  refine ⟨h2.fin, ?_, Config.Keeps.path h2 h.keeps⟩
  have key : ∀ (ops : List Op) (t : Table), t.AllOf (Fine w) → t.run ops = some t' →
      (∀ op ∈ ops, ∀ i now, Op.item op = some (i, now) → ∀ cr ∈ i.chunks, cr = (w.content cr.key).ref) →
      (∀ i now d, Op.insertResume i now d ∈ ops → Table.itemValid i = true) → (∀ i now d, Op.workerInsert i now d ∉ ops) → t'.AllOf (Fine w) := by
    intro ops
    induction ops with
    | nil => intro t ht hr _ _ _; cases hr; exact ht
    | cons op ops ih =>
      intro t ht hr hi hv hw
      simp only [Table.run] at hr
      split at hr
      · cases hr
      · refine ih _ ?_ hr (fun o ho => hi o (List.mem_cons_of_mem _ ho)) (fun i now d ho => hv i now d (List.mem_cons_of_mem _ ho))
          (fun i now d ho => hw i now d (List.mem_cons_of_mem _ ho))
        by_cases hval : ∀ i now, Op.item op = some (i, now) → Table.itemValid i = true
        · exact (Table.step_fine (fine_stable w) ht fun i now g => ⟨hval i now g, hi op List.mem_cons_self i now g⟩).1
        · obtain ⟨i, h1⟩ := Classical.not_forall.mp hval
          obtain ⟨now, h1⟩ := Classical.not_forall.mp h1
          obtain ⟨g, hbad⟩ := Classical.not_imp.mp h1
          cases op with
          | insert i' now' d =>
            cases g
            have : t.step (.insert i now d) = (t, .err .invalidArgument) := by
              simp only [Table.step, Table.insertOrAssign, hbad]
              rfl
            rw [this]; exact ht
          | insertResume i' now' d => cases g; exact absurd (hv i now d List.mem_cons_self) hbad
          | workerInsert i' now' d => cases g; exact absurd List.mem_cons_self (hw i now d)
          | _ => cases g
  exact key ops t h.items hr hi hv hw

/-- A table that is saved and loaded. -/
theorem Good.restore {w : Wire} {c : Config} {t : Table} {items : List Item} {chunks : List ChunkRef} (h : Good w c t) (hs : t.SortedItems items)
    (hc : ∀ k it, t.data.get? k = some it → ∀ ch ∈ it.chunks, ch ∈ chunks) (hk : ∀ cr ∈ chunks, cr = (w.content cr.key).ref) :
    ∃ t', Verif.restore (t.checkpoint items) chunks = .ok t' ∧ Good w c t' ∧ t'.look = t.look ∧ t'.limiter = { t.limiter with cancelled := false } ∧
      t'.log = items.map ExtEvent.insert := by
  have hval : AllValid t.data := fun k it g => (h.items k it g).1
  obtain ⟨t', h1, h2⟩ := hs.restore_of h.inv hval hc (fun a b ha hb e => by rw [hk a ha, hk b hb, e])
  have hsame := restored_same hs h.inv h2
  obtain ⟨bS, τS, bR, τR, hcore⟩ := h.inv.core
  obtain ⟨bS', τS', bR', τR', hcore'⟩ := h2.core
  have he := same_episodes hsame hcore.refs hcore'.refs
  have hlim : t'.limiter = { t.limiter with cancelled := false } := h2.limiter
  refine ⟨t', h1, ⟨⟨h2.core, ?_, ?_, ?_⟩, fun k it g => h.items k it (by rw [← hsame k]; exact g), ⟨?_, ?_, ?_, ?_, ?_, ?_⟩⟩, ?_, hlim, h2.log⟩
  · rw [hsame.size, h2.maxSize]; exact h.inv.size
  · rw [hlim, hsame.size]; exact h.inv.lim
  · rw [hlim]; exact h.inv.pos
  · rw [h2.maxSize]; exact h.keeps.maxSize
  · rw [h2.maxTimes]; exact h.keeps.maxTimes
  · rw [hlim]; exact h.keeps.spi
  · rw [hlim]; exact h.keeps.minSize
  · rw [hlim]; exact h.keeps.minDiff
  · rw [hlim]; exact h.keeps.maxDiff
  · simp only [Table.look, Table.size, Table.numEpisodes, hsame.size, he.size, h2.deleted, h2.unique, hlim, Prod.mk.injEq, and_true]
    funext k
    exact hsame k

theorem mem_insertRequests {s : Nat} {gen : List Service.Event} {r : InsertReq} (h : r ∈ Service.insertRequests s gen) :
    .insert (.request s r) ∈ gen := by
  simp only [Service.insertRequests, SyncServer.requests, List.mem_filterMap] at h
  obtain ⟨e, ⟨e', he', h1⟩, h2⟩ := h
  split at h1
  · cases h1
    split at h2
    · split at h2
      · cases h2; subst_vars; exact he'
      · cases h2
    · cases h2
  · cases h1

/-- The tables of a server that was started with good tables. -/
theorem serve_good {w : Wire} {cfgs : AMap String Config} {tables : AMap String Table} {gen : List Service.Event} {v : Service}
    (h : (Service.init tables).run w gen = some v) (hd : v.dead = false) (hp : ∀ e ∈ gen, Proper w cfgs (.serve e)) {n : String} {c : Config}
    (hc : cfgs.get? n = some c) {t : Table} (ht : tables.get? n = some t) (hg : Good w c t) :
    ∃ t', v.tables.get? n = some t' ∧ Good w c t' := by
  obtain ⟨ops, t', h1, h2, h3⟩ := Service.C90_own_life h hd ht
  have hitem : ∀ op ∈ ops, ∀ i now, Op.item op = some (i, now) → c.admits i.priority ∧ ∀ cr ∈ i.chunks, cr = (w.content cr.key).ref := by
    intro op ho i now hi
    obtain ⟨s, r, hr, it, g1, g2, ⟨chunks, g3, _, g4⟩⟩ := h3.items op ho i now hi
    have hpr := hp _ (mem_insertRequests hr)
    refine ⟨?_, fun cr hcr => ?_⟩
    · rw [g3]; exact hpr.1 it g1 c (by rw [g2]; exact hc)
    · rw [g3] at hcr
      obtain ⟨ch, hch, rfl⟩ := List.mem_map.mp hcr
      obtain ⟨r', hr', hm⟩ := g4 ch hch
      have := (hp _ (mem_insertRequests hr')).2 ch hm
      show ch.ref = (w.content ch.key).ref
      rw [this]
  refine ⟨t', h2, hg.run h1 (fun op ho => ?_) (fun op ho i now hi => (hitem op ho i now hi).2) (fun i now d ho => ?_) (fun i now d ho => ?_)⟩
  · cases op with
    | insert i now d => exact (hitem _ ho i now rfl).1
    | insertResume i now d => exact (hitem _ ho i now rfl).1
    | workerInsert i now d => exact (hitem _ ho i now rfl).1
    | mutate us ds =>
      have : Op.mutate us ds ∈ Service.calls n gen := by rw [← h3.calls]; exact List.mem_filter.mpr ⟨ho, rfl⟩
      simp only [Service.calls, List.mem_filterMap] at this
      obtain ⟨e, he, g⟩ := this
      split at g
      · rename_i u
        split at g
        · rename_i hu
          cases u with
          | mutate m us' ds' =>
            cases g
            cases hu
            exact hp _ he c hc
          | reset => cases g
          | close => cases g
        · cases g
      · cases g
    | _ => trivial
  · obtain ⟨d', q | ⟨_, q⟩⟩ := h3.inserts _ ho i now rfl
    · cases q
    · exact q
  · obtain ⟨d', q | ⟨q, _⟩⟩ := h3.inserts _ ho i now rfl <;> cases q

theorem foldl_insert_get : ∀ (l : List (String × Table)) (m : AMap String Table), (l.map Prod.fst).Nodup →
    (∀ x ∈ l, (l.foldl (fun m x => m.insert x.1 x.2) m).get? x.1 = some x.2) ∧
    ∀ n, n ∉ l.map Prod.fst → (l.foldl (fun m x => m.insert x.1 x.2) m).get? n = m.get? n
  | [], m, _ => ⟨fun x h => (by cases h), fun _ _ => rfl⟩
  | y :: l, m, hn => by
    simp only [List.map_cons, List.nodup_cons] at hn
    obtain ⟨h1, h2⟩ := foldl_insert_get l (m.insert y.1 y.2) hn.2
    simp only [List.foldl_cons]
    refine ⟨fun x hx => ?_, fun n hx => ?_⟩
    · rcases List.mem_cons.mp hx with rfl | hx
      · rw [h2 _ hn.1, AMap.get?_insert_self]
      · exact h1 x hx
    · simp only [List.map_cons, List.mem_cons, not_or] at hx
      rw [h2 n hx.2, AMap.get?_insert, if_neg hx.1]

theorem tableMap_mem {l : List (String × Table)} (hn : (l.map Prod.fst).Nodup) {n : String} {t : Table} (h : (n, t) ∈ l) :
    (tableMap l).get? n = some t := (foldl_insert_get l .empty hn).1 _ h

theorem tableMap_none {l : List (String × Table)} (hn : (l.map Prod.fst).Nodup) {n : String} (h : n ∉ l.map Prod.fst) :
    (tableMap l).get? n = none := (foldl_insert_get l .empty hn).2 n h

/-- Loading of records of different tables that are all given. -/
theorem load_ok (chunks : List ChunkRef) : ∀ (records : List (String × Checkpoint)) (tables : List (String × Table)), (tables.map Prod.fst).Nodup →
    (records.map Prod.fst).Nodup → (∀ x ∈ records, x.1 ∈ tables.map Prod.fst) → (∀ x ∈ records, ∃ t, restore x.2 chunks = .ok t) →
    ∃ out, loadTables chunks tables records = .ok out ∧ out.map Prod.fst = tables.map Prod.fst ∧
      (∀ x ∈ records, ∀ t, restore x.2 chunks = .ok t → (x.1, t) ∈ out) ∧ ∀ y ∈ tables, y.1 ∉ records.map Prod.fst → y ∈ out
  | [], tables, _, _, _, _ => ⟨tables, rfl, rfl, fun x h => (by cases h), fun _ h _ => h⟩
  | x :: records, tables, ht, hn, hin, hok => by
    simp only [List.map_cons, List.nodup_cons] at hn
    obtain ⟨t, hr⟩ := hok x List.mem_cons_self
    obtain ⟨y, hy, hyx⟩ := List.mem_map.mp (hin x List.mem_cons_self)
    have hfind : ∃ i, findTable tables x.1 = some i := by
      cases hf : findTable tables x.1 with
      | some i => exact ⟨i, rfl⟩
      | none =>
        rw [findTable, List.findIdx?_eq_none_iff] at hf
        have := hf y hy
        simp [hyx] at this
    obtain ⟨i, hi⟩ := hfind
    obtain ⟨hlt, hname, _⟩ := List.findIdx?_eq_some_iff_getElem.mp hi
    have hname : tables[i].1 = x.1 := by simpa using hname
    have hmap : (tables.set i (x.1, t)).map Prod.fst = tables.map Prod.fst := by
      rw [List.map_set]
      apply List.ext_getElem? 
      intro k
      rw [List.getElem?_set]
      split
      · rename_i hk
        subst hk
        simp [hlt, hname]
      · rfl
    obtain ⟨out, h1, h2, h3, h4⟩ := load_ok chunks records (tables.set i (x.1, t)) (by rw [hmap]; exact ht) hn.2
      (fun z hz => by rw [hmap]; exact hin z (List.mem_cons_of_mem _ hz)) (fun z hz => hok z (List.mem_cons_of_mem _ hz))
    obtain ⟨nm, c⟩ := x
    refine ⟨out, ?_, h2.trans hmap, fun z hz t' ht' => ?_, fun z hz hnz => ?_⟩
    · simp only [loadTables, hi]
      simp only at hr
      simp only [hr, h1]
    · rcases List.mem_cons.mp hz with rfl | hz
      · rw [hr] at ht'
        cases ht'
        refine h4 _ ?_ hn.1
        exact List.mem_set hlt _
      · exact h3 z hz t' ht'
    · simp only [List.map_cons, List.mem_cons, not_or] at hnz
      refine h4 z ?_ hnz.2
      obtain ⟨k, hk⟩ := List.getElem?_of_mem hz
      have hki : i ≠ k := by
        intro e
        subst e
        rw [List.getElem?_eq_getElem hlt] at hk
        cases hk
        exact hnz.1 hname
      exact List.mem_of_getElem? (by rw [List.getElem?_set_ne hki]; exact hk)

/-- Names of a start. -/
theorem start_ok {given : List (String × Table)} {s : Saved} (hn : (given.map Prod.fst).Nodup) (hr : (s.tables.map Prod.fst).Nodup)
    (hin : ∀ x ∈ s.tables, x.1 ∈ given.map Prod.fst) (hok : ∀ x ∈ s.tables, ∃ t, restore x.2 s.chunks = .ok t) :
    ∃ m, start given (some s) = .ok m ∧ (∀ x ∈ s.tables, ∀ t, restore x.2 s.chunks = .ok t → m.get? x.1 = some t) ∧
      (∀ y ∈ given, y.1 ∉ s.tables.map Prod.fst → m.get? y.1 = some y.2) ∧ ∀ n, n ∉ given.map Prod.fst → m.get? n = none := by
  obtain ⟨out, h1, h2, h3, h4⟩ := load_ok s.chunks s.tables given hn hr hin hok
  have hno : (out.map Prod.fst).Nodup := by rw [h2]; exact hn
  refine ⟨tableMap out, by simp [start, h1], fun x hx t ht => tableMap_mem hno (h3 x hx t ht), fun y hy hny => tableMap_mem hno (h4 y hy hny),
    fun n hn' => tableMap_none hno (by rw [h2]; exact hn')⟩

/-- A record of a table at some time. -/
def RecordOk (w : Wire) (cfgs : AMap String Config) (chunks : List ChunkRef) (x : String × Checkpoint) : Prop :=
  ∃ c t items, cfgs.get? x.1 = some c ∧ Good w c t ∧ t.SortedItems items ∧ x.2 = t.checkpoint items ∧
    ∀ k it, t.data.get? k = some it → ∀ ch ∈ it.chunks, ch ∈ chunks

theorem RecordOk.mono {w : Wire} {cfgs : AMap String Config} {a b : List ChunkRef} {x : String × Checkpoint} (h : RecordOk w cfgs a x)
    (hab : ∀ ch ∈ a, ch ∈ b) : RecordOk w cfgs b x := by
  obtain ⟨c, t, items, h1, h2, h3, h4, h5⟩ := h
  exact ⟨c, t, items, h1, h2, h3, h4, fun k it hk ch hc => hab ch (h5 k it hk ch hc)⟩

/-- The invariant. -/
structure JInv (w : Wire) (cfgs : AMap String Config) (j : Job) : Prop where
  server : ∃ tables gen v, j.server = .ok v ∧ (Service.init tables).run w gen = some v ∧ (∀ e ∈ gen, Proper w cfgs (.serve e)) ∧
    (∀ n c, cfgs.get? n = some c → ∃ t, tables.get? n = some t ∧ Good w c t) ∧ ∀ n, cfgs.get? n = none → tables.get? n = none
  saving : ∀ s, j.saving = some s → (∀ x ∈ s.records, RecordOk w cfgs s.chunks x) ∧ (s.records.map Prod.fst ++ s.todo).Perm cfgs.keys ∧
    ∀ cr ∈ s.chunks, cr = (w.content cr.key).ref
  latest : ∀ s, j.latest = some s → (∀ x ∈ s.tables, RecordOk w cfgs s.chunks x) ∧ (s.tables.map Prod.fst).Perm cfgs.keys ∧
    ∀ cr ∈ s.chunks, cr = (w.content cr.key).ref

theorem fresh_names (cfgs : AMap String Config) : (fresh cfgs).map Prod.fst = cfgs.keys := by
  simp [fresh, newTables, AMap.keys, Function.comp_def]

theorem mem_fresh {cfgs : AMap String Config} {n : String} {c : Config} (h : cfgs.get? n = some c) : (n, c.init) ∈ fresh cfgs := by
  rw [← AMap.mem_entries_iff] at h
  exact List.mem_map.mpr ⟨_, h, rfl⟩

/-- The server that is started. -/
theorem boot_ok {w : Wire} {cfgs : AMap String Config} {found : Option Saved}
    (h : ∀ s, found = some s → (∀ x ∈ s.tables, RecordOk w cfgs s.chunks x) ∧ (s.tables.map Prod.fst).Perm cfgs.keys ∧
      ∀ cr ∈ s.chunks, cr = (w.content cr.key).ref) :
    ∃ tables, boot (fresh cfgs) found = .ok (Service.init tables) ∧
      (∀ n c, cfgs.get? n = some c → ∃ t, tables.get? n = some t ∧ Good w c t) ∧ (∀ n, cfgs.get? n = none → tables.get? n = none) ∧
      ∀ s, found = some s → ∀ n c t items, cfgs.get? n = some c → Good w c t → t.SortedItems items → (n, t.checkpoint items) ∈ s.tables →
        (∀ k it, t.data.get? k = some it → ∀ ch ∈ it.chunks, ch ∈ s.chunks) →
        ∃ t', tables.get? n = some t' ∧ Good w c t' ∧ t'.look = t.look ∧ t'.limiter = { t.limiter with cancelled := false } ∧
          t'.log = items.map ExtEvent.insert := by
  have hn : ((fresh cfgs).map Prod.fst).Nodup := by rw [fresh_names]; exact cfgs.keys_nodup
  cases found with
  | none =>
    refine ⟨tableMap (fresh cfgs), rfl, fun n c hc => ⟨c.init, tableMap_mem hn (mem_fresh hc), Good.init w c⟩, fun n hc => tableMap_none hn ?_, fun s hs => by cases hs⟩
    rw [fresh_names, AMap.not_mem_keys_iff]; exact hc
  | some s =>
    obtain ⟨h1, h2, h3⟩ := h s rfl
    have hres : ∀ x ∈ s.tables, ∃ c t', cfgs.get? x.1 = some c ∧ restore x.2 s.chunks = .ok t' ∧ Good w c t' := by
      intro x hx
      obtain ⟨c, t, items, g1, g2, g3, g4, g5⟩ := h1 x hx
      obtain ⟨t', q1, q2, _⟩ := g2.restore g3 g5 h3
      exact ⟨c, t', g1, by rw [g4]; exact q1, q2⟩
    obtain ⟨m, m1, m2, m3, m4⟩ := start_ok (given := fresh cfgs) (s := s) hn (h2.nodup_iff.mpr cfgs.keys_nodup)
      (fun x hx => by rw [fresh_names, ← h2.mem_iff]; exact List.mem_map_of_mem hx)
      (fun x hx => by obtain ⟨_, t', _, q, _⟩ := hres x hx; exact ⟨t', q⟩)
    refine ⟨m, by simp [boot, m1], fun n c hc => ?_, fun n hc => m4 n ?_, fun s' hs' n c t items hc hg hso hmem hcov => ?_⟩
    · have : n ∈ s.tables.map Prod.fst := by rw [h2.mem_iff, AMap.mem_keys_iff, hc]; rfl
      obtain ⟨x, hx, rfl⟩ := List.mem_map.mp this
      obtain ⟨c', t', q1, q2, q3⟩ := hres x hx
      rw [hc] at q1
      cases q1
      exact ⟨t', m2 x hx t' q2, q3⟩
    · rw [fresh_names, AMap.not_mem_keys_iff]; exact hc
    · cases hs'
      obtain ⟨t', q1, q2, q3, q4, q5⟩ := hg.restore hso hcov h3
      exact ⟨t', m2 _ hmem t' q1, q2, q3, q4, q5⟩

theorem merge_mem (items : List Item) (chunks : List ChunkRef) (cr : ChunkRef) : cr ∈ merge chunks items ↔ cr ∈ chunks ∨ ∃ i ∈ items, cr ∈ i.chunks := by
  have key : ∀ (l : List ChunkRef) (acc : List ChunkRef), cr ∈ l.foldl (fun l ch => if ch ∈ l then l else l ++ [ch]) acc ↔ cr ∈ acc ∨ cr ∈ l := by
    intro l
    induction l with
    | nil => intro acc; simp
    | cons a l ih =>
      intro acc
      simp only [List.foldl_cons, ih]
      split <;> simp only [List.mem_cons, List.mem_append, List.not_mem_nil, or_false] <;> grind
  rw [merge, key, List.mem_flatMap]

theorem sortedItems_iff {t : Table} {items : List Item} : sortedItems t items = true ↔ t.SortedItems items := by
  simp [sortedItems, Table.SortedItems, List.isPerm_iff]

theorem JInv.init (w : Wire) (cfgs : AMap String Config) : JInv w cfgs (Job.init (fresh cfgs)) := by
  obtain ⟨tables, h1, h2, h3, _⟩ := boot_ok (w := w) (cfgs := cfgs) (found := none) (fun s hs => by cases hs)
  exact ⟨⟨tables, [], _, h1, rfl, (fun e he => by cases he), h2, h3⟩, fun s hs => (by cases hs), fun s hs => (by cases hs)⟩

/-- A table of the running server. -/
theorem JInv.table {w : Wire} {cfgs : AMap String Config} {j : Job} (h : JInv w cfgs j) {v : Service} (hv : j.server = .ok v) (hd : v.dead = false) :
    (∀ n c, cfgs.get? n = some c → ∃ t, v.tables.get? n = some t ∧ Good w c t) ∧ ∀ n, (v.tables.get? n).isSome = (cfgs.get? n).isSome := by
  obtain ⟨tables, gen, v', h1, h2, h3, h4, h5⟩ := h.server
  rw [hv] at h1
  cases h1
  refine ⟨fun n c hc => ?_, fun n => ?_⟩
  · obtain ⟨t, q1, q2⟩ := h4 n c hc
    exact serve_good h2 hd h3 hc q1 q2
  · rw [Service.C90_names h2 hd n]
    cases hc : cfgs.get? n with
    | none => rw [h5 n hc]; rfl
    | some c => obtain ⟨t, q1, _⟩ := h4 n c hc; rw [q1]; rfl

theorem JInv.step {w : Wire} {cfgs : AMap String Config} {j j' : Job} {e : Event} (h : JInv w cfgs j) (hp : Proper w cfgs e) (hs : j.step w e = some j') :
    JInv w cfgs j' := by
  cases e with
  | serve e =>
    simp only [Job.step] at hs
    split at hs
    · rename_i v hv
      split at hs
      · rename_i v' hv'
        cases hs
        obtain ⟨tables, gen, u, h1, h2, h3, h4, h5⟩ := h.server
        rw [hv] at h1
        cases h1
        refine ⟨⟨tables, gen ++ [e], v', rfl, Service.run_snoc h2 hv', fun e' he' => ?_, h4, h5⟩, h.saving, h.latest⟩
        rcases List.mem_append.mp he' with he' | he'
        · exact h3 e' he'
        · rw [List.mem_singleton] at he'; subst he'; exact hp
      · cases hs
    · cases hs
  | save names =>
    simp only [Job.step] at hs
    split at hs
    · rename_i v hv hsv
      split at hs
      · rename_i hc
        cases hs
        simp only [Bool.and_eq_true, Bool.not_eq_true', List.isPerm_iff] at hc
        refine ⟨h.server, fun s hs => ?_, h.latest⟩
        cases hs
        refine ⟨fun x hx => (by cases hx), ?_, fun x hx => by cases hx⟩
        refine hc.2.trans ?_
        rw [List.perm_ext_iff_of_nodup v.tables.keys_nodup cfgs.keys_nodup]
        intro n
        rw [AMap.mem_keys_iff, AMap.mem_keys_iff, (h.table hv hc.1).2 n]
      · cases hs
    · cases hs
  | table items =>
    simp only [Job.step] at hs
    split at hs
    · rename_i v n todo records chunks hv hsv
      split at hs
      · rename_i t ht
        split at hs
        · rename_i hc
          cases hs
          simp only [Bool.and_eq_true, Bool.not_eq_true', sortedItems_iff] at hc
          refine ⟨h.server, fun s hs => ?_, h.latest⟩
          cases hs
          obtain ⟨g1, g2, g3⟩ := h.saving _ hsv
          have hcfg : ∃ c, cfgs.get? n = some c := by
            have := (h.table hv hc.1).2 n
            rw [ht] at this
            exact Option.isSome_iff_exists.mp this.symm
          obtain ⟨c, hcn⟩ := hcfg
          obtain ⟨t', q1, q2⟩ := (h.table hv hc.1).1 n c hcn
          rw [ht] at q1
          cases q1
          have hmem : ∀ i, i ∈ items ↔ ∃ k, t.data.get? k = some i := fun i => by
            rw [hc.2.1.mem_iff, List.mem_map]
            constructor
            · rintro ⟨⟨k, i'⟩, hk, rfl⟩; exact ⟨k, (t.data.mem_entries_iff _ _).mp hk⟩
            · rintro ⟨k, hk⟩; exact ⟨(k, i), (t.data.mem_entries_iff _ _).mpr hk, rfl⟩
          refine ⟨fun x hx => ?_, ?_, fun cr hcr => ?_⟩
          · rcases List.mem_append.mp hx with hx | hx
            · exact (g1 x hx).mono fun ch hch => (merge_mem _ _ _).mpr (.inl hch)
            · rw [List.mem_singleton] at hx
              subst hx
              exact ⟨c, t, items, hcn, q2, hc.2, rfl, fun k it hk ch hch => (merge_mem _ _ _).mpr (.inr ⟨it, (hmem it).mpr ⟨k, hk⟩, hch⟩)⟩
          · simpa using g2
          · rcases (merge_mem _ _ _).mp hcr with hcr | ⟨i, hi, hcr⟩
            · exact g3 cr hcr
            · obtain ⟨k, hk⟩ := (hmem i).mp hi
              exact (q2.items k i hk).2 cr hcr
        · cases hs
      · cases hs
    · cases hs
  | done chunks =>
    simp only [Job.step] at hs
    split at hs
    · rename_i records cs hsv
      split at hs
      · rename_i hc
        cases hs
        rw [List.isPerm_iff] at hc
        refine ⟨h.server, fun s hs => (by cases hs), fun s hs => ?_⟩
        cases hs
        obtain ⟨g1, g2, g3⟩ := h.saving _ hsv
        exact ⟨fun x hx => (g1 x hx).mono fun ch hch => hc.mem_iff.mpr hch, by simpa using g2, fun cr hcr => g3 cr (hc.mem_iff.mp hcr)⟩
      · cases hs
    · cases hs
  | fail =>
    cases hs
    exact ⟨h.server, fun s hs => (by cases hs), h.latest⟩
  | restart given =>
    cases hs
    have hp : given = fresh cfgs := hp
    subst hp
    obtain ⟨tables, h1, h2, h3, _⟩ := boot_ok h.latest
    exact ⟨⟨tables, [], _, h1, rfl, (fun e he => by cases he), h2, h3⟩, fun s hs => (by cases hs), h.latest⟩

theorem JInv.run {w : Wire} {cfgs : AMap String Config} : ∀ {evs : List Event} {j j' : Job}, JInv w cfgs j → (∀ e ∈ evs, Proper w cfgs e) →
    j.run w evs = some j' → JInv w cfgs j'
  | [], j, j', h, _, hr => by cases hr; exact h
  | e :: evs, j, j', h, hp, hr => by
    simp only [Job.run] at hr
    split at hr
    · cases hr
    · rename_i j1 hs
      exact (h.step (hp e List.mem_cons_self) hs).run (fun e he => hp e (List.mem_cons_of_mem _ he)) hr

theorem run_append {w : Wire} : ∀ {a b : List Event} {j j' : Job}, j.run w (a ++ b) = some j' → ∃ j1, j.run w a = some j1 ∧ j1.run w b = some j'
  | [], b, j, j', h => ⟨j, rfl, h⟩
  | e :: a, b, j, j', h => by
    simp only [List.cons_append, Job.run] at h ⊢
    split at h
    · cases h
    · rename_i j2 hs
      exact run_append h

theorem run_append_of {w : Wire} : ∀ {a b : List Event} {j j1 j' : Job}, j.run w a = some j1 → j1.run w b = some j' → j.run w (a ++ b) = some j'
  | [], b, j, j1, j', h, h' => by cases h; exact h'
  | e :: a, b, j, j1, j', h, h' => by
    simp only [List.cons_append, Job.run] at h ⊢
    split at h
    · cases h
    · exact run_append_of h h'

/-- The records written since a call of `Checkpoint` began. -/
structure Written (w : Wire) (j0 : Job) (names : List String) (b : List Event) (s : Saving) : Prop where
  names : s.records.map Prod.fst ++ s.todo = names
  records : ∀ x ∈ s.records, ∃ b1 items b2 j1 t, b = b1 ++ .table items :: b2 ∧ j0.run w b1 = some j1 ∧ j1.table x.1 = some t ∧ t.SortedItems items ∧
    x.2 = t.checkpoint items ∧ ∀ k it, t.data.get? k = some it → ∀ ch ∈ it.chunks, ch ∈ s.chunks

theorem Written.step {w : Wire} {j0 j j' : Job} {names : List String} {b : List Event} {e : Event} (hr : j0.run w b = some j)
    (h : ∀ s, j.saving = some s → Written w j0 names b s) (hs : j.step w e = some j') (he : ∀ ns, e ≠ .save ns) :
    ∀ s, j'.saving = some s → Written w j0 names (b ++ [e]) s := by
  have old : ∀ s, j.saving = some s → Written w j0 names (b ++ [e]) s := fun s hs => by
    obtain ⟨h1, h2⟩ := h s hs
    refine ⟨h1, fun x hx => ?_⟩
    obtain ⟨b1, items, b2, j1, t, q1, q⟩ := h2 x hx
    exact ⟨b1, items, b2 ++ [e], j1, t, by simp [q1], q⟩
  cases e with
  | serve e =>
    simp only [Job.step] at hs
    split at hs
    · split at hs
      · cases hs; exact old
      · cases hs
    · cases hs
  | save names => exact absurd rfl (he names)
  | table items =>
    simp only [Job.step] at hs
    split at hs
    · rename_i v n todo records chunks hv hsv
      split at hs
      · rename_i t ht
        split at hs
        · rename_i hc
          cases hs
          simp only [Bool.and_eq_true, Bool.not_eq_true', sortedItems_iff] at hc
          intro s hs
          cases hs
          obtain ⟨h1, h2⟩ := old _ hsv
          refine ⟨by rw [← h1]; simp, fun x hx => ?_⟩
          rcases List.mem_append.mp hx with hx | hx
          · obtain ⟨b1, it, b2, j1, t1, q1, q2, q3, q4, q5, q6⟩ := h2 x hx
            exact ⟨b1, it, b2, j1, t1, q1, q2, q3, q4, q5, fun k i hk ch hch => (merge_mem _ _ _).mpr (.inl (q6 k i hk ch hch))⟩
          · rw [List.mem_singleton] at hx
            subst hx
            refine ⟨b, items, [], j, t, rfl, hr, by simp [Job.table, hv, hc.1, ht], hc.2, rfl, fun k i hk ch hch => (merge_mem _ _ _).mpr (.inr ⟨i, ?_, hch⟩)⟩
            rw [hc.2.1.mem_iff, List.mem_map]
            exact ⟨(k, i), (t.data.mem_entries_iff _ _).mpr hk, rfl⟩
        · cases hs
      · cases hs
    · cases hs
  | done chunks =>
    simp only [Job.step] at hs
    split at hs
    · split at hs
      · cases hs; intro s hs; cases hs
      · cases hs
    · cases hs
  | fail => cases hs; intro s hs; cases hs
  | restart given => cases hs; intro s hs; cases hs

theorem Written.run {w : Wire} {j0 : Job} {names : List String} : ∀ {b2 b1 : List Event} {j j' : Job}, j0.run w b1 = some j →
    (∀ s, j.saving = some s → Written w j0 names b1 s) → j.run w b2 = some j' → (∀ ns, .save ns ∉ b2) →
    ∀ s, j'.saving = some s → Written w j0 names (b1 ++ b2) s
  | [], b1, j, j', hr, h, h2, hn => by cases h2; simpa using h
  | e :: b2, b1, j, j', hr, h, h2, hn => by
    simp only [Job.run] at h2
    split at h2
    · cases h2
    · rename_i j1 hs
      have hr1 : j0.run w (b1 ++ [e]) = some j1 := run_append_of hr (by simp [Job.run, hs])
      have := Written.run hr1 (Written.step hr h hs (fun ns he => hn ns (by rw [he]; exact List.mem_cons_self))) h2
        (fun ns hm => hn ns (List.mem_cons_of_mem _ hm))
      simpa using this

/-- The latest checkpoint stays until the next one. -/
theorem latest_run {w : Wire} : ∀ {d : List Event} {j j' : Job}, j.run w d = some j' → (∀ ch, .done ch ∉ d) → j'.latest = j.latest
  | [], j, j', h, _ => by cases h; rfl
  | e :: d, j, j', h, hn => by
    simp only [Job.run] at h
    split at h
    · cases h
    · rename_i j1 hs
      rw [latest_run h fun ch hm => hn ch (List.mem_cons_of_mem _ hm)]
      cases e with
      | serve e =>
        simp only [Job.step] at hs
        split at hs
        · split at hs
          · cases hs; rfl
          · cases hs
        · cases hs
      | save names =>
        simp only [Job.step] at hs
        split at hs
        · split at hs
          · cases hs; rfl
          · cases hs
        · cases hs
      | table items =>
        simp only [Job.step] at hs
        split at hs
        · split at hs
          · split at hs
            · cases hs; rfl
            · cases hs
          · cases hs
        · cases hs
      | done ch => exact absurd List.mem_cons_self (hn ch)
      | fail => cases hs; rfl
      | restart given => cases hs; rfl

end ServerCkpt
end Verif
