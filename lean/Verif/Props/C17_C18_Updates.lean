import Verif.Props.C12_C13_C14_Contents
/-
C17, C18: inserts of existing keys and `MutateItems`.
-/
namespace Verif
open Table (Op Mv Inv Path MStep)

/-- C17: `InsertOrAssign` of a key that is in the table succeeds without consulting the rate limiter
and changes the priority of that item, telling the selectors and the extensions, and nothing else. (The
FIFO and LIFO selectors do not react to the update at all.) -/
theorem C17_insert_existing (c : Config) (t : Table) (h : c.Reachable t) (i it : Item) (now : Int) (d : Draw)
    (hv : Table.itemValid i = true) (hp : c.admits i.priority) (hk : t.get i.key = some it) :
    ∃ t', t.step (.insert i now d) = (t', .ok .done) ∧
      (∀ k, t'.get k = if k = i.key then some { it with priority := i.priority } else t.get k) ∧
      t'.size = t.size ∧ t'.limiter = t.limiter ∧ t'.episodeRefs = t.episodeRefs ∧
      t'.numDeletedEpisodes = t.numDeletedEpisodes ∧ t'.numUniqueSamples = t.numUniqueSamples ∧
      t'.log = t.log ++ [.update { it with priority := i.priority }] ∧
      (c.sampler = .fifo ∨ c.sampler = .lifo → t'.sampler = t.sampler) ∧
      (c.remover = .fifo ∨ c.remover = .lifo → t'.remover = t.remover) := by
  obtain ⟨bS, τS, bR, τR, hc⟩ := h.inv.core
  have hpri : Table.okPri c.sampler c.remover i.priority = true := by simp [Table.okPri, hp.1, hp.2]
  obtain ⟨t', h1, h2, h3, h4, h5, h6, h7, h8, h9, h10, hS, hR⟩ := hc.update hk hpri
  refine ⟨t', ?_, ?_, ?_, h4, h10, h9, h8, h5, ?_, ?_⟩
  · have : t.data.contains i.key = true := by simp only [Table.get] at hk; simp [AMap.contains, hk]
    simp [Table.step, Table.insertOrAssign, hv, this, h1, Table.reply]
  · intro k; simp only [Table.get, h3, AMap.get?_insert]
  · simp only [Table.size, h3]; exact AMap.size_insert_of_some _ hk
  · intro hfl
    have hi := hc.samp
    rw [hS]
    rcases hfl with e | e <;> rw [e] at hi <;> cases hs : t.sampler <;> rw [hs] at hi <;> simp only [Sel.Inv] at hi <;>
      simp only [Sel.apply, ListSel.applyFifo, ListSel.applyLifo, ListSel.update] <;> split <;> rfl
  · intro hfl
    have hi := hc.rem
    rw [hR]
    rcases hfl with e | e <;> rw [e] at hi <;> cases hs : t.remover <;> rw [hs] at hi <;> simp only [Sel.Inv] at hi <;>
      simp only [Sel.apply, ListSel.applyFifo, ListSel.applyLifo, ListSel.update] <;> split <;> rfl

/-- The table worker handles such an insert in the same way, but only once the rate limiter would let
a new item in. -/
theorem C17_worker_insert_existing (c : Config) (t : Table) (h : c.Reachable t) (i it : Item) (now : Int) (d : Draw)
    (hv : Table.itemValid i = true) (hk : t.get i.key = some it) :
    t.step (.workerInsert i now d) =
      if t.limiter.canInsert 1 then t.step (.insert i now d) else (t, .ok .blocked) := by
  have : t.data.contains i.key = true := by simp only [Table.get] at hk; simp [AMap.contains, hk]
  simp [Table.step, Table.workerInsert, Table.insertInternal, Table.insertOrAssign, hv, this]

/-- The last priority that a list of updates gives for a key. -/
def lastPriority (updates : List (Key × Pri)) (k : Key) : Option Pri :=
  ((updates.filter fun u => u.1 = k).getLast?).map Prod.snd

theorem lastPriority_cons (u : Key × Pri) (us : List (Key × Pri)) (k : Key) :
    lastPriority (u :: us) k = (lastPriority us k).or (if u.1 = k then some u.2 else none) := by
  unfold lastPriority
  by_cases h : u.1 = k
  · simp only [List.filter_cons, h, decide_true, if_true]
    cases hf : us.filter (fun u => decide (u.1 = k)) with
    | nil => simp
    | cons a l => simp [List.getLast?_cons]
  · simp [List.filter_cons, h]

theorem deleteAll_get {kS kR} (ks : List Key) : ∀ {t}, Inv kS kR t →
    ∃ t', t.deleteAll ks = (t', .ok ()) ∧ Inv kS kR t' ∧
      (∀ k, t'.get k = if k ∈ ks then none else t.get k) ∧ t'.limiter.inserts = t.limiter.inserts ∧
      t'.limiter.samples = t.limiter.samples := by
  induction ks with
  | nil => intro t h; exact ⟨t, rfl, h, by simp, rfl, rfl⟩
  | cons x ks ih =>
    intro t h
    simp only [Table.deleteAll]
    cases hk : t.data.get? x with
    | none =>
      have : t.deleteItem x = (t, .ok ()) := by simp [Table.deleteItem, hk]
      obtain ⟨t', h1, h2, h3, h4, h5⟩ := ih h
      simp only [this, h1]
      refine ⟨t', rfl, h2, ?_, h4, h5⟩
      intro k
      rw [h3]
      by_cases hkx : k = x
      · subst hkx; simp only [Table.get, hk, List.mem_cons_self, if_true]; split <;> rfl
      · simp [hkx]
    | some it =>
      obtain ⟨t1, h1, hp⟩ := h.delete hk
      obtain ⟨t', g1, g2, g3, g4, g5⟩ := ih hp.fin
      simp only [h1, g1]
      have hown : it.key = x := by obtain ⟨_, _, _, _, hc⟩ := h.core; exact hc.own x it hk
      cases hp with
      | cons _ hm hp' =>
        cases hp'
        obtain ⟨_, he, _⟩ := hm
        refine ⟨t', rfl, g2, ?_, ?_, ?_⟩
        · intro k
          rw [g3]
          simp only [Table.get, he.data, AMap.get?_erase, hown]
          by_cases hkx : k = x <;> simp [hkx]
        · rw [g4, he.limiter]; rfl
        · rw [g5, he.limiter]; rfl

theorem updateAll_get {kS kR} (us : List (Key × Pri)) : ∀ {t}, Inv kS kR t →
    (∀ u ∈ us, Table.okPri kS kR u.2 = true) →
    ∃ t', t.updateAll us = (t', .ok ()) ∧
      (∀ k, t'.get k = match lastPriority us k with
        | some p => (t.get k).map fun it => { it with priority := p }
        | none => t.get k) ∧ t'.limiter = t.limiter := by
  induction us with
  | nil => intro t h _; exact ⟨t, rfl, by simp [lastPriority], rfl⟩
  | cons u us ih =>
    intro t h hok
    simp only [Table.updateAll]
    have hok' : ∀ v ∈ us, Table.okPri kS kR v.2 = true := fun v hv => hok v (List.mem_cons_of_mem _ hv)
    cases hk : t.data.get? u.1 with
    | none =>
      have : t.updateItem u.1 u.2 = (t, .ok ()) := by simp [Table.updateItem, hk]
      obtain ⟨t', h1, h2, h3⟩ := ih h hok'
      simp only [this, h1]
      refine ⟨t', rfl, ?_, h3⟩
      intro k
      rw [h2, lastPriority_cons]
      by_cases hkx : u.1 = k
      · subst hkx
        simp only [Table.get, hk, if_true]
        cases lastPriority us u.1 <;> simp
      · simp [hkx]
    | some it =>
      obtain ⟨t1, h1, hp⟩ := h.update hk (hok u (by simp))
      obtain ⟨t', g1, g2, g3⟩ := ih hp.fin hok'
      simp only [h1, g1]
      have hown : it.key = u.1 := by obtain ⟨_, _, _, _, hc⟩ := h.core; exact hc.own u.1 it hk
      cases hp with
      | cons _ hm hp' =>
        cases hp'
        obtain ⟨_, he, _⟩ := hm
        refine ⟨t', rfl, ?_, by rw [g3, he.limiter]⟩
        intro k
        rw [g2, lastPriority_cons]
        simp only [Table.get, he.data, AMap.get?_insert, hown]
        by_cases hkx : k = u.1
        · subst hkx
          rw [hk]
          cases lastPriority us u.1 <;> simp [hown]
        · have : ¬ u.1 = k := fun e => hkx e.symm
          simp [hkx, this]

/-- C18: `MutateItems` succeeds without blocking, removes the keys in `deletes`, gives the last requested
priority to the other keys in `updates`, ignores keys that are not in the table and changes no other
item; no insert or sample is counted. -/
theorem C18_mutate (c : Config) (t : Table) (h : c.Reachable t) (updates : List (Key × Pri)) (deletes : List Key)
    (hp : ∀ u ∈ updates, c.admits u.2) :
    ∃ t', t.step (.mutate updates deletes) = (t', .ok .done) ∧
      (∀ k, t'.get k =
        if k ∈ deletes then none
        else match lastPriority updates k with
          | some p => (t.get k).map fun it => { it with priority := p }
          | none => t.get k) ∧
      t'.limiter.inserts = t.limiter.inserts ∧ t'.limiter.samples = t.limiter.samples := by
  obtain ⟨t1, h1, h2, h3, h4, h5⟩ := deleteAll_get deletes h.inv
  obtain ⟨t2, g1, g2, g3⟩ := updateAll_get updates h2 (fun u hu => by simp [Table.okPri, (hp u hu).1, (hp u hu).2])
  refine ⟨t2, by simp [Table.step, Table.mutateItems, h1, g1, Table.reply], ?_, by rw [g3, h4], by rw [g3, h5]⟩
  intro k
  rw [g2, h3]
  by_cases hk : k ∈ deletes
  · simp only [hk, if_true]; cases lastPriority updates k <;> rfl
  · simp [hk]

/-! The demonstration: key 1 is inserted again with another priority; a mutation with a repeated key, a
key in both lists and unknown keys. -/
example : ∃ t, demoCfg.Reachable t ∧
    decide ((t.get 1).map (fun it => (it.priority, it.insertedAt)) = some (.val 5, 11) ∧
      Table.itemValid (demoItem 1 4 10 100) = true ∧ demoCfg.sampler.accept (demoItem 1 4 10 100).priority = true ∧
      ((t.step (.insert (demoItem 1 4 10 100) 14 (draw 0))).1.get 1).map (fun it => (it.priority, it.insertedAt)) =
        some (.val 4, 11)) = true :=
  Config.witness (demoOps.take 4) _ (fun op h => demo_ok op (List.mem_of_mem_take h)) (by decide +kernel)
example : ∃ t, demoCfg.Reachable t ∧
    decide (t.size = 3 ∧
      (t.step (.mutate [(2, .val 3), (3, .val 7), (77, .val 1), (2, .val 8)] [99, 3])).1.get 3 = none ∧
      ((t.step (.mutate [(2, .val 3), (3, .val 7), (77, .val 1), (2, .val 8)] [99, 3])).1.get 2).map Item.priority =
        some (.val 8)) = true :=
  Config.witness (demoOps.take 4) _ (fun op h => demo_ok op (List.mem_of_mem_take h)) (by decide +kernel)

end Verif
