import Verif.Proofs.Checkpoint
import Verif.Props.C22_Reset
/-
C23: saving a table and loading it again.
-/
namespace Verif
open Table (Op)
open Spec (Discipline)

theorem AMap.Same.entries_perm {κ α} [DecidableEq κ] {m m' : AMap κ α} (h : AMap.Same m m') :
    m'.entries.Perm m.entries := by
  have nd : ∀ m : AMap κ α, m.entries.Nodup := by
    intro m
    have := m.keys_nodup
    rw [AMap.keys, List.Nodup, List.pairwise_map] at this
    exact this.imp (fun hne he => hne (by rw [he]))
  classical
  rw [List.perm_ext_iff_of_nodup (nd _) (nd _)]
  rintro ⟨k, v⟩
  rw [m'.mem_entries_iff, m.mem_entries_iff, h k]

theorem same_episodes {m m' : AMap Key Item} (h : AMap.Same m m') {r r' : AMap Key Nat}
    (hr : RefsOf r (Table.refCount m)) (hr' : RefsOf r' (Table.refCount m')) : AMap.Same r r' := by
  have : ∀ e, Table.refCount m' e = Table.refCount m e := by
    intro e
    exact (h.entries_perm.map _).sum_nat
  intro e
  rw [hr e, hr' e, this]

theorem restored_same {c : Config} {t t' : Table} {items : List Item} (hs : t.SortedItems items)
    (hi : Table.Inv c.sampler c.remover t) (h : Restoring c t items t') : AMap.Same t.data t'.data := by
  obtain ⟨bS, τS, bR, τR, hcore⟩ := hi.core
  have htr := Tracks.of_perm hs.1 hcore.own
  intro k
  have h1 := h.tracks.mem k
  have h2 := htr.mem k
  cases hg : t.data.get? k with
  | none =>
    cases hg' : t'.data.get? k with
    | none => rfl
    | some x =>
      have := (h2 x).mpr ((h1 x).mp hg')
      rw [hg] at this; simp at this
  | some x => exact (h1 x).mpr ((h2 x).mp hg)

section
variable {c : Config} {ops : List Op} {t : Table} {items : List Item} {chunks : List ChunkRef}

/-- What is needed for a checkpoint of `t`: the items in the order in which they were saved, and chunks
that include those of every item and have different keys. -/
structure Table.Saved (t : Table) (items : List Item) (chunks : List ChunkRef) : Prop where
  sorted : t.SortedItems items
  covered : ∀ k it, t.data.get? k = some it → ∀ ch ∈ it.chunks, ch ∈ chunks
  keys : ∀ a b, a ∈ chunks → b ∈ chunks → a.key = b.key → a = b

theorem restored_episodes (h : c.History ops t) (hs : t.Saved items chunks) {t' : Table}
    (hr : Restoring c t items t') : AMap.Same t.episodeRefs t'.episodeRefs := by
  have hreach : c.Reachable t := ⟨ops, h.admissible, h.run⟩
  obtain ⟨bS, τS, bR, τR, hcore⟩ := hreach.inv.core
  obtain ⟨_, _, _, _, hcore'⟩ := hr.core
  exact same_episodes (restored_same hs.sorted hreach.inv hr) hcore.refs hcore'.refs

/-- C23, contents: for every history of requests with admitted priorities and well-formed items, loading a
checkpoint of the table succeeds. The new table has the same items with the same data, priority, sample
count and time of insertion, the same configuration, the same counters and number of episodes; extensions
of the new table are told of every item. (A closed table is open again.) -/
theorem C23_restore (h : c.History ops t) (hs : t.Saved items chunks) :
    ∃ t', restore (t.checkpoint items) chunks = .ok t' ∧ t'.look = t.look ∧
      t'.limiter = { t.limiter with cancelled := false } ∧
      t'.maxSize = t.maxSize ∧ t'.maxTimesSampled = t.maxTimesSampled ∧
      t'.sampler.options = c.sampler ∧ t'.remover.options = c.remover ∧
      t'.log = items.map ExtEvent.insert := by
  obtain ⟨t', h1, h2⟩ := hs.sorted.restore h hs.covered hs.keys
  have hreach : c.Reachable t := ⟨ops, h.admissible, h.run⟩
  have hsame := restored_same hs.sorted hreach.inv h2
  obtain ⟨_, _, _, _, hcore'⟩ := h2.core
  refine ⟨t', h1, ?_, h2.limiter, h2.maxSize, h2.maxTimes, hcore'.samp.options, hcore'.rem.options, h2.log⟩
  have he := restored_episodes h hs h2
  simp only [Table.look, Table.size, Table.numEpisodes, hsame.size, he.size, h2.deleted, h2.unique, h2.limiter,
    Limiter.restored, Prod.mk.injEq, and_self, and_true]
  funext k
  exact hsame k

theorem restored_choices (h : c.History ops t) (hs : t.Saved items chunks) {t' : Table} (hr : Restoring c t items t') :
    ((∀ m : Discipline, m.kind = c.sampler → ClockAdvances ops) → SameChoices c.sampler t.sampler t'.sampler) ∧
    ((∀ m : Discipline, m.kind = c.remover → ClockAdvances ops) → SameChoices c.remover t.remover t'.remover) := by
  have hreach : c.Reachable t := ⟨ops, h.admissible, h.run⟩
  have hsame := restored_same hs.sorted hreach.inv hr
  obtain ⟨bS, τS, bR, τR, hcore⟩ := hreach.inv.core
  obtain ⟨bS', τS', bR', τR', hcore'⟩ := hr.core
  have htr := Tracks.of_perm hs.sorted.1 hcore.own
  constructor
  · intro hc
    refine SameChoices.of_inv hcore.samp hcore'.samp ?_ ?_
    · intro k; rw [hcore.agS, hcore'.agS, hsame k]
    · intro m hm
      rw [hr.samp m hm]
      have hi := hcore.samp
      rw [← hm] at hi
      exact (h.timed_sampler (hc m hm) hm).eq_listed hi.order_nodup
        (fun k => by rw [hi.mem_order, hcore.isSomeS]) htr hs.sorted.2
  · intro hc
    refine SameChoices.of_inv hcore.rem hcore'.rem ?_ ?_
    · intro k; rw [hcore.agR, hcore'.agR, hsame k]
    · intro m hm
      rw [hr.rem m hm]
      have hi := hcore.rem
      rw [← hm] at hi
      exact (h.timed_remover (hc m hm) hm).eq_listed hi.order_nodup
        (fun k => by rw [hi.mem_order, hcore.isSomeR]) htr hs.sorted.2

/-- C23, selection: the selectors of the loaded table choose as those of the saved one, now and after
whatever calls follow: FIFO and LIFO return the same key, uniform the same keys with the same chances,
prioritized the same keys with the same probabilities. For FIFO and LIFO the clock must have advanced
between inserts. -/
theorem C23_selection (h : c.History ops t) (hs : t.Saved items chunks)
    (hclock : ClockAdvances ops ∨ (c.sampler = .uniform ∨ ∃ p, c.sampler = .prio p) ∧
      (c.remover = .uniform ∨ ∃ p, c.remover = .prio p)) :
    ∃ t', restore (t.checkpoint items) chunks = .ok t' ∧
      SameChoices c.sampler t.sampler t'.sampler ∧ SameChoices c.remover t.remover t'.remover := by
  obtain ⟨t', h1, h2⟩ := hs.sorted.restore h hs.covered hs.keys
  have h3 := restored_choices h hs h2
  refine ⟨t', h1, h3.1 ?_, h3.2 ?_⟩
  · intro m hm
    rcases hclock with hc | ⟨hc, _⟩
    · exact hc
    · rcases hc with hc | ⟨p, hc⟩ <;> rw [hc] at hm <;> cases m <;> simp [Discipline.kind] at hm
  · intro m hm
    rcases hclock with hc | ⟨_, hc⟩
    · exact hc
    · rcases hc with hc | ⟨p, hc⟩ <;> rw [hc] at hm <;> cases m <;> simp [Discipline.kind] at hm

/-- C23, behaviour: with FIFO or LIFO for both selectors the loaded table cannot be told from the saved one:
it gives the same answer to every request of every later sequence. -/
theorem C23_replies (h : c.History ops t) (hs : t.Saved items chunks) (hclock : ClockAdvances ops)
    (hopen : t.limiter.cancelled = false) (hsamp : c.sampler = .fifo ∨ c.sampler = .lifo)
    (hrem : c.remover = .fifo ∨ c.remover = .lifo) :
    ∃ t', restore (t.checkpoint items) chunks = .ok t' ∧ ∀ after, t'.replies after = t.replies after ∧
      (t'.run after).map Table.look = (t.run after).map Table.look := by
  obtain ⟨t', h1, h2⟩ := hs.sorted.restore h hs.covered hs.keys
  have h3 := restored_choices h hs h2
  have hreach : c.Reachable t := ⟨ops, h.admissible, h.run⟩
  have hS : Sel.Equiv t.sampler t'.sampler := by
    have := h3.1 (fun _ _ => hclock)
    rcases hsamp with e | e <;> rw [e] at this <;> exact this
  have hR : Sel.Equiv t.remover t'.remover := by
    have := h3.2 (fun _ _ => hclock)
    rcases hrem with e | e <;> rw [e] at this <;> exact this
  have hlim : t'.limiter = t.limiter := by
    rw [h2.limiter, Limiter.restored]
    cases hl : t.limiter
    rw [hl] at hopen
    simp only at hopen
    rw [hopen]
  have tw1 : Table.Twin t.log { t with log := [] } t :=
    ⟨t.sampler, t.remover, t.data, t.episodeRefs, Sel.Equiv.refl _, Sel.Equiv.refl _, AMap.Same.refl _,
      AMap.Same.refl _, by simp [Table.re]⟩
  have tw2 : Table.Twin t'.log { t with log := [] } t' := by
    have hsame := restored_same hs.sorted hreach.inv h2
    refine ⟨t'.sampler, t'.remover, t'.data, t'.episodeRefs, hS, hR, hsame, restored_episodes h hs h2, ?_⟩
    have e1 := h2.maxSize
    have e2 := h2.maxTimes
    have e3 := h2.deleted
    have e4 := h2.unique
    cases t'; cases t
    simp only at hlim e1 e2 e3 e4
    simp [Table.re, hlim, e1, e2, e3, e4]
  refine ⟨t', h1, fun after => ⟨by rw [tw2.replies after, tw1.replies after], ?_⟩⟩
  rcases tw1.run after with ⟨g1, g2⟩ | ⟨u, u', g1, g2, g3⟩
  · rcases tw2.run after with ⟨k1, k2⟩ | ⟨v, v', k1, k2, k3⟩
    · rw [g2, k2]
    · rw [g1] at k1; simp at k1
  · rcases tw2.run after with ⟨k1, k2⟩ | ⟨v, v', k1, k2, k3⟩
    · rw [g1] at k1; simp at k1
    · rw [g1] at k1; cases k1
      rw [g2, k2]
      simp only [Option.map_some, g3.look, k3.look]

end

/-! A queue with updates, samples and a delete, and its checkpoint. -/
def savedCfg : Config := ⟨5, 0, .fifo, .lifo, 1, 1, -5, 5, by decide⟩

def savedOps : List Op :=
  [.insert (demoItem 7 5 10 100) 11 (draw 0),
   .insert (demoItem 2 1 10 100) 12 (draw 0),
   .insert (demoItem 3 2 11 101) 13 (draw 0),
   .insert (demoItem 1 2 12 102) 14 (draw 0),
   .sample 2 (fun _ => draw 0),
   .mutate [(2, .val 3)] [3]]

/-- The table after some requests. -/
def Config.after (c : Config) (ops : List Op) : Table := (c.init.run ops).getD c.init

theorem Config.History.of {c : Config} {ops : List Op} (h1 : ∀ op ∈ ops, c.Admissible op)
    (h2 : ∀ op ∈ ops, ((Op.item op).map fun x => Table.itemValid x.1).getD true = true)
    (h3 : (c.init.run ops).isSome = true) : c.History ops (c.after ops) := by
  refine ⟨h1, ?_, ?_⟩
  · intro op ho i now he
    have := h2 op ho
    rw [he] at this
    exact this
  · obtain ⟨t, ht⟩ := Option.isSome_iff_exists.mp h3
    simp [Config.after, ht]

theorem Table.Saved.of {t : Table} {items : List Item} {chunks : List ChunkRef}
    (h1 : items.isPerm (t.data.entries.map Prod.snd) = true)
    (h2 : items.Pairwise (fun a b => ¬ b.insertedAt < a.insertedAt))
    (h3 : ∀ e ∈ t.data.entries, ∀ ch ∈ e.2.chunks, ch ∈ chunks)
    (h4 : ∀ a ∈ chunks, ∀ b ∈ chunks, a.key = b.key → a = b) : t.Saved items chunks :=
  ⟨⟨List.isPerm_iff.mp h1, h2⟩, fun k it hk => h3 (k, it) ((t.data.mem_entries_iff k it).mpr hk),
    fun a b ha hb => h4 a ha b hb⟩

def savedItems : List Item := [7, 2, 1].filterMap (savedCfg.after savedOps).data.get?

example : savedCfg.History savedOps (savedCfg.after savedOps) :=
  .of (by decide +kernel) (by decide +kernel) (by decide +kernel)

example : (savedCfg.after savedOps).Saved savedItems [⟨12, 102⟩, ⟨10, 100⟩] :=
  .of (by decide +kernel) (by decide +kernel) (by decide +kernel) (by decide +kernel)

example : ClockAdvances savedOps := by unfold ClockAdvances; decide +kernel

example : (savedCfg.after savedOps).limiter.cancelled = false ∧ savedItems.map Item.key = [7, 2, 1] ∧
    savedItems.map Item.timesSampled = [2, 0, 0] ∧ (savedCfg.after savedOps).limiter.deletes = 1 := by decide +kernel

/-! What is not preserved. -/

/-- The choice of a heap among equal priorities: it returns the key touched longest ago, a checkpoint only
records the order of insertion. Keys 1 and 2 are inserted with priority 5, then key 1 gets priority 5 again. -/
theorem C23_heap_ties_not_preserved : ∃ (c : Config) (ops : List Op) (t : Table) (items : List Item)
    (chunks : List ChunkRef) (t' : Table), c.History ops t ∧ ClockAdvances ops ∧ t.Saved items chunks ∧
    restore (t.checkpoint items) chunks = .ok t' ∧
    t.sampler.sample (draw 0) = .ok (2, 1) ∧ t'.sampler.sample (draw 0) = .ok (1, 1) := by
  let c : Config := ⟨5, 0, .heap true, .fifo, 1, 1, -5, 5, by decide⟩
  let ops : List Op := [.insert (demoItem 1 5 10 100) 11 (draw 0), .insert (demoItem 2 5 10 100) 12 (draw 0),
    .mutate [(1, .val 5)] []]
  have h1 : c.History ops (c.after ops) := .of (by decide +kernel) (by decide +kernel) (by decide +kernel)
  have h2 : (c.after ops).Saved ([1, 2].filterMap (c.after ops).data.get?) [⟨10, 100⟩] :=
    .of (by decide +kernel) (by decide +kernel) (by decide +kernel) (by decide +kernel)
  obtain ⟨t', h3, _⟩ := C23_restore h1 h2
  refine ⟨c, ops, c.after ops, _, _, t', h1, by unfold ClockAdvances; decide +kernel, h2, h3, by decide +kernel, ?_⟩
  have h4 : (match restore ((c.after ops).checkpoint ([1, 2].filterMap (c.after ops).data.get?)) [⟨10, 100⟩] with
    | .ok t' => decide (t'.sampler.sample (draw 0) = .ok (1, 1))
    | _ => false) = true := by decide +kernel
  rw [h3] at h4
  simpa using h4

/-- The order of items inserted at the same time: `std::sort` may reverse them. -/
theorem C23_equal_times_not_preserved : ∃ (c : Config) (ops : List Op) (t : Table) (items : List Item)
    (chunks : List ChunkRef) (t' : Table), c.History ops t ∧ c.sampler = .fifo ∧ t.Saved items chunks ∧
    restore (t.checkpoint items) chunks = .ok t' ∧
    t.sampler.sample (draw 0) = .ok (1, 1) ∧ t'.sampler.sample (draw 0) = .ok (2, 1) := by
  let c : Config := ⟨5, 0, .fifo, .fifo, 1, 1, -5, 5, by decide⟩
  let ops : List Op := [.insert (demoItem 1 5 10 100) 11 (draw 0), .insert (demoItem 2 5 10 100) 11 (draw 0)]
  have h1 : c.History ops (c.after ops) := .of (by decide +kernel) (by decide +kernel) (by decide +kernel)
  have h2 : (c.after ops).Saved ([2, 1].filterMap (c.after ops).data.get?) [⟨10, 100⟩] :=
    .of (by decide +kernel) (by decide +kernel) (by decide +kernel) (by decide +kernel)
  obtain ⟨t', h3, _⟩ := C23_restore h1 h2
  refine ⟨c, ops, c.after ops, _, _, t', h1, rfl, h2, h3, by decide +kernel, ?_⟩
  have h4 : (match restore ((c.after ops).checkpoint ([2, 1].filterMap (c.after ops).data.get?)) [⟨10, 100⟩] with
    | .ok t' => decide (t'.sampler.sample (draw 0) = .ok (2, 1))
    | _ => false) = true := by decide +kernel
  rw [h3] at h4
  simpa using h4

end Verif
