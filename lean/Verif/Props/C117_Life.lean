import Verif.Proofs.Life
import Verif.Props.C19_C21_C54_Accounting
/-
C117: what a table guarantees, it guarantees over all the servers it lives on.
-/
namespace Verif
open Table (Op)
open Spec (Discipline inserted deleted sampled)
section
variable {c : Config} {log : List ExtEvent} {t : Table}

/-- C117: whatever has happened to the table, its checkpoint can be loaded, and the history goes on where it
was: the same items with the same sample counts, the same counters; the new table is open even if the old one
had been closed. -/
theorem C117_loads (h : c.Life log t) {items : List Item} {chunks : List ChunkRef} (hs : t.Saved items chunks) :
    ∃ t', restore (t.checkpoint items) chunks = .ok t' ∧ c.Life log t' ∧ (∀ k, t'.get k = t.get k) ∧
      t'.limiter = { t.limiter with cancelled := false } := by
  obtain ⟨t', h1, _, h2, _, h3, _⟩ := h.alive.loaded hs
  exact ⟨t', h1, h.loaded hs h1, h2, h3⟩

/-- C117, size (C12). -/
theorem C117_size (h : c.Life log t) : t.size ≤ c.maxSize := by
  have h1 := h.alive.inv.size
  rw [h.alive.keeps.maxSize] at h1
  exact h1

/-- C117, contents (C54): the notifications of all servers, without those of loading, make sense one after the
other, and the items reconstructed from them are those in the table. -/
theorem C117_items (h : c.Life log t) :
    ∃ l, Spec.live log = some l ∧ l.length = t.size ∧ (l.map Item.key).Nodup ∧
      ∀ k it, t.get k = some it ↔ it ∈ l ∧ it.key = k := by
  obtain ⟨l, hl⟩ := h.alive.told
  exact ⟨l, hl.live, hl.tracks.length, hl.tracks.nodup, hl.tracks.mem⟩

/-- C117, selectors (C13): the sampler and the remover know exactly the items of the table, and draw one of
them if there is one. -/
theorem C117_selectors (h : c.Life log t) :
    (∀ k, (t.get k).isSome ↔ t.sampler.Knows k) ∧ (∀ k, (t.get k).isSome ↔ t.remover.Knows k) ∧
    (∀ d, t.size ≠ 0 → ∃ k pr, t.sampler.sample d = .ok (k, pr) ∧ (t.get k).isSome) ∧
    (∀ d, t.size ≠ 0 → ∃ k pr, t.remover.sample d = .ok (k, pr) ∧ (t.get k).isSome) := by
  obtain ⟨bS, τS, bR, τR, hc⟩ := h.alive.inv.core
  refine ⟨?_, ?_, ?_, ?_⟩
  · intro k; rw [hc.samp.knows, hc.isSomeS]; rfl
  · intro k; rw [hc.rem.knows, hc.isSomeR]; rfl
  · intro d hn
    obtain ⟨k, pr, it, h1, h2⟩ := hc.sampleKey (by simp only [Table.size] at hn; omega) d
    exact ⟨k, pr, h1, by simp [Table.get, h2]⟩
  · intro d hn
    obtain ⟨k, pr, it, h1, h2⟩ := hc.removeKey (by simp only [Table.size] at hn; omega) d
    exact ⟨k, pr, h1, by simp [Table.get, h2]⟩

/-- C117, samples (C15): every sample ever taken, on whichever server, reports how often the item has been
sampled since it was inserted, on all servers together, and this is at most `max_times_sampled`; the items
in the table have been sampled less often. -/
theorem C117_max_times_sampled (hm : 0 < c.maxTimesSampled) (h : c.Life log t) :
    (∀ pre i post, log = pre ++ .sample i :: post →
      i.timesSampled = ((Spec.samplesOf i.key pre + 1 : Nat) : Int) ∧ i.timesSampled ≤ c.maxTimesSampled) ∧
    (∀ k it, t.get k = some it →
      it.timesSampled = ((Spec.samplesOf k log : Nat) : Int) ∧ it.timesSampled < c.maxTimesSampled) := by
  have hs := h.alive.counts
  have hk : (t.withLog log).maxTimesSampled = c.maxTimesSampled := h.alive.keeps.maxTimes
  constructor
  · intro pre i post he
    obtain ⟨h1, h2⟩ := hs.st.fine pre i post he
    rw [hk] at h2
    exact ⟨by rw [h1]; simp, h2 hm⟩
  · intro k it hg
    refine ⟨hs.st.pres k it hg, ?_⟩
    have := hs.lt (by rw [hk]; exact hm) k it hg
    rwa [hk] at this

/-- C117, counts (C19, C20, C21): what the table reports counts the insertions, removals, samples, different
items sampled and ended episodes on all servers together, since the last reset. -/
theorem C117_counts (h : c.Life log t) :
    t.limiter.inserts = (inserted log : Nat) ∧ t.limiter.deletes = (deleted log : Nat) ∧
    t.limiter.samples = (sampled log : Nat) ∧ t.limiter.inserts - t.limiter.deletes = (t.size : Nat) ∧
    t.numUniqueSamples = Spec.uniqueSamples log ∧ t.numDeletedEpisodes = Spec.endedEpisodes log ∧
    ∃ l, (∀ it, it ∈ l ↔ t.get it.key = some it) ∧ t.numEpisodes = (Spec.episodes l).length := by
  obtain ⟨l, hl⟩ := h.alive.told
  obtain ⟨bS, τS, bR, τR, hc⟩ := h.alive.inv.core
  refine ⟨hl.inserts, hl.deletes, hl.samples, h.alive.inv.lim, h.alive.counts.st.uniq, ?_, l, ?_, ?_⟩
  · have := hl.ended
    unfold Table.endedState at this
    unfold Spec.endedEpisodes
    exact (congrArg Prod.snd this).symm
  · intro it
    exact ⟨fun hm => (hl.tracks.mem _ _).mpr ⟨hm, rfl⟩, fun hm => ((hl.tracks.mem _ _).mp hm).1⟩
  · exact (hl.tracks.episodes hc.refs).symm

/-- C117, rate limits (C07, C08): the bounds between insertions and samples hold for the counts of all
servers together. -/
theorem C117_ratio (h : c.Life log t) :
    (0 ≤ c.spi → sampled log = 0 ∨ (sampled log : Rat) ≤ (inserted log : Rat) * c.spi - c.minDiff) ∧
    ((t.size : Int) ≤ c.minSize ∨ (inserted log : Rat) * c.spi - sampled log ≤ c.maxDiff) := by
  obtain ⟨h1, _, h2, h3, _⟩ := C117_counts h
  constructor
  · intro hs
    have := h.alive.ratio hs
    rw [h1, h2] at this
    rcases this with g | g
    · left; omega
    · right
      have g : c.minDiff ≤ (inserted log : Rat) * c.spi - (sampled log : Rat) := by exact_mod_cast g
      grind
  · have := h.alive.surplus
    rw [h3, h1, h2] at this
    rcases this with g | g
    · exact .inl g
    · exact .inr (by exact_mod_cast g)

/-- C117, order: if the clock has advanced from each insertion to the next, on all servers together, then a
FIFO sampler (remover) draws the item that has been in the table longest and a LIFO sampler (remover) the one
inserted last. -/
theorem C117_order (h : c.Life log t) (hc : (Spec.stamps log).Pairwise (· < ·)) (d : Draw) (k : Key) (pr : Rat) :
    (c.sampler = .fifo → t.sampler.sample d = .ok (k, pr) → ∃ it, t.get k = some it ∧ pr = 1 ∧
      ∀ k' it', t.get k' = some it' → k' ≠ k → it.insertedAt < it'.insertedAt) ∧
    (c.sampler = .lifo → t.sampler.sample d = .ok (k, pr) → ∃ it, t.get k = some it ∧ pr = 1 ∧
      ∀ k' it', t.get k' = some it' → k' ≠ k → it'.insertedAt < it.insertedAt) ∧
    (c.remover = .fifo → t.remover.sample d = .ok (k, pr) → ∃ it, t.get k = some it ∧ pr = 1 ∧
      ∀ k' it', t.get k' = some it' → k' ≠ k → it.insertedAt < it'.insertedAt) ∧
    (c.remover = .lifo → t.remover.sample d = .ok (k, pr) → ∃ it, t.get k = some it ∧ pr = 1 ∧
      ∀ k' it', t.get k' = some it' → k' ≠ k → it'.insertedAt < it.insertedAt) := by
  have hl := (h.listed hc).1
  obtain ⟨bS, τS, bR, τR, hcore⟩ := h.alive.inv.core
  have key : ∀ (m : Discipline) (s : Sel) (b : Spec.Book) (τ : Nat), Sel.Inv m.kind s b τ → (∀ k, (b k).isSome = (t.data.get? k).isSome) →
      Timed m s.order t.data → s.sample d = .ok (k, pr) →
      ∃ it, t.get k = some it ∧ pr = 1 ∧ ∀ k' it', t.get k' = some it' → k' ≠ k → m.earlier it it' := by
    intro m s b τ hi hp ht hsm
    cases ho : s.order with
    | nil =>
      exfalso
      rw [hi.order_died ho d] at hsm
      cases hsm
    | cons k0 r =>
      have h1 := hi.order_sample ho d
      rw [hsm] at h1
      cases h1
      have hk : (t.data.get? k).isSome := by rw [← hp, ← hi.mem_order, ho]; simp
      obtain ⟨it, hit⟩ := Option.isSome_iff_exists.mp hk
      refine ⟨it, hit, rfl, ?_⟩
      intro k' it' hk' hne'
      have hm : k' ∈ s.order := by rw [hi.mem_order, hp]; simp [show t.data.get? k' = some it' from hk']
      rw [ho] at hm ht
      have hr : k' ∈ r := by simpa [hne'] using hm
      exact (List.pairwise_cons.mp ht).1 k' hr it it' hit hk'
  refine ⟨fun e hsm => ?_, fun e hsm => ?_, fun e hsm => ?_, fun e hsm => ?_⟩
  · exact key .queue _ _ _ (e ▸ hcore.samp :) hcore.isSomeS (hl.samp .queue e.symm) hsm
  · exact key .stack _ _ _ (e ▸ hcore.samp :) hcore.isSomeS (hl.samp .stack e.symm) hsm
  · exact key .queue _ _ _ (e ▸ hcore.rem :) hcore.isSomeR (hl.rem .queue e.symm) hsm
  · exact key .stack _ _ _ (e ▸ hcore.rem :) hcore.isSomeR (hl.rem .stack e.symm) hsm

end

/-! Two servers: the first stores items 7, 2 and 3, samples 7, deletes 3 and is closed and saved. The second
samples 7 again, which is its second and last time, and stores 4. -/
namespace LifeDemo

def cfg : Config := ⟨3, 2, .fifo, .lifo, 1, 1, -5, 5, by decide⟩

def first : List Op :=
  [.insert (demoItem 7 5 10 100) 11 (draw 0), .insert (demoItem 2 1 10 100) 12 (draw 0),
   .insert (demoItem 3 2 11 101) 13 (draw 0), .sample 1 (fun _ => draw 0), .mutate [] [3], .close]

def second : List Op := [.sample 1 (fun _ => draw 0), .insert (demoItem 4 2 12 102) 20 (draw 0)]

def saved : Table := cfg.after first
def items : List Item := [7, 2].filterMap saved.data.get?

def loaded : Table :=
  match restore (saved.checkpoint items) [⟨10, 100⟩] with
  | .ok t => t
  | _ => saved

def last : Table := (loaded.run second).getD loaded
def log : List ExtEvent := saved.log ++ last.log.drop loaded.log.length

theorem life : cfg.Life log last := by
  have h1 : cfg.Life saved.log saved := by
    have := (Config.Life.new (c := cfg)).used (ops := first) (t' := saved) (news := saved.log) (by decide +kernel) ?_ ?_ rfl
    · exact this
    · intro op ho i now he
      have : ∀ op ∈ first, ((Op.item op).map fun x => decide (Table.itemValid x.1 = true ∧ x.1.timesSampled = 0)).getD true = true := by
        decide +kernel
      have := this op ho
      rw [he] at this
      simpa using this
    · have : (cfg.init.run first).isSome = true := by decide +kernel
      obtain ⟨t, ht⟩ := Option.isSome_iff_exists.mp this
      simp [saved, Config.after, ht]
  have hs : saved.Saved items [⟨10, 100⟩] := .of (by decide +kernel) (by decide +kernel) (by decide +kernel) (by decide +kernel)
  have h2 : cfg.Life saved.log loaded := by
    obtain ⟨t', g1, g2, _⟩ := C117_loads h1 hs
    have : loaded = t' := by simp only [loaded, g1]
    rw [this]; exact g2
  refine h2.used (ops := second) (by decide +kernel) ?_ ?_ (by decide +kernel)
  · intro op ho i now he
    have : ∀ op ∈ second, ((Op.item op).map fun x => decide (Table.itemValid x.1 = true ∧ x.1.timesSampled = 0)).getD true = true := by
      decide +kernel
    have := this op ho
    rw [he] at this
    simpa using this
  · have : (loaded.run second).isSome = true := by decide +kernel
    obtain ⟨t, ht⟩ := Option.isSome_iff_exists.mp this
    simp [last, ht]

theorem demo : summary saved = [(7, 1), (2, 0)] ∧ saved.limiter.cancelled = true ∧ loaded.limiter.cancelled = false ∧
    summary last = [(4, 0), (2, 0)] ∧ inserted log = 4 ∧ deleted log = 2 ∧ sampled log = 2 ∧ Spec.uniqueSamples log = 1 ∧
    Spec.stamps log = [11, 12, 13, 20] ∧ last.sampler.sample (draw 0) = .ok (2, 1) := by decide +kernel

/-- The counts cannot be had from the notifications of the last server alone, although those begin with the
items that were loaded: items removed and samples taken before are missing. -/
theorem C117_own_log_is_false : ∃ (c : Config) (log : List ExtEvent) (t : Table), c.Life log t ∧
    t.limiter.inserts ≠ (inserted t.log : Nat) ∧ t.limiter.deletes ≠ (deleted t.log : Nat) ∧
    t.limiter.samples ≠ (sampled t.log : Nat) :=
  ⟨cfg, log, last, life, by decide +kernel, by decide +kernel, by decide +kernel⟩

end LifeDemo
end Verif
