import Verif.Proofs.TableReach
/-
What holds after every sequence of requests, including those with refused priorities: the configuration
stays and each selector is the result of some sequence of calls.
-/
namespace Verif
open Spec (Call)
open Table (Op)

/-- The selector results from calls on a new one. -/
def Called (kind : SelKind) (s : Sel) : Prop := ∃ cs : List Call, s = runCalls Sel.apply kind.make cs

theorem Called.apply {kind s} (h : Called kind s) (c : Call) : Called kind (s.apply c).1 := by
  obtain ⟨cs, rfl⟩ := h
  exact ⟨cs ++ [c], by simp [runCalls]⟩

theorem Called.make (kind : SelKind) : Called kind kind.make := ⟨[], rfl⟩

theorem Called.inv {kind s} (h : Called kind s) : ∃ b τ, Sel.Inv kind s b τ := by
  obtain ⟨cs, rfl⟩ := h
  exact ⟨_, _, Sel.Inv.runFrom cs (Sel.Inv.make kind)⟩

/-- The weak invariant. -/
structure Loose (c : Config) (t : Table) : Prop where
  samp : Called c.sampler t.sampler
  rem : Called c.remover t.remover
  keeps : Config.Keeps c t

namespace Loose
variable {c : Config} {t : Table}

theorem init (c : Config) : Loose c c.init := ⟨Called.make _, Called.make _, ⟨rfl, rfl, rfl, rfl, rfl, rfl⟩⟩

theorem limiter (h : Loose c t) {l : Limiter} (h1 : l.spi = t.limiter.spi) (h2 : l.minSize = t.limiter.minSize)
    (h3 : l.minDiff = t.limiter.minDiff) (h4 : l.maxDiff = t.limiter.maxDiff) : Loose c { t with limiter := l } :=
  ⟨h.samp, h.rem, ⟨h.keeps.maxSize, h.keeps.maxTimes, h1.trans h.keeps.spi, h2.trans h.keeps.minSize,
    h3.trans h.keeps.minDiff, h4.trans h.keeps.maxDiff⟩⟩

theorem data (h : Loose c t) (d : AMap Key Item) (e : AMap Key Nat) (n u : Int) (l : List ExtEvent) :
    Loose c { t with
      data := d
      episodeRefs := e
      numDeletedEpisodes := n
      numUniqueSamples := u
      log := l } :=
  ⟨h.samp, h.rem, ⟨h.keeps.maxSize, h.keeps.maxTimes, h.keeps.spi, h.keeps.minSize, h.keeps.minDiff, h.keeps.maxDiff⟩⟩

theorem sampler (h : Loose c t) (x : Call) : Loose c { t with sampler := (t.sampler.apply x).1 } :=
  ⟨h.samp.apply x, h.rem, ⟨h.keeps.maxSize, h.keeps.maxTimes, h.keeps.spi, h.keeps.minSize, h.keeps.minDiff, h.keeps.maxDiff⟩⟩

theorem remover (h : Loose c t) (x : Call) : Loose c { t with remover := (t.remover.apply x).1 } :=
  ⟨h.samp, h.rem.apply x, ⟨h.keeps.maxSize, h.keeps.maxTimes, h.keeps.spi, h.keeps.minSize, h.keeps.minDiff, h.keeps.maxDiff⟩⟩

theorem deleteItem (h : Loose c t) (k : Key) : Loose c (t.deleteItem k).1 := by
  unfold Table.deleteItem
  split
  · exact h
  · split
    · exact h
    · rename_i it _ _ refs nd _
      have h1 : Loose c { t with
          episodeRefs := refs
          numDeletedEpisodes := nd
          log := t.log ++ [ExtEvent.delete it]
          data := t.data.erase k
          limiter := t.limiter.delete } :=
        (h.data (t.data.erase k) refs nd t.numUniqueSamples (t.log ++ [ExtEvent.delete it])).limiter rfl rfl rfl rfl
      have h2 := h1.sampler (.delete k)
      simp only
      split
      · exact h2.remover (.delete k)
      · exact h2

theorem updateItem (h : Loose c t) (k : Key) (p : Pri) : Loose c (t.updateItem k p).1 := by
  unfold Table.updateItem
  split
  · exact h
  · rename_i it _
    have h1 := h.data (t.data.insert k { it with priority := p }) t.episodeRefs t.numDeletedEpisodes
      t.numUniqueSamples t.log
    have h2 := h1.sampler (.update k p)
    have h3 := h2.remover (.update k p)
    simp only
    split
    · split
      · exact h3.data _ _ _ _ _
      · exact h3
    · exact h2

theorem insertNew (h : Loose c t) (i : Item) (now : Int) (d : Draw) : Loose c (t.insertNew i now d).1 := by
  unfold Table.insertNew
  have h1 := h.data (t.data.insert i.key { i with insertedAt := now }) t.episodeRefs t.numDeletedEpisodes
    t.numUniqueSamples t.log
  have h2 := h1.sampler (.insert i.key i.priority)
  have h3 := h2.remover (.insert i.key i.priority)
  simp only
  split
  · split
    · have h4 := h3.data (t.data.insert i.key { i with insertedAt := now }) (Table.incRefs t.episodeRefs i.chunks)
        t.numDeletedEpisodes t.numUniqueSamples (t.log ++ [ExtEvent.insert { i with insertedAt := now }])
      split
      · split
        · rename_i v _ _
          have h5 := h4.deleteItem v
          split
          · exact h5.limiter rfl rfl rfl rfl
          · exact h5
        · exact h4
        · exact h4
      · exact h4.limiter rfl rfl rfl rfl
    · exact h3
  · exact h2

theorem reply {r : Table × Res Unit} (h : Loose c r.1) : Loose c (Table.reply r).1 := by
  unfold Table.reply; split <;> exact h

theorem insertResume (h : Loose c t) (i : Item) (now : Int) (d : Draw) : Loose c (t.insertResume i now d).1 := by
  unfold Table.insertResume
  split
  · exact h
  · exact h
  · split
    · exact reply (h.updateItem _ _)
    · exact reply (h.insertNew _ _ _)

theorem deleteAll (ks : List Key) : ∀ {t}, Loose c t → Loose c (t.deleteAll ks).1 := by
  induction ks with
  | nil => intro t h; exact h
  | cons k ks ih =>
    intro t h
    simp only [Table.deleteAll]
    split
    · exact ih (h.deleteItem k)
    · exact h.deleteItem k

theorem updateAll (us : List (Key × Pri)) : ∀ {t}, Loose c t → Loose c (t.updateAll us).1 := by
  induction us with
  | nil => intro t h; exact h
  | cons u us ih =>
    intro t h
    simp only [Table.updateAll]
    split
    · exact ih (h.updateItem u.1 u.2)
    · exact h.updateItem u.1 u.2

theorem sampleOne (h : Loose c t) (rl : Bool) (d : Draw) : Loose c (t.sampleOne rl d).1 := by
  unfold Table.sampleOne
  split
  · exact h
  · exact h
  · split
    · exact h
    · rename_i k _ _ _ it _
      have h1 := h.data (t.data.insert k { it with timesSampled := it.timesSampled + 1 }) t.episodeRefs
        t.numDeletedEpisodes (if it.timesSampled = 0 then t.numUniqueSamples + 1 else t.numUniqueSamples)
        (t.log ++ [ExtEvent.sample { it with timesSampled := it.timesSampled + 1 }])
      simp only
      split
      · have h2 := h1.deleteItem it.key
        split <;> exact h2
      · exact h1

theorem commit (h : Loose c t) {l : Limiter} (hl : t.limiter.maybeCommitSample = some l) :
    Loose c { t with limiter := l } := by
  unfold Limiter.maybeCommitSample at hl
  split at hl
  · cases hl; exact h.limiter rfl rfl rfl rfl
  · cases hl

theorem sampleMore (rl : Bool) (more : Nat) : ∀ {t} (acc : List Sampled) (ds : Nat → Draw), Loose c t →
    Loose c (t.sampleMore rl acc more ds).1 := by
  induction more with
  | zero => intro t acc ds h; exact h
  | succ m ih =>
    intro t acc ds h
    simp only [Table.sampleMore]
    split
    · exact h
    · rename_i l hl
      have h1 := (h.commit hl).sampleOne rl (ds 0)
      split
      · exact ih _ _ h1
      · exact h1
      · exact h1

theorem sampleLoop (h : Loose c t) (rl : Bool) (n : Nat) (ds : Nat → Draw) : Loose c (t.sampleLoop rl n ds).1 := by
  simp only [Table.sampleLoop]
  have h1 := h.sampleOne rl (ds 0)
  split
  · rename_i s _
    have h2 := sampleMore rl (n - 1) [s] (fun i => ds (i + 1)) h1
    split <;> exact h2
  · exact h1
  · exact h1

theorem sampleResume (h : Loose c t) (n : Nat) (ds : Nat → Draw) : Loose c (t.sampleResume n ds).1 := by
  unfold Table.sampleResume
  split
  · exact h
  · exact h
  · exact sampleLoop (h.limiter (l := { t.limiter with samples := t.limiter.samples + 1 }) rfl rfl rfl rfl) _ _ _

theorem step (h : Loose c t) (op : Op) : Loose c (t.step op).1 := by
  cases op with
  | insert i now d =>
    simp only [Table.step, Table.insertOrAssign]
    split
    · exact h
    · split
      · exact reply (h.updateItem _ _)
      · exact h.insertResume _ _ _
  | insertResume i now d => exact h.insertResume _ _ _
  | workerInsert i now d =>
    simp only [Table.step, Table.workerInsert, Table.insertInternal]
    split
    · split
      · exact reply (h.updateItem _ _)
      · exact reply (h.insertNew _ _ _)
    · exact h
  | mutate us ds =>
    simp only [Table.step, Table.mutateItems]
    have h1 := deleteAll ds h
    split
    · exact reply (updateAll us h1)
    · exact h1
    · exact h1
  | sample n ds =>
    simp only [Table.step, Table.sampleBatch]
    split
    · rename_i l hl; exact (h.commit hl).sampleLoop _ _ _
    · exact h.sampleResume _ _
  | sampleResume n ds => exact h.sampleResume _ _
  | workerSample rl d =>
    simp only [Table.step, Table.workerSample]
    split
    · exact h
    · rename_i l hl
      have h1 := (h.commit hl).sampleOne rl d
      split <;> exact h1
  | reset =>
    have h1 := ((h.sampler .clear).remover .clear).data AMap.empty AMap.empty 0 0 (t.log ++ [ExtEvent.reset])
    exact h1.limiter rfl rfl rfl rfl
  | close => exact h.limiter rfl rfl rfl rfl

theorem run (ops : List Op) : ∀ {t t' : Table}, Loose c t → t.run ops = some t' → Loose c t' := by
  induction ops with
  | nil => intro t t' h hr; cases hr; exact h
  | cons op ops ih =>
    intro t t' h hr
    simp only [Table.run] at hr
    split at hr
    · cases hr
    · exact ih (h.step op) hr

end Loose
end Verif
