import Verif.Spec.Life
import Verif.Props.C07_C08_RateLimit
import Verif.Props.C12_C13_C14_Contents
/-
Tables that are used, saved and loaded.
-/
namespace Verif
open Table (Op Mv Inv Path MStep Eff LogOk SmpOk)
open Spec (Discipline)
namespace Table

/-- The table with another record of notifications. -/
def withLog (t : Table) (l : List ExtEvent) : Table := { t with log := l }

theorem Inv.withLog {kS kR t} (h : Inv kS kR t) (l : List ExtEvent) : Inv kS kR (t.withLog l) := by
  obtain ⟨⟨bS, τS, bR, τR, h1⟩, h2, h3, h4⟩ := h
  exact ⟨⟨bS, τS, bR, τR, ⟨h1.samp, h1.rem, h1.agS, h1.agR, h1.own, h1.refs⟩⟩, h2, h3, h4⟩

theorem Eff.withLog {t t' data lim ev u cs} (h : Eff t t' data lim ev u cs) (l : List ExtEvent) :
    Eff (t.withLog l) (t'.withLog (l ++ ev)) data lim ev u cs :=
  ⟨h.data, h.limiter, rfl, h.unique, h.maxSize, h.maxTimes, h.samp, h.rem⟩

/-- What an elementary step announces does not depend on what was announced before. -/
theorem MStep.withLog {t mv t'} (h : MStep t mv t') (l : List ExtEvent) :
    ∃ ev, t'.log = t.log ++ ev ∧ MStep (t.withLog l) mv (t'.withLog (l ++ ev)) := by
  cases mv with
  | update it p => obtain ⟨a, b, c⟩ := h; exact ⟨_, b.log, a, b.withLog l, c⟩
  | insert i v =>
    cases v with
    | none => obtain ⟨a, b, c, d, e⟩ := h; exact ⟨_, d.log, a, b, c, d.withLog l, e⟩
    | some v => obtain ⟨a, b, c, d, e, f, g⟩ := h; exact ⟨_, f.log, a, b, c, d, e, f.withLog l, g⟩
  | sample it out gone => obtain ⟨a, b, c, d, e, f⟩ := h; exact ⟨_, e.log, a, b, c, d, e.withLog l, f⟩
  | delete it => obtain ⟨a, b, c⟩ := h; exact ⟨_, b.log, a, b.withLog l, c⟩
  | reset => obtain ⟨a, b⟩ := h; exact ⟨_, a.log, a.withLog l, b⟩
  | close => obtain ⟨a, b⟩ := h; exact ⟨_, a.log, a.withLog l, b⟩

theorem Path.withLog {kS kR t mvs t'} (h : Path kS kR t mvs t') : ∀ l : List ExtEvent,
    ∃ ev, t'.log = t.log ++ ev ∧ Path kS kR (t.withLog l) mvs (t'.withLog (l ++ ev)) := by
  induction h with
  | nil hi => intro l; exact ⟨[], by simp, by simpa using Path.nil (hi.withLog l)⟩
  | cons hi hm _ ih =>
    intro l
    obtain ⟨ev, h1, h2⟩ := hm.withLog l
    obtain ⟨ev', h3, h4⟩ := ih (l ++ ev)
    refine ⟨ev ++ ev', by rw [h3, h1, List.append_assoc], .cons (hi.withLog l) h2 ?_⟩
    rw [← List.append_assoc]; exact h4

end Table

/-- What is true of a table through all its lives. -/
structure Config.Alive (c : Config) (log : List ExtEvent) (t : Table) : Prop where
  inv : Inv c.sampler c.remover t
  valid : AllValid t.data
  keeps : c.Keeps t
  told : ∃ l, LogOk (t.withLog log) l
  counts : SmpOk (t.withLog log)
  ratio : 0 ≤ c.spi → t.limiter.samples = 0 ∨ c.minDiff ≤ (t.limiter.inserts : Rat) * c.spi - t.limiter.samples
  surplus : t.limiter.inserts - t.limiter.deletes ≤ c.minSize ∨
    (t.limiter.inserts : Rat) * c.spi - t.limiter.samples ≤ c.maxDiff

theorem Config.Alive.used {c : Config} {log news : List ExtEvent} {t t' : Table} {ops : List Op} (h : c.Alive log t)
    (ha : ∀ op ∈ ops, c.Admissible op)
    (hi : ∀ op ∈ ops, ∀ i now, Op.item op = some (i, now) → Table.itemValid i = true ∧ i.timesSampled = 0)
    (hr : t.run ops = some t') (hl : t'.log = t.log ++ news) : c.Alive (log ++ news) t' := by
  obtain ⟨t1, mvs, h1, h2, h3⟩ := Inv.run ops h.inv (fun op ho => c.okFor (ha op ho))
  rw [hr] at h1
  cases h1
  have hin : ∀ i v, Mv.insert i v ∈ mvs → Table.itemValid i = true ∧ i.timesSampled = 0 := by
    intro i v hm
    obtain ⟨op, ho, he⟩ := h3 i v hm
    obtain ⟨j, now, h4, rfl⟩ := inserted_item he
    exact hi op ho j now h4
  obtain ⟨ev, h4, h5⟩ := h2.withLog log
  rw [hl] at h4
  cases List.append_cancel_left h4
  have hk := Config.Keeps.path h2 h.keeps
  obtain ⟨l, hlog⟩ := h.told
  refine ⟨h2.fin, AllValid.path h2 h.valid fun i v hm => (hin i v hm).1, hk, LogOk.path h5 hlog,
    SmpOk.path h5 h.counts fun i v hm => (hin i v hm).2, ?_, ?_⟩
  · intro hs
    have := ratio_path h2 (by rw [h.keeps.spi]; exact hs) (by rw [h.keeps.spi, h.keeps.minDiff]; exact h.ratio hs)
    rw [hk.spi, hk.minDiff] at this
    exact this
  · have := surplus_path h2 (by rw [h.keeps.minSize]; exact Int.le_of_lt c.minSize_pos)
      (by rw [h.keeps.spi, h.keeps.maxDiff, h.keeps.minSize]; exact h.surplus)
    rw [hk.spi, hk.maxDiff, hk.minSize] at this
    exact this

theorem Config.Alive.loaded {c : Config} {log : List ExtEvent} {t : Table} {items : List Item} {chunks : List ChunkRef}
    (h : c.Alive log t) (hs : t.Saved items chunks) :
    ∃ t', restore (t.checkpoint items) chunks = .ok t' ∧ c.Alive log t' ∧ AMap.Same t.data t'.data ∧
      AMap.Same t.episodeRefs t'.episodeRefs ∧ t'.limiter = { t.limiter with cancelled := false } ∧
      t'.numDeletedEpisodes = t.numDeletedEpisodes ∧ t'.numUniqueSamples = t.numUniqueSamples := by
  obtain ⟨t', h1, h2⟩ := hs.sorted.restore_of h.inv h.valid hs.covered hs.keys
  have hsame := restored_same hs.sorted h.inv h2
  obtain ⟨bS, τS, bR, τR, hcore⟩ := h.inv.core
  obtain ⟨bS', τS', bR', τR', hcore'⟩ := h2.core
  have he := same_episodes hsame hcore.refs hcore'.refs
  have hlim : t'.limiter = { t.limiter with cancelled := false } := h2.limiter
  obtain ⟨l, hlog⟩ := h.told
  refine ⟨t', h1, ⟨⟨h2.core, ?_, ?_, ?_⟩, fun k it g => h.valid k it (by rw [← hsame k]; exact g), ⟨?_, ?_, ?_, ?_, ?_, ?_⟩,
    ⟨l, hlog.live, ⟨fun k it => ?_, hlog.tracks.nodup⟩, ?_, ?_, ?_, ?_⟩, ⟨⟨fun k it g => ?_, fun k g => ?_, h.counts.st.seen, ?_, ?_⟩, ?_⟩, ?_, ?_⟩,
    hsame, he, hlim, h2.deleted, h2.unique⟩
  · rw [hsame.size, h2.maxSize]; exact h.inv.size
  · rw [hlim, hsame.size]; exact h.inv.lim
  · rw [hlim]; exact h.inv.pos
  · rw [h2.maxSize]; exact h.keeps.maxSize
  · rw [h2.maxTimes]; exact h.keeps.maxTimes
  · rw [hlim]; exact h.keeps.spi
  · rw [hlim]; exact h.keeps.minSize
  · rw [hlim]; exact h.keeps.minDiff
  · rw [hlim]; exact h.keeps.maxDiff
  · rw [← hlog.tracks.mem k it]; simp only [Table.withLog, hsame k]
  · rw [show (t'.withLog log).numDeletedEpisodes = _ from h2.deleted]; exact hlog.ended
  · simp only [Table.withLog, hlim]; exact hlog.inserts
  · simp only [Table.withLog, hlim]; exact hlog.deletes
  · simp only [Table.withLog, hlim]; exact hlog.samples
  · exact h.counts.st.pres k it (by rw [← g]; exact (hsame k).symm)
  · exact h.counts.st.abs k (by rw [← g]; exact (hsame k).symm)
  · rw [show (t'.withLog log).numUniqueSamples = _ from h2.unique]; exact h.counts.st.uniq
  · simp only [Table.withLog, h2.maxTimes]; exact h.counts.st.fine
  · intro h0 k it g
    simp only [Table.withLog, h2.maxTimes] at h0 ⊢
    exact h.counts.lt h0 k it (by rw [← g]; exact (hsame k).symm)
  · rw [hlim]; exact h.ratio
  · rw [hlim]; exact h.surplus

theorem Config.Life.alive {c : Config} {log : List ExtEvent} {t : Table} (h : c.Life log t) : c.Alive log t := by
  induction h with
  | new =>
    exact ⟨c.inv_init, fun k it g => by simp [Config.init, Table.make] at g, ⟨rfl, rfl, rfl, rfl, rfl, rfl⟩, ⟨[], c.log_init⟩,
      SmpOk.make _ _ _ _ _, fun _ => .inl rfl, .inl (Int.le_of_lt c.minSize_pos)⟩
  | used _ ha hi hr hl ih => exact ih.used ha hi hr hl
  | loaded _ hs hr ih =>
    obtain ⟨t1, h1, h2, _⟩ := ih.loaded hs
    rw [hr] at h1
    cases h1
    exact h2

/-- The timestamps of the items are among the given ones. -/
def Stamped (P : Int → Prop) (d : AMap Key Item) : Prop := ∀ k it, d.get? k = some it → P it.insertedAt

theorem Stamped.congr {P d d'} (h : Stamped P d)
    (hd : ∀ k it', d'.get? k = some it' → ∃ it, d.get? k = some it ∧ it'.insertedAt = it.insertedAt) : Stamped P d' := by
  intro k it hk
  obtain ⟨it0, h1, h2⟩ := hd k it hk
  rw [h2]; exact h k it0 h1

theorem Stamped.insert {P d} {i : Item} (h : Stamped P d) (hi : P i.insertedAt) : Stamped P (d.insert i.key i) := by
  intro k it hk
  rw [AMap.get?_insert] at hk
  split at hk
  · cases hk; exact hi
  · exact h k it hk

theorem Stamped.mstep {P : Int → Prop} {t t' : Table} {mv : Mv} (h : Stamped P t.data) (hm : MStep t mv t')
    (hnew : ∀ i v, mv = .insert i v → P i.insertedAt) : Stamped P t'.data := by
  cases mv with
  | update it p => obtain ⟨hk, he, _⟩ := hm; rw [he.data]; exact h.congr (same_times_set hk rfl)
  | insert i v =>
    have h1 := h.insert (hnew i v rfl)
    cases v with
    | none => obtain ⟨_, _, _, he, _⟩ := hm; rw [he.data]; exact h1
    | some v => obtain ⟨_, _, _, _, _, he, _⟩ := hm; rw [he.data]; exact h1.congr same_times_erase
  | sample it out gone =>
    obtain ⟨_, hk, _, _, he, _⟩ := hm
    have hset : Stamped P (t.data.insert it.key (Table.bump it)) := h.congr (same_times_set hk rfl)
    rw [he.data]
    cases gone with
    | false => exact hset
    | true => exact hset.congr same_times_erase
  | delete it => obtain ⟨_, he, _⟩ := hm; rw [he.data]; exact h.congr same_times_erase
  | reset => obtain ⟨he, _⟩ := hm; rw [he.data]; intro k it hk; simp at hk
  | close => obtain ⟨he, _⟩ := hm; rw [he.data]; exact h

theorem stamps_append (a b : List ExtEvent) : Spec.stamps (a ++ b) = Spec.stamps a ++ Spec.stamps b := by
  simp [Spec.stamps]

/-- A step that inserts announces the timestamp of the item first. -/
theorem insert_stamp {t t' : Table} {i : Item} {v} (hm : MStep t (.insert i v) t') {ev : List ExtEvent}
    (he : t'.log = t.log ++ ev) : ∃ r, Spec.stamps ev = i.insertedAt :: r := by
  cases v with
  | none =>
    obtain ⟨_, _, _, h, _⟩ := hm
    rw [h.log] at he
    cases List.append_cancel_left he
    exact ⟨[], rfl⟩
  | some v =>
    obtain ⟨_, _, _, _, _, h, _⟩ := hm
    rw [h.log] at he
    cases List.append_cancel_left he
    exact ⟨[], rfl⟩

/-- Along a path, if the clock advances. -/
theorem Timed.logPath {m : Discipline} {kS kR : SelKind} {π : Table → Sel} {t mvs t'}
    (hπ : ∀ {t t' : Table} {d l e u cs}, Eff t t' d l e u cs → π t' = runCalls Sel.apply (π t) cs)
    (hinv : ∀ t, Inv kS kR t → ∃ b τ, Sel.Inv m.kind (π t) b τ ∧ ∀ k, (b k).isSome = (t.data.get? k).isSome)
    (hp : Path kS kR t mvs t') : ∀ {log news : List ExtEvent}, t'.log = t.log ++ news →
    (Spec.stamps (log ++ news)).Pairwise (· < ·) → Timed m (π t).order t.data → Stamped (· ∈ Spec.stamps log) t.data →
    Timed m (π t').order t'.data ∧ Stamped (· ∈ Spec.stamps (log ++ news)) t'.data := by
  induction hp with
  | nil _ =>
    intro log news hl _ h1 h2
    have : news = [] := by simpa using hl
    subst this
    exact ⟨h1, by simpa using h2⟩
  | cons hi hm hp ih =>
    intro log news hl hc h1 h2
    obtain ⟨ev, h3, _⟩ := hm.withLog []
    obtain ⟨ev', h4, _⟩ := hp.withLog []
    have hn : news = ev ++ ev' := by
      rw [h4, h3, List.append_assoc] at hl
      exact (List.append_cancel_left hl).symm
    subst hn
    rw [← List.append_assoc] at hc ⊢
    have hc' : (Spec.stamps (log ++ ev)).Pairwise (· < ·) := by
      rw [stamps_append] at hc
      exact (List.pairwise_append.mp hc).1
    refine ih h4 hc ?_ ?_
    · refine h1.mstep hπ (hinv _ hi) hm ?_
      rintro i v rfl k it hk
      obtain ⟨r, hr⟩ := insert_stamp hm h3
      rw [stamps_append, hr] at hc'
      exact (List.pairwise_append.mp hc').2.2 _ (h2 k it hk) _ (by simp)
    · refine Stamped.mstep (fun k it hk => ?_) hm ?_
      · rw [stamps_append]; exact List.mem_append_left _ (h2 k it hk)
      · rintro i v rfl
        obtain ⟨r, hr⟩ := insert_stamp hm h3
        rw [stamps_append, hr]; simp

theorem Stamped.path {kS kR t mvs t'} (hp : Path kS kR t mvs t') : ∀ {log news : List ExtEvent}, t'.log = t.log ++ news →
    Stamped (· ∈ Spec.stamps log) t.data → Stamped (· ∈ Spec.stamps (log ++ news)) t'.data := by
  induction hp with
  | nil _ =>
    intro log news hl h2
    have : news = [] := by simpa using hl
    subst this
    simpa using h2
  | cons hi hm hp ih =>
    intro log news hl h2
    obtain ⟨ev, h3, _⟩ := hm.withLog []
    obtain ⟨ev', h4, _⟩ := hp.withLog []
    have hn : news = ev ++ ev' := by
      rw [h4, h3, List.append_assoc] at hl
      exact (List.append_cancel_left hl).symm
    subst hn
    rw [← List.append_assoc]
    refine ih h4 (Stamped.mstep (fun k it hk => ?_) hm ?_)
    · rw [stamps_append]; exact List.mem_append_left _ (h2 k it hk)
    · rintro i v rfl
      obtain ⟨r, hr⟩ := insert_stamp hm h3
      rw [stamps_append, hr]; simp

theorem Sel.Inv.order_died {m : Discipline} {s b τ} (h : Sel.Inv m.kind s b τ) (ho : s.order = []) (d : Draw) :
    s.sample d = .died := by
  cases m <;> cases s <;> simp only [Sel.Inv, Discipline.kind] at h <;>
  · rename_i s
    simp only [Sel.order] at ho
    simp only [Sel.sample, ListSel.sample]
    cases hn : s.nodes with
    | nil => rfl
    | cons a l' => simp [hn] at ho

/-- Both kinds of selectors of a table. -/
structure Listed (c : Config) (t : Table) : Prop where
  samp : ∀ m : Discipline, m.kind = c.sampler → Timed m t.sampler.order t.data
  rem : ∀ m : Discipline, m.kind = c.remover → Timed m t.remover.order t.data

theorem Config.Life.listed {c : Config} {log : List ExtEvent} {t : Table} (h : c.Life log t) :
    (Spec.stamps log).Pairwise (· < ·) → Listed c t ∧ Stamped (· ∈ Spec.stamps log) t.data := by
  induction h with
  | new =>
    intro _
    refine ⟨⟨fun m hm => ?_, fun m hm => ?_⟩, fun k it g => by simp [Config.init, Table.make] at g⟩
    · have : c.init.sampler.order = [] := by
        show c.sampler.make.order = []
        rw [← hm]; cases m <;> rfl
      rw [this]; exact .nil
    · have : c.init.remover.order = [] := by
        show c.remover.make.order = []
        rw [← hm]; cases m <;> rfl
      rw [this]; exact .nil
  | used hlife ha hi hr hl ih =>
    intro hc
    have hc0 := hc
    rw [stamps_append] at hc0
    obtain ⟨h1, h2⟩ := ih (List.pairwise_append.mp hc0).1
    obtain ⟨t1, mvs, g1, g2, _⟩ := Inv.run _ hlife.alive.inv (fun op ho => c.okFor (ha op ho))
    rw [hr] at g1
    cases g1
    have hS : ∀ m : Discipline, m.kind = c.sampler → ∀ t, Inv c.sampler c.remover t →
        ∃ b τ, Sel.Inv m.kind t.sampler b τ ∧ ∀ k, (b k).isSome = (t.data.get? k).isSome := by
      intro m hm t hi
      obtain ⟨bS, τS, bR, τR, hcore⟩ := hi.core
      exact ⟨bS, τS, hm ▸ hcore.samp, hcore.isSomeS⟩
    have hR : ∀ m : Discipline, m.kind = c.remover → ∀ t, Inv c.sampler c.remover t →
        ∃ b τ, Sel.Inv m.kind t.remover b τ ∧ ∀ k, (b k).isSome = (t.data.get? k).isSome := by
      intro m hm t hi
      obtain ⟨bS, τS, bR, τR, hcore⟩ := hi.core
      exact ⟨bR, τR, hm ▸ hcore.rem, hcore.isSomeR⟩
    refine ⟨⟨fun m hm => ?_, fun m hm => ?_⟩, ?_⟩
    · exact (Timed.logPath (π := Table.sampler) (fun he => he.samp) (hS m hm) g2 hl hc (h1.samp m hm) h2).1
    · exact (Timed.logPath (π := Table.remover) (fun he => he.rem) (hR m hm) g2 hl hc (h1.rem m hm) h2).1
    · exact Stamped.path g2 hl h2
  | loaded hlife hs hr ih =>
    intro hc
    obtain ⟨h1, h2⟩ := ih hc
    have ha := hlife.alive
    obtain ⟨t1, g1, g2⟩ := hs.sorted.restore_of ha.inv ha.valid hs.covered hs.keys
    rw [hr] at g1
    cases g1
    have hsame := restored_same hs.sorted ha.inv g2
    obtain ⟨bS, τS, bR, τR, hcore⟩ := ha.inv.core
    have htr := Tracks.of_perm hs.sorted.1 hcore.own
    refine ⟨⟨fun m hm => ?_, fun m hm => ?_⟩, fun k it g => h2 k it (by rw [← g]; exact (hsame k).symm)⟩
    · rw [g2.samp m hm]
      have hi := hcore.samp
      rw [← hm] at hi
      rw [← (h1.samp m hm).eq_listed hi.order_nodup (fun k => by rw [hi.mem_order, hcore.isSomeS]) htr hs.sorted.2]
      exact (h1.samp m hm).congr fun k it g => ⟨it, by rw [← g]; exact (hsame k).symm, rfl⟩
    · rw [g2.rem m hm]
      have hi := hcore.rem
      rw [← hm] at hi
      rw [← (h1.rem m hm).eq_listed hi.order_nodup (fun k => by rw [hi.mem_order, hcore.isSomeR]) htr hs.sorted.2]
      exact (h1.rem m hm).congr fun k it g => ⟨it, by rw [← g]; exact (hsame k).symm, rfl⟩

end Verif
