import Verif.Proofs.TableMoves
import Verif.Spec.TableLog
/-
The notifications of a table determine its contents and counters.
-/
namespace Verif
open Spec (Call Book Entry)
namespace Table

/-- The list holds exactly the items of the map. -/
structure Tracks (l : List Item) (m : AMap Key Item) : Prop where
  mem : ∀ k it, m.get? k = some it ↔ it ∈ l ∧ it.key = k
  nodup : (l.map Item.key).Nodup

theorem Tracks.inj {l m} (h : Tracks l m) {a b : Item} (ha : a ∈ l) (hb : b ∈ l) (hk : a.key = b.key) : a = b := by
  have h1 := (h.mem a.key a).mpr ⟨ha, rfl⟩
  have h2 := (h.mem a.key b).mpr ⟨hb, hk.symm⟩
  rw [h1] at h2; simpa using h2

theorem Tracks.length {l m} (h : Tracks l m) : l.length = m.size := by
  rw [← AMap.length_keys, ← List.length_map (f := Item.key)]
  refine length_eq_of_nodup_of_mem h.nodup m.keys_nodup ?_
  intro k
  rw [AMap.mem_keys_iff, List.mem_map, Option.isSome_iff_exists]
  constructor
  · rintro ⟨it, h1, h2⟩; exact ⟨it, (h.mem k it).mpr ⟨h1, h2⟩⟩
  · rintro ⟨it, h1⟩; exact ⟨it, (h.mem k it).mp h1⟩

theorem Tracks.empty : Tracks [] AMap.empty := ⟨by simp, by simp⟩

theorem Tracks.insert {l m} (h : Tracks l m) {i : Item} (hk : m.get? i.key = none) :
    Spec.observe (some l) (.insert i) = some (l ++ [i]) ∧ Tracks (l ++ [i]) (m.insert i.key i) := by
  have hno : ∀ j ∈ l, j.key ≠ i.key := by
    intro j hj hc
    have := (h.mem i.key j).mpr ⟨hj, hc⟩
    rw [hk] at this; simp at this
  constructor
  · simp only [Spec.observe]
    rw [if_neg]
    simpa using hno
  · refine ⟨?_, ?_⟩
    · intro k it
      rw [AMap.get?_insert, List.mem_append, List.mem_singleton]
      by_cases he : k = i.key
      · subst he
        simp only [if_true, Option.some.injEq]
        constructor
        · rintro rfl; exact ⟨.inr rfl, rfl⟩
        · rintro ⟨h1 | h1, h2⟩
          · exact absurd h2 (hno it h1)
          · exact h1.symm
      · simp only [he, if_false, h.mem]
        constructor
        · rintro ⟨h1, h2⟩; exact ⟨.inl h1, h2⟩
        · rintro ⟨h1 | h1, h2⟩
          · exact ⟨h1, h2⟩
          · subst h1; exact absurd h2.symm he
    · rw [List.map_append, List.nodup_append]
      refine ⟨h.nodup, by simp, ?_⟩
      intro a ha b hb
      simp at hb ha
      obtain ⟨j, hj, rfl⟩ := ha
      subst hb
      exact hno j hj

theorem Tracks.set {l m} (h : Tracks l m) {i it : Item} (hit : m.get? i.key = some it) :
    Tracks (l.map fun j => if j.key = i.key then i else j) (m.insert i.key i) := by
  obtain ⟨hm, hkey⟩ := (h.mem _ _).mp hit
  have hkeys : (l.map fun j => if j.key = i.key then i else j).map Item.key = l.map Item.key := by
    rw [List.map_map]
    apply List.map_congr_left
    intro j _
    simp only [Function.comp]
    split
    · rename_i hh; exact hh.symm
    · rfl
  refine ⟨?_, by rw [hkeys]; exact h.nodup⟩
  intro k x
  rw [AMap.get?_insert]
  simp only [List.mem_map]
  by_cases he : k = i.key
  · subst he
    simp only [if_true, Option.some.injEq]
    constructor
    · rintro rfl; exact ⟨⟨it, hm, by simp [hkey]⟩, rfl⟩
    · rintro ⟨⟨j, hj, rfl⟩, h2⟩
      split at h2
      · rename_i hh; simp [hh]
      · contradiction
  · simp only [he, if_false, h.mem]
    constructor
    · rintro ⟨h1, rfl⟩
      exact ⟨⟨x, h1, by simp [he]⟩, rfl⟩
    · rintro ⟨⟨j, hj, rfl⟩, rfl⟩
      split at he
      · exact absurd rfl he
      · rename_i hh; simp [hh, hj]

theorem Tracks.update {l m} (h : Tracks l m) {it : Item} {p : Pri} (hit : m.get? it.key = some it) :
    Spec.observe (some l) (.update { it with priority := p }) =
      some (l.map fun j => if j.key = it.key then { it with priority := p } else j) ∧
    Tracks (l.map fun j => if j.key = it.key then { it with priority := p } else j)
      (m.insert it.key { it with priority := p }) := by
  refine ⟨?_, h.set (i := { it with priority := p }) hit⟩
  simp only [Spec.observe]
  rw [if_pos]
  simp only [List.any_eq_true, decide_eq_true_eq]
  exact ⟨it, ((h.mem _ _).mp hit).1, rfl⟩

theorem Tracks.sample {l m} (h : Tracks l m) {it : Item} (hit : m.get? it.key = some it) :
    Spec.observe (some l) (.sample (bump it)) =
      some (l.map fun j => if j.key = it.key then bump it else j) ∧
    Tracks (l.map fun j => if j.key = it.key then bump it else j) (m.insert it.key (bump it)) := by
  refine ⟨?_, h.set (i := bump it) hit⟩
  simp only [Spec.observe]
  rw [if_pos]
  · rfl
  · simp only [List.any_eq_true, decide_eq_true_eq]
    exact ⟨it, ((h.mem _ _).mp hit).1, rfl⟩

theorem Tracks.erase {l m} (h : Tracks l m) {it : Item} (hit : m.get? it.key = some it) :
    Spec.observe (some l) (.delete it) = some (l.filter fun j => j.key ≠ it.key) ∧
    Tracks (l.filter fun j => j.key ≠ it.key) (m.erase it.key) := by
  have hm := ((h.mem _ _).mp hit).1
  refine ⟨by simp [Spec.observe, hm], ?_, ?_⟩
  · intro k x
    rw [AMap.get?_erase]
    by_cases he : k = it.key
    · subst he
      simp only [if_true, reduceCtorEq, false_iff]
      rintro ⟨h1, h2⟩
      simp [h2] at h1
    · simp only [he, if_false, h.mem, List.mem_filter]
      constructor
      · rintro ⟨h1, rfl⟩; exact ⟨⟨h1, by simpa using he⟩, rfl⟩
      · rintro ⟨⟨h1, _⟩, h2⟩; exact ⟨h1, h2⟩
  · exact (List.Sublist.map _ List.filter_sublist).nodup h.nodup

/-- Distinct episodes are what the reference map counts. -/
theorem Tracks.episodes {l m} (h : Tracks l m) {refs : AMap Key Nat} (hr : RefsOf refs (refCount m)) :
    (Spec.episodes l).length = refs.size := by
  rw [← AMap.length_keys]
  refine length_eq_of_nodup_of_mem (nodup_eraseDups _) refs.keys_nodup ?_
  intro e
  rw [AMap.mem_keys_iff, hr e, Spec.episodes, List.mem_eraseDups, List.mem_flatMap]
  have hpos := AMap.sumBy_pos_iff m (fun it => cntEp it.chunks e)
  have hcnt : ∀ it : Item, 0 < cntEp it.chunks e ↔ e ∈ it.chunks.map ChunkRef.episode := by
    intro it
    simp only [cntEp, List.countP_pos_iff, List.mem_map]
    simp
  constructor
  · rintro ⟨it, h1, h2⟩
    have : 0 < refCount m e := hpos.mpr ⟨it.key, it, (h.mem _ _).mpr ⟨h1, rfl⟩, (hcnt it).mpr h2⟩
    rw [if_neg (by omega)]; rfl
  · intro hs
    have : 0 < refCount m e := by
      rcases Nat.eq_zero_or_pos (refCount m e) with h0 | h0
      · simp [h0] at hs
      · exact h0
    obtain ⟨k, it, h1, h2⟩ := hpos.mp this
    exact ⟨it, ((h.mem _ _).mp h1).1, (hcnt it).mp h2⟩

theorem episodes_set {l : List Item} {i : Item} (h : ∀ j ∈ l, j.key = i.key → j.chunks = i.chunks) :
    Spec.episodes (l.map fun j => if j.key = i.key then i else j) = Spec.episodes l := by
  unfold Spec.episodes
  rw [List.flatMap_map]
  congr 1
  induction l with
  | nil => rfl
  | cons a t ih =>
    have ih := ih (fun j hj => h j (List.mem_cons_of_mem _ hj))
    simp only [List.flatMap_cons]
    rw [ih]
    split
    · rename_i hh; rw [h a (by simp) hh]
    · rfl

theorem sinceReset_snoc (log : List ExtEvent) (e : ExtEvent) (h : e ≠ .reset) :
    Spec.sinceReset (log ++ [e]) = Spec.sinceReset log ++ [e] := by
  cases e <;> simp [Spec.sinceReset, List.foldl_append] at h ⊢

theorem sinceReset_reset (log : List ExtEvent) : Spec.sinceReset (log ++ [.reset]) = [] := by
  simp [Spec.sinceReset, List.foldl_append]

theorem live_snoc (log : List ExtEvent) (e : ExtEvent) :
    Spec.live (log ++ [e]) = Spec.observe (Spec.live log) e := by
  simp [Spec.live, List.foldl_append]

/-- The fold of `observeEnded` follows `live`. -/
def endedState (log : List ExtEvent) : List Item × Int := log.foldl Spec.observeEnded ([], 0)

theorem endedState_snoc (log : List ExtEvent) (e : ExtEvent) :
    endedState (log ++ [e]) = Spec.observeEnded (endedState log) e := by
  simp [endedState, List.foldl_append]

/-- What the log says about the table. -/
structure LogInv (t : Table) (l : List Item) : Prop where
  live : Spec.live t.log = some l
  tracks : Tracks l t.data
  refs : RefsOf t.episodeRefs (refCount t.data)
  ended : endedState t.log = (l, t.numDeletedEpisodes)
  inserts : t.limiter.inserts = ((Spec.sinceReset t.log).countP Spec.isInsert : Nat)
  deletes : t.limiter.deletes = ((Spec.sinceReset t.log).countP Spec.isDelete : Nat)
  samples : t.limiter.samples = ((Spec.sinceReset t.log).countP Spec.isSample : Nat)

theorem Inv.refs {kS kR t} (h : Inv kS kR t) : RefsOf t.episodeRefs (refCount t.data) := by
  obtain ⟨_, _, _, _, hc⟩ := h.core; exact hc.refs

theorem countP_snoc {α : Type} (p : α → Bool) (l : List α) (a : α) :
    (l ++ [a]).countP p = l.countP p + if p a then 1 else 0 := by
  simp [List.countP_append, List.countP_cons]

/-- State of the log part after a single event. -/
structure LogSt (log : List ExtEvent) (l : List Item) (m : AMap Key Item) (nd ins del smp : Int) : Prop where
  live : Spec.live log = some l
  tracks : Tracks l m
  ended : endedState log = (l, nd)
  inserts : ins = ((Spec.sinceReset log).countP Spec.isInsert : Nat)
  deletes : del = ((Spec.sinceReset log).countP Spec.isDelete : Nat)
  samples : smp = ((Spec.sinceReset log).countP Spec.isSample : Nat)

theorem LogSt.insert {log l m nd ins del smp} (h : LogSt log l m nd ins del smp) {i : Item}
    (hk : m.get? i.key = none) :
    LogSt (log ++ [.insert i]) (l ++ [i]) (m.insert i.key i) nd (ins + 1) del smp := by
  obtain ⟨h1, h2⟩ := h.tracks.insert hk
  refine ⟨by rw [live_snoc, h.live, h1], h2, ?_, ?_, ?_, ?_⟩
  · rw [endedState_snoc, h.ended]; simp only [Spec.observeEnded, h1]; rfl
  all_goals rw [sinceReset_snoc _ _ (by simp), countP_snoc]
  · rw [h.inserts]; simp [Spec.isInsert]
  · rw [h.deletes]; simp [Spec.isDelete]
  · rw [h.samples]; simp [Spec.isSample]

theorem LogSt.delete {log l m nd ins del smp} (h : LogSt log l m nd ins del smp) {it : Item}
    (hk : m.get? it.key = some it) :
    LogSt (log ++ [.delete it]) (l.filter fun j => j.key ≠ it.key) (m.erase it.key)
      (nd + ((Spec.episodes l).length - (Spec.episodes (l.filter fun j => j.key ≠ it.key)).length))
      ins (del + 1) smp := by
  obtain ⟨h1, h2⟩ := h.tracks.erase hk
  refine ⟨by rw [live_snoc, h.live, h1], h2, ?_, ?_, ?_, ?_⟩
  · rw [endedState_snoc, h.ended]; simp only [Spec.observeEnded, h1]; rfl
  all_goals rw [sinceReset_snoc _ _ (by simp), countP_snoc]
  · rw [h.inserts]; simp [Spec.isInsert]
  · rw [h.deletes]; simp [Spec.isDelete]
  · rw [h.samples]; simp [Spec.isSample]

theorem LogSt.update {log l m nd ins del smp} (h : LogSt log l m nd ins del smp) {it : Item} {p : Pri}
    (hk : m.get? it.key = some it) :
    LogSt (log ++ [.update { it with priority := p }])
      (l.map fun j => if j.key = it.key then { it with priority := p } else j)
      (m.insert it.key { it with priority := p }) nd ins del smp := by
  obtain ⟨h1, h2⟩ := h.tracks.update (p := p) hk
  refine ⟨by rw [live_snoc, h.live, h1], h2, ?_, ?_, ?_, ?_⟩
  · rw [endedState_snoc, h.ended]; simp only [Spec.observeEnded, h1]; rfl
  all_goals rw [sinceReset_snoc _ _ (by simp), countP_snoc]
  · rw [h.inserts]; simp [Spec.isInsert]
  · rw [h.deletes]; simp [Spec.isDelete]
  · rw [h.samples]; simp [Spec.isSample]

theorem LogSt.sample {log l m nd ins del smp} (h : LogSt log l m nd ins del smp) {it : Item}
    (hk : m.get? it.key = some it) :
    LogSt (log ++ [.sample (bump it)]) (l.map fun j => if j.key = it.key then bump it else j)
      (m.insert it.key (bump it)) nd ins del (smp + 1) := by
  obtain ⟨h1, h2⟩ := h.tracks.sample hk
  refine ⟨by rw [live_snoc, h.live, h1], h2, ?_, ?_, ?_, ?_⟩
  · rw [endedState_snoc, h.ended]; simp only [Spec.observeEnded, h1]; rfl
  all_goals rw [sinceReset_snoc _ _ (by simp), countP_snoc]
  · rw [h.inserts]; simp [Spec.isInsert]
  · rw [h.deletes]; simp [Spec.isDelete]
  · rw [h.samples]; simp [Spec.isSample]

theorem LogSt.reset {log l m nd ins del smp} (h : LogSt log l m nd ins del smp) :
    LogSt (log ++ [.reset]) [] AMap.empty 0 0 0 0 := by
  refine ⟨by rw [live_snoc, h.live]; rfl, Tracks.empty, ?_, ?_, ?_, ?_⟩
  · rw [endedState_snoc, h.ended]; rfl
  all_goals rw [sinceReset_reset]; rfl

/-- The log part of a table. -/
def LogOk (t : Table) (l : List Item) : Prop :=
  LogSt t.log l t.data t.numDeletedEpisodes t.limiter.inserts t.limiter.deletes t.limiter.samples

theorem bump_key (it : Item) : (bump it).key = it.key := rfl

theorem LogOk.mstep {t t' l mv kS kR} (h : LogOk t l) (hi : Inv kS kR t) (hi' : Inv kS kR t') (hm : MStep t mv t') :
    ∃ l', LogOk t' l' := by
  unfold LogOk at h ⊢
  cases mv with
  | update it p =>
    obtain ⟨hk, he, h1, _⟩ := hm
    refine ⟨l.map fun j => if j.key = it.key then { it with priority := p } else j, ?_⟩
    rw [he.data, he.log, he.limiter, h1]
    exact h.update (p := p) hk
  | insert i v =>
    cases v with
    | none =>
      obtain ⟨_, hk, _, he, h1⟩ := hm
      refine ⟨l ++ [i], ?_⟩
      rw [he.data, he.log, he.limiter, h1]
      exact h.insert hk
    | some v =>
      obtain ⟨_, hk, _, hv, _, he, refs, hr, h1⟩ := hm
      have g1 := h.insert hk
      have g2 := g1.delete hv
      have r' : RefsOf t'.episodeRefs (refCount ((t.data.insert i.key i).erase v.key)) := by
        have := hi'.refs; rw [he.data] at this; exact this
      have e1 := g1.tracks.episodes hr
      have e2 := g2.tracks.episodes r'
      rw [e1, e2] at g2
      refine ⟨(l ++ [i]).filter fun j => j.key ≠ v.key, ?_⟩
      rw [he.data, he.log, he.limiter]
      have : t'.numDeletedEpisodes = t.numDeletedEpisodes + ((refs.size : Int) - t'.episodeRefs.size) := by omega
      rw [this]
      simpa [Limiter.insert, Limiter.delete] using g2
  | sample it out gone =>
    obtain ⟨_, hk, _, _, he, h1⟩ := hm
    have g1 := h.sample hk
    have hb : RefsOf t.episodeRefs (refCount (t.data.insert it.key (bump it))) := by
      intro e
      rw [hi.refs e]
      have : refCount (t.data.insert it.key (bump it)) e = refCount t.data e :=
        AMap.sumBy_insert_some hk _ _ rfl
      simp only [this]
    cases gone with
    | true =>
      have g2 := g1.delete (it := bump it) (by simp [bump_key])
      simp only [if_true] at he
      have r' : RefsOf t'.episodeRefs (refCount ((t.data.insert it.key (bump it)).erase it.key)) := by
        have := hi'.refs; rw [he.data] at this; exact this
      have e1 := g1.tracks.episodes hb
      have e2 := g2.tracks.episodes r'
      rw [e1, e2] at g2
      refine ⟨(l.map fun j => if j.key = it.key then bump it else j).filter fun j => j.key ≠ it.key, ?_⟩
      rw [he.data, he.log, he.limiter]
      have : t'.numDeletedEpisodes = t.numDeletedEpisodes + ((t.episodeRefs.size : Int) - t'.episodeRefs.size) := by
        omega
      rw [this]
      rw [List.append_assoc] at g2
      exact g2
    | false =>
      simp only [Bool.false_eq_true, if_false] at he
      have r' : RefsOf t'.episodeRefs (refCount (t.data.insert it.key (bump it))) := by
        have := hi'.refs; rw [he.data] at this; exact this
      have e1 := g1.tracks.episodes hb
      have e2 := g1.tracks.episodes r'
      refine ⟨l.map fun j => if j.key = it.key then bump it else j, ?_⟩
      rw [he.data, he.log, he.limiter]
      have : t'.numDeletedEpisodes = t.numDeletedEpisodes := by omega
      rw [this]
      exact g1
  | delete it =>
    obtain ⟨hk, he, h1⟩ := hm
    have g2 := h.delete hk
    have r' : RefsOf t'.episodeRefs (refCount (t.data.erase it.key)) := by
      have := hi'.refs; rw [he.data] at this; exact this
    have e1 := h.tracks.episodes hi.refs
    have e2 := g2.tracks.episodes r'
    rw [e1, e2] at g2
    refine ⟨l.filter fun j => j.key ≠ it.key, ?_⟩
    rw [he.data, he.log, he.limiter]
    have : t'.numDeletedEpisodes = t.numDeletedEpisodes + ((t.episodeRefs.size : Int) - t'.episodeRefs.size) := by
      omega
    rw [this]
    simpa [Limiter.delete] using g2
  | reset =>
    obtain ⟨he, h1, _⟩ := hm
    refine ⟨[], ?_⟩
    rw [he.data, he.log, he.limiter, h1]
    exact h.reset
  | close =>
    obtain ⟨he, h1, _⟩ := hm
    refine ⟨l, ?_⟩
    rw [he.data, he.log, he.limiter, h1]
    simpa [Limiter.cancel] using h

theorem LogOk.path {kS kR t mvs t'} (hp : Path kS kR t mvs t') : ∀ {l}, LogOk t l → ∃ l', LogOk t' l' := by
  induction hp with
  | nil _ => intro l h; exact ⟨l, h⟩
  | cons hi hm hp ih =>
    intro l h
    obtain ⟨l1, h1⟩ := h.mstep hi hp.start hm
    exact ih h1

theorem LogOk.make (maxSize : Nat) (m : Int) (kS kR : SelKind) {l : Limiter} {spi lo hi : Rat} {ms : Int}
    (hl : Limiter.make spi ms lo hi = .ok l) : LogOk (Table.make maxSize m kS kR l) [] := by
  unfold Limiter.make at hl
  split at hl
  · cases hl
    exact ⟨rfl, Tracks.empty, rfl, rfl, rfl, rfl⟩
  · simp at hl

end Table
end Verif
