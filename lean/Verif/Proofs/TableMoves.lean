import Verif.Proofs.TableCore
/-
Every critical section of the table is a sequence of elementary moves.
-/
namespace Verif
open Spec (Call Book Entry)
namespace Table

/-- Elementary changes. -/
inductive Mv where
  | update (it : Item) (p : Pri)
  | insert (i : Item) (victim : Option Item)
  | sample (it : Item) (out : Sampled) (gone : Bool)
  | delete (it : Item)
  | reset
  | close

/-- What a move hands to the caller. -/
def Mv.out : Mv → Option Sampled
  | .sample _ s _ => some s
  | _ => none

/-- An item that has been sampled once more. -/
def bump (it : Item) : Item := { it with timesSampled := it.timesSampled + 1 }

/-- Invariant of the table between critical sections. -/
structure Inv (kS kR : SelKind) (t : Table) : Prop where
  core : ∃ bS τS bR τR, Core kS kR t bS τS bR τR
  size : t.data.size ≤ t.maxSize
  lim : t.limiter.inserts - t.limiter.deletes = t.data.size
  pos : 0 < t.limiter.minSize

/-- What an elementary change does. -/
structure Eff (t t' : Table) (data : AMap Key Item) (limiter : Limiter) (events : List ExtEvent)
    (unique : Int) (calls : List Call) : Prop where
  data : t'.data = data
  limiter : t'.limiter = limiter
  log : t'.log = t.log ++ events
  unique : t'.numUniqueSamples = unique
  maxSize : t'.maxSize = t.maxSize
  maxTimes : t'.maxTimesSampled = t.maxTimesSampled
  samp : t'.sampler = runCalls Sel.apply t.sampler calls
  rem : t'.remover = runCalls Sel.apply t.remover calls

/-- The limiter after a granted sample. -/
def commit (l : Limiter) : Limiter := { l with samples := l.samples + 1 }

/-- The elementary step `mv` leads from `t` to `t'`. -/
def MStep (t : Table) (mv : Mv) (t' : Table) : Prop :=
  match mv with
  | .update it p =>
    t.data.get? it.key = some it ∧
    Eff t t' (t.data.insert it.key { it with priority := p }) t.limiter
      [.update { it with priority := p }] t.numUniqueSamples [.update it.key p] ∧
    t'.numDeletedEpisodes = t.numDeletedEpisodes ∧ t'.episodeRefs = t.episodeRefs
  | .insert i none =>
    t.limiter.canInsert 1 = true ∧ t.data.get? i.key = none ∧ t.data.size < t.maxSize ∧
    Eff t t' (t.data.insert i.key i) t.limiter.insert [.insert i] t.numUniqueSamples
      [.insert i.key i.priority] ∧
    t'.numDeletedEpisodes = t.numDeletedEpisodes
  | .insert i (some v) =>
    t.limiter.canInsert 1 = true ∧ t.data.get? i.key = none ∧ t.data.size = t.maxSize ∧
    (t.data.insert i.key i).get? v.key = some v ∧
    (∃ d pr, ((t.remover.apply (.insert i.key i.priority)).1).sample d = .ok (v.key, pr)) ∧
    Eff t t' ((t.data.insert i.key i).erase v.key) t.limiter.delete.insert [.insert i, .delete v]
      t.numUniqueSamples [.insert i.key i.priority, .delete v.key] ∧
    ∃ refs : AMap Key Nat, RefsOf refs (refCount (t.data.insert i.key i)) ∧
      t'.numDeletedEpisodes + t'.episodeRefs.size = t.numDeletedEpisodes + refs.size
  | .sample it out gone =>
    t.limiter.canSample 1 = true ∧ t.data.get? it.key = some it ∧
    (∃ d pr rl, t.sampler.sample d = .ok (it.key, pr) ∧
      out = ⟨bump it, pr, t.data.size, it.priority, it.timesSampled + 1, rl⟩) ∧
    gone = decide (it.timesSampled + 1 = t.maxTimesSampled) ∧
    Eff t t' (if gone then (t.data.insert it.key (bump it)).erase it.key else t.data.insert it.key (bump it))
      (if gone then (commit t.limiter).delete else commit t.limiter)
      (if gone then [.sample (bump it), .delete (bump it)] else [.sample (bump it)])
      (if it.timesSampled = 0 then t.numUniqueSamples + 1 else t.numUniqueSamples)
      (if gone then [.delete it.key] else []) ∧
    t'.numDeletedEpisodes + t'.episodeRefs.size = t.numDeletedEpisodes + t.episodeRefs.size
  | .delete it =>
    t.data.get? it.key = some it ∧
    Eff t t' (t.data.erase it.key) t.limiter.delete [.delete it] t.numUniqueSamples [.delete it.key] ∧
    t'.numDeletedEpisodes + t'.episodeRefs.size = t.numDeletedEpisodes + t.episodeRefs.size
  | .reset =>
    Eff t t' AMap.empty t.limiter.reset [.reset] 0 [.clear] ∧ t'.numDeletedEpisodes = 0 ∧
    t'.episodeRefs = AMap.empty
  | .close =>
    Eff t t' t.data t.limiter.cancel [] t.numUniqueSamples [] ∧
    t'.numDeletedEpisodes = t.numDeletedEpisodes ∧ t'.episodeRefs = t.episodeRefs

/-- A sequence of elementary steps through states that satisfy the invariant. -/
inductive Path (kS kR : SelKind) : Table → List Mv → Table → Prop
  | nil {t} : Inv kS kR t → Path kS kR t [] t
  | cons {t mv t1 mvs t2} : Inv kS kR t → MStep t mv t1 → Path kS kR t1 mvs t2 →
      Path kS kR t (mv :: mvs) t2

theorem Path.start {kS kR t mvs t'} (h : Path kS kR t mvs t') : Inv kS kR t := by cases h <;> assumption

theorem Path.fin {kS kR t mvs t'} (h : Path kS kR t mvs t') : Inv kS kR t' := by
  induction h with
  | nil h => exact h
  | cons _ _ _ ih => exact ih

theorem Path.append {kS kR t mvs t' mvs' t''} (h : Path kS kR t mvs t') (h' : Path kS kR t' mvs' t'') :
    Path kS kR t (mvs ++ mvs') t'' := by
  induction h with
  | nil _ => exact h'
  | cons hi hm _ ih => exact .cons hi hm (ih h')

theorem Path.one {kS kR t mv t'} (h : Inv kS kR t) (hm : MStep t mv t') (h' : Inv kS kR t') :
    Path kS kR t [mv] t' := .cons h hm (.nil h')

theorem Inv.update {kS kR t} (h : Inv kS kR t) {k : Key} {it : Item} {p : Pri}
    (hk : t.data.get? k = some it) (hp : okPri kS kR p = true) :
    ∃ t', t.updateItem k p = (t', .ok ()) ∧ Path kS kR t [.update it p] t' := by
  obtain ⟨bS, τS, bR, τR, hc⟩ := h.core
  obtain ⟨t', h1, h2, h3, h4, h5, h6, h7, h8, h9, h10, h11, h12⟩ := hc.update hk hp
  have hown := hc.own k it hk
  refine ⟨t', h1, Path.one h ?_ ⟨⟨_, _, _, _, h2⟩, ?_, ?_, ?_⟩⟩
  · subst hown
    exact ⟨hk, ⟨h3, h4, h5, h8, h6, h7, h11, h12⟩, h9, h10⟩
  · rw [h3, h6, AMap.size_insert_of_some _ hk]; exact h.size
  · rw [h3, h4, AMap.size_insert_of_some _ hk]; exact h.lim
  · rw [h4]; exact h.pos

theorem Inv.delete {kS kR t} (h : Inv kS kR t) {k : Key} {it : Item} (hk : t.data.get? k = some it) :
    ∃ t', t.deleteItem k = (t', .ok ()) ∧ Path kS kR t [.delete it] t' := by
  obtain ⟨bS, τS, bR, τR, hc⟩ := h.core
  obtain ⟨t', h1, h2, h3, h4, h5, h6, h7, h8, h9, h11, h12⟩ := hc.delete hk
  have hown := hc.own k it hk
  have hsz := AMap.size_erase_of_some hk
  refine ⟨t', h1, Path.one h ?_ ⟨⟨_, _, _, _, h2⟩, ?_, ?_, ?_⟩⟩
  · subst hown
    exact ⟨hk, ⟨h3, h4, h5, h8, h6, h7, h11, h12⟩, h9⟩
  · rw [h3, h6]; have := h.size; omega
  · rw [h3, h4]; have := h.lim; simp only [Limiter.delete]; omega
  · rw [h4]; exact h.pos

theorem Inv.insertNew {kS kR t} (h : Inv kS kR t) {i : Item} {now : Int}
    (hk : t.data.get? i.key = none) (hp : okPri kS kR i.priority = true) (hlim : t.limiter.canInsert 1 = true)
    (d : Draw) :
    ∃ t' v, t.insertNew i now d = (t', .ok ()) ∧ Path kS kR t [.insert { i with insertedAt := now } v] t' ∧
      (∀ w, v = some w → ∃ pr, ((t.remover.apply (.insert i.key i.priority)).1).sample d = .ok (w.key, pr)) := by
  obtain ⟨bS, τS, bR, τR, hc⟩ := h.core
  obtain ⟨t4, h1, h2, h3, h4, h5, h6, h7, h8, h9, hsam, hrem⟩ := hc.inserted now hk hp d
  have hsz : t4.data.size = t.data.size + 1 := by rw [h3]; exact AMap.size_insert_of_none _ hk
  rw [h1]
  by_cases hfull : t4.maxSize < t4.data.size
  · obtain ⟨k, pr, v, hs, hv⟩ := h2.removeKey (by omega) d
    obtain ⟨t', g1, g2, g3, g4, g5, g6, g7, g8, g9, g10, g11⟩ := h2.delete hv
    have hown := h2.own k v hv
    have hsz2 := AMap.size_erase_of_some hv
    have hle := h.size
    simp only [hfull, if_true, hs, g1]
    refine ⟨_, some v, rfl, Path.one h ?_ ⟨⟨_, _, _, _, g2.withLimiter _⟩, ?_, ?_, ?_⟩, ?_⟩
    · subst hown
      refine ⟨hlim, hk, by omega, by rw [← h3]; exact hv, ⟨d, pr, by rw [← hrem]; exact hs⟩, ?_, ?_⟩
      · refine ⟨?_, ?_, ?_, ?_, ?_, ?_, by show t'.sampler = _; rw [g10, hsam]; rfl,
          by show t'.remover = _; rw [g11, hrem]; rfl⟩
        · exact g3.trans (by rw [h3])
        · show t'.limiter.insert = _; rw [g4, h4]
        · exact g5.trans (by rw [h5]; simp)
        · exact g8.trans h8
        · exact g6.trans h6
        · exact g7.trans h7
      · refine ⟨t4.episodeRefs, by rw [← h3]; exact h2.refs, ?_⟩
        rw [← h9]; exact g9
    · show t'.data.size ≤ t'.maxSize
      rw [g3, g6]; omega
    · show t'.limiter.insert.inserts - t'.limiter.insert.deletes = t'.data.size
      have := h.lim
      rw [g3, g4, h4]; simp only [Limiter.insert, Limiter.delete]; omega
    · show 0 < t'.limiter.insert.minSize
      rw [g4, h4]; exact h.pos
    · rintro w hw
      cases hw
      rw [hown]
      exact ⟨pr, by rw [← hrem]; exact hs⟩
  · simp only [hfull, if_false]
    refine ⟨_, none, rfl, Path.one h ?_ ⟨⟨_, _, _, _, h2.withLimiter _⟩, ?_, ?_, ?_⟩, ?_⟩
    · refine ⟨hlim, hk, by omega, ⟨h3, ?_, h5, h8, h6, h7, hsam, hrem⟩, h9⟩
      show t4.limiter.insert = _; rw [h4]
    · show t4.data.size ≤ t4.maxSize; omega
    · show t4.limiter.insert.inserts - t4.limiter.insert.deletes = t4.data.size
      have := h.lim
      rw [h4]; simp only [Limiter.insert]; omega
    · show 0 < t4.limiter.insert.minSize
      rw [h4]; exact h.pos
    · rintro w hw; cases hw

theorem Inv.sampleOne {kS kR t} (h : Inv kS kR t) (hcan : t.limiter.canSample 1 = true) (rl : Bool) (d : Draw) :
    ∃ t' it pr gone, { t with limiter := commit t.limiter }.sampleOne rl d =
        (t', .ok ⟨bump it, pr, t.data.size, it.priority, it.timesSampled + 1, rl⟩) ∧
      t.sampler.sample d = .ok (it.key, pr) ∧
      Path kS kR t [.sample it ⟨bump it, pr, t.data.size, it.priority, it.timesSampled + 1, rl⟩ gone] t' := by
  obtain ⟨bS, τS, bR, τR, hc⟩ := h.core
  have hne : 0 < t.data.size := by
    have h1 := h.lim
    have h2 := h.pos
    unfold Limiter.canSample at hcan
    split at hcan
    · simp at hcan
    · omega
  obtain ⟨k, pr, it, hs, hk⟩ := hc.sampleKey hne d
  have hown := hc.own k it hk
  have hcb : Core kS kR { t with
        limiter := commit t.limiter
        numUniqueSamples := if it.timesSampled = 0 then t.numUniqueSamples + 1 else t.numUniqueSamples
        data := t.data.insert k (bump it)
        log := t.log ++ [.sample (bump it)] } bS τS bR τR := by
    refine ⟨hc.samp, hc.rem, ?_, ?_, ?_, ?_⟩
    · intro k'
      rw [hc.agS k']
      simp only [AMap.get?_insert]
      by_cases he : k' = k
      · subst he; rw [hk]; simp [bump]
      · simp [he]
    · intro k'
      rw [hc.agR k']
      simp only [AMap.get?_insert]
      by_cases he : k' = k
      · subst he; rw [hk]; simp [bump]
      · simp [he]
    · intro k' it' hk'
      simp only [AMap.get?_insert] at hk'
      split at hk'
      · rename_i he
        simp only [Option.some.injEq] at hk'
        subst hk' he
        exact hown
      · exact hc.own k' it' hk'
    · intro e
      show t.episodeRefs.get? e = _
      rw [hc.refs e]
      have : refCount (t.data.insert k (bump it)) e = refCount t.data e :=
        AMap.sumBy_insert_some hk _ _ rfl
      simp only [this]
  have hsz := AMap.size_insert_of_some (bump it) hk
  simp only [Table.sampleOne, hs, hk]
  by_cases hg : it.timesSampled + 1 = t.maxTimesSampled
  · have hkb : (t.data.insert k (bump it)).get? k = some (bump it) := by simp
    obtain ⟨t', g1, g2, g3, g4, g5, g6, g7, g8, g9, g10, g11⟩ := hcb.delete (k := k) (it := bump it) hkb
    have hsz2 := AMap.size_erase_of_some hkb
    simp only [hg, if_true]
    have hkey : it.key = k := hown
    have e1 : ∀ (x : Table), x.deleteItem it.key = x.deleteItem k := by rw [hkey]; intro x; rfl
    have e2 : ({ it with timesSampled := t.maxTimesSampled } : Item) = bump it := by simp [bump, hg]
    simp only [e1, e2]
    unfold commit at *
    simp only [g1]
    refine ⟨t', it, pr, true, by simp [bump, hg], by rw [hkey], Path.one h ?_ ⟨⟨_, _, _, _, g2⟩, ?_, ?_, ?_⟩⟩
    · subst hkey
      refine ⟨hcan, hk, ⟨d, pr, rl, hs, by simp [hg]⟩, by simp [hg], ⟨?_, ?_, ?_, ?_, ?_, ?_, g10, g11⟩, ?_⟩
      · simpa using g3
      · simpa [commit] using g4
      · simpa using g5
      · simpa using g8
      · simpa using g6
      · simpa using g7
      · simpa using g9
    · rw [g3, g6]; have := h.size; simp only []; omega
    · rw [g3, g4]; have := h.lim; simp only [Limiter.delete]; omega
    · rw [g4]; exact h.pos
  · simp only [hg, if_false]
    refine ⟨_, it, pr, false, rfl, by rw [hown], Path.one h ?_ ⟨⟨_, _, _, _, hcb⟩, ?_, ?_, ?_⟩⟩
    · subst hown
      exact ⟨hcan, hk, ⟨d, pr, rl, hs, rfl⟩, by simp [hg], ⟨rfl, rfl, rfl, rfl, rfl, rfl, rfl, rfl⟩, rfl⟩
    · show (t.data.insert k (bump it)).size ≤ t.maxSize
      rw [hsz]; exact h.size
    · show (commit t.limiter).inserts - (commit t.limiter).deletes = (t.data.insert k (bump it)).size
      rw [hsz]; exact h.lim
    · exact h.pos

theorem maybeCommit_some {l l' : Limiter} : l.maybeCommitSample = some l' ↔ l.canSample 1 = true ∧ l' = commit l := by
  unfold Limiter.maybeCommitSample commit
  split
  · rename_i h; simp [h, eq_comm]
  · rename_i h; simp [h]

theorem maybeCommit_none {l : Limiter} : l.maybeCommitSample = none ↔ l.canSample 1 = false := by
  unfold Limiter.maybeCommitSample
  split
  · rename_i h; simp [h]
  · rename_i h; simpa using h

theorem Inv.sampleMore {kS kR} (rl : Bool) (more : Nat) : ∀ {t} (acc : List Sampled) (ds : Nat → Draw), Inv kS kR t →
    ∃ t' l mvs, t.sampleMore rl acc more ds = (t', .ok (acc ++ l)) ∧ Path kS kR t mvs t' ∧
      mvs.map Mv.out = l.map some := by
  induction more with
  | zero => intro t acc ds h; exact ⟨t, [], [], by simp [Table.sampleMore], .nil h, rfl⟩
  | succ n ih =>
    intro t acc ds h
    simp only [Table.sampleMore]
    cases hm : t.limiter.maybeCommitSample with
    | none => exact ⟨t, [], [], by simp, .nil h, rfl⟩
    | some l =>
      obtain ⟨hcan, rfl⟩ := maybeCommit_some.mp hm
      obtain ⟨t1, it, pr, gone, h1, _, h3⟩ := h.sampleOne hcan rl (ds 0)
      obtain ⟨t2, l, mvs, h4, h5, h6⟩ := ih (acc ++ [⟨bump it, pr, t.data.size, it.priority, it.timesSampled + 1, rl⟩])
        (fun i => ds (i + 1)) h3.fin
      simp only [h1, h4]
      exact ⟨t2, ⟨bump it, pr, t.data.size, it.priority, it.timesSampled + 1, rl⟩ :: l, _, by simp,
        h3.append h5, by simp [h6, Mv.out]⟩

theorem Inv.sampleLoop {kS kR t} (h : Inv kS kR t) (hcan : t.limiter.canSample 1 = true) (rl : Bool) (batch : Nat)
    (ds : Nat → Draw) :
    ∃ t' l mvs, { t with limiter := commit t.limiter }.sampleLoop rl batch ds = (t', .ok (.samples l)) ∧
      Path kS kR t mvs t' ∧ mvs.map Mv.out = l.map some ∧ l ≠ [] := by
  obtain ⟨t1, it, pr, gone, h1, _, h3⟩ := h.sampleOne hcan rl (ds 0)
  obtain ⟨t2, l, mvs, h4, h5, h6⟩ := Inv.sampleMore rl (batch - 1)
    [⟨bump it, pr, t.data.size, it.priority, it.timesSampled + 1, rl⟩] (fun i => ds (i + 1)) h3.fin
  simp only [Table.sampleLoop, h1, h4]
  exact ⟨t2, _ :: l, _ :: mvs, rfl, h3.append h5, by simp [h6, Mv.out], by simp⟩

theorem Inv.deleteAll {kS kR} (ks : List Key) : ∀ {t}, Inv kS kR t →
    ∃ t' mvs, t.deleteAll ks = (t', .ok ()) ∧ Path kS kR t mvs t' ∧ ∀ mv ∈ mvs, ∃ it, mv = .delete it := by
  induction ks with
  | nil => intro t h; exact ⟨t, [], rfl, .nil h, by simp⟩
  | cons k ks ih =>
    intro t h
    simp only [Table.deleteAll]
    cases hk : t.data.get? k with
    | none =>
      have : t.deleteItem k = (t, .ok ()) := by simp [deleteItem, hk]
      simp only [this]; exact ih h
    | some it =>
      obtain ⟨t1, h1, h2⟩ := h.delete hk
      obtain ⟨t2, mvs, h3, h4, h5⟩ := ih h2.fin
      simp only [h1, h3]
      exact ⟨t2, _ :: mvs, rfl, h2.append h4, by simpa using h5⟩

theorem Inv.updateAll {kS kR} (us : List (Key × Pri)) : ∀ {t}, Inv kS kR t →
    (∀ u ∈ us, okPri kS kR u.2 = true) →
    ∃ t' mvs, t.updateAll us = (t', .ok ()) ∧ Path kS kR t mvs t' ∧ ∀ mv ∈ mvs, ∃ it p, mv = .update it p := by
  induction us with
  | nil => intro t h _; exact ⟨t, [], rfl, .nil h, by simp⟩
  | cons u us ih =>
    intro t h hok
    simp only [Table.updateAll]
    cases hk : t.data.get? u.1 with
    | none =>
      have : t.updateItem u.1 u.2 = (t, .ok ()) := by simp [updateItem, hk]
      simp only [this]; exact ih h (fun v hv => hok v (List.mem_cons_of_mem _ hv))
    | some it =>
      obtain ⟨t1, h1, h2⟩ := h.update hk (hok u (by simp))
      obtain ⟨t2, mvs, h3, h4, h5⟩ := ih h2.fin (fun v hv => hok v (List.mem_cons_of_mem _ hv))
      simp only [h1, h3]
      exact ⟨t2, _ :: mvs, rfl, h2.append h4, by simpa using h5⟩

theorem out_nil {mvs : List Mv} (h : ∀ mv ∈ mvs, mv.out = none) : mvs.filterMap Mv.out = [] := by
  simpa [List.filterMap_eq_nil_iff] using h

theorem not_insert_of_out {mvs : List Mv} {l : List Sampled} (h : mvs.map Mv.out = l.map some) (i : Item)
    (v : Option Item) : Mv.insert i v ∉ mvs := by
  intro hm
  have : (Mv.insert i v).out ∈ mvs.map Mv.out := List.mem_map_of_mem hm
  rw [h] at this
  simp [Mv.out] at this

/-- The item that a request adds to the table if its key is new. -/
def Op.inserted : Op → Option Item
  | .insert i now _ => some { i with insertedAt := now }
  | .insertResume i now _ => some { i with insertedAt := now }
  | .workerInsert i now _ => some { i with insertedAt := now }
  | _ => none

theorem Inv.reset {kS kR t} (h : Inv kS kR t) : Path kS kR t [.reset] t.reset := by
  obtain ⟨bS, τS, bR, τR, hc⟩ := h.core
  refine Path.one h ⟨⟨rfl, rfl, rfl, rfl, rfl, rfl, rfl, rfl⟩, rfl, rfl⟩ ⟨⟨bS.step kS.accept τS .clear, τS + 1,
    bR.step kR.accept τR .clear, τR + 1, ?_⟩, ?_, ?_, ?_⟩
  · refine ⟨(hc.samp.step .clear).1, (hc.rem.step .clear).1, ?_, ?_, ?_, ?_⟩
    · intro k; simp [Book.step, Table.reset]
    · intro k; simp [Book.step, Table.reset]
    · intro k it hk; simp [Table.reset] at hk
    · intro e; simp [Table.reset, refCount, AMap.sumBy, AMap.empty]; rfl
  · simp [Table.reset]
  · simp [Table.reset, Limiter.reset]
  · exact h.pos

theorem Inv.close {kS kR t} (h : Inv kS kR t) : Path kS kR t [.close] t.close := by
  obtain ⟨bS, τS, bR, τR, hc⟩ := h.core
  exact Path.one h ⟨⟨rfl, rfl, by simp [Table.close], rfl, rfl, rfl, rfl, rfl⟩, rfl, rfl⟩
    ⟨⟨_, _, _, _, hc.withLimiter _⟩, h.size, h.lim, h.pos⟩

/-- All priorities in the request are admitted by the two selectors. -/
def Op.okFor (kS kR : SelKind) : Op → Prop
  | .insert i _ _ => okPri kS kR i.priority = true
  | .insertResume i _ _ => okPri kS kR i.priority = true
  | .workerInsert i _ _ => okPri kS kR i.priority = true
  | .mutate us _ => ∀ u ∈ us, okPri kS kR u.2 = true
  | _ => True

/-- The result of a critical section and the moves it consists of. -/
structure StepPath (kS kR : SelKind) (t : Table) (op : Op) (mvs : List Mv) : Prop where
  path : Path kS kR t mvs (t.step op).1
  res : ((t.step op).2 = .ok .done ∧ mvs.filterMap Mv.out = []) ∨
    ((t.step op).2 = .ok .blocked ∧ (t.step op).1 = t ∧ mvs = []) ∨
    (∃ l, (t.step op).2 = .ok (.samples l) ∧ mvs.map Mv.out = l.map some ∧ l ≠ []) ∨
    (∃ c, (t.step op).2 = .err c ∧ (c = .cancelled ∨ c = .invalidArgument) ∧ (t.step op).1 = t ∧ mvs = [])
  ins : ∀ i v, Mv.insert i v ∈ mvs → op.inserted = some i ∧ mvs = [.insert i v]

theorem Inv.insertResume {kS kR t} (h : Inv kS kR t) {i : Item} (hp : okPri kS kR i.priority = true)
    (now : Int) (d : Draw) : ∃ mvs, StepPath kS kR t (.insertResume i now d) mvs := by
  cases ha : t.limiter.awaitInsert with
  | cancelled =>
    have e : t.step (.insertResume i now d) = (t, .err .cancelled) := by
      simp [Table.step, Table.insertResume, ha]
    exact ⟨[], by rw [e]; exact .nil h, by rw [e]; exact .inr (.inr (.inr ⟨_, rfl, .inl rfl, rfl, rfl⟩)), by simp⟩
  | wait =>
    have e : t.step (.insertResume i now d) = (t, .ok .blocked) := by
      simp [Table.step, Table.insertResume, ha]
    exact ⟨[], by rw [e]; exact .nil h, by rw [e]; exact .inr (.inl ⟨rfl, rfl, rfl⟩), by simp⟩
  | proceed =>
    have hcan : t.limiter.canInsert 1 = true := by
      unfold Limiter.awaitInsert at ha
      split at ha
      · simp at ha
      · split at ha
        · assumption
        · simp at ha
    cases hk : t.data.get? i.key with
    | some it =>
      obtain ⟨t', h1, h2⟩ := h.update hk hp
      have e : t.step (.insertResume i now d) = (t', .ok .done) := by
        simp [Table.step, Table.insertResume, ha, AMap.contains, hk, h1, reply]
      exact ⟨_, by rw [e]; exact h2, by rw [e]; exact .inl ⟨rfl, rfl⟩, by intro j w hm; simp only [List.mem_cons, List.not_mem_nil, or_false, Mv.insert.injEq, reduceCtorEq] at hm <;> (obtain ⟨rfl, rfl⟩ := hm; exact ⟨rfl, rfl⟩)⟩
    | none =>
      obtain ⟨t', v, h1, h2, _⟩ := h.insertNew (now := now) hk hp hcan d
      have e : t.step (.insertResume i now d) = (t', .ok .done) := by
        simp [Table.step, Table.insertResume, ha, AMap.contains, hk, h1, reply]
      exact ⟨_, by rw [e]; exact h2, by rw [e]; exact .inl ⟨rfl, rfl⟩, by intro j w hm; simp only [List.mem_cons, List.not_mem_nil, or_false, Mv.insert.injEq, reduceCtorEq] at hm <;> (obtain ⟨rfl, rfl⟩ := hm; exact ⟨rfl, rfl⟩)⟩

theorem Inv.sampleResume {kS kR t} (h : Inv kS kR t) (n : Nat) (ds : Nat → Draw) :
    ∃ mvs, StepPath kS kR t (.sampleResume n ds) mvs := by
  cases ha : t.limiter.awaitSample with
  | cancelled =>
    have e : t.step (.sampleResume n ds) = (t, .err .cancelled) := by
      simp [Table.step, Table.sampleResume, ha]
    exact ⟨[], by rw [e]; exact .nil h, by rw [e]; exact .inr (.inr (.inr ⟨_, rfl, .inl rfl, rfl, rfl⟩)), by simp⟩
  | wait =>
    have e : t.step (.sampleResume n ds) = (t, .ok .blocked) := by
      simp [Table.step, Table.sampleResume, ha]
    exact ⟨[], by rw [e]; exact .nil h, by rw [e]; exact .inr (.inl ⟨rfl, rfl, rfl⟩), by simp⟩
  | proceed =>
    have hcan : t.limiter.canSample 1 = true := by
      unfold Limiter.awaitSample at ha
      split at ha
      · simp at ha
      · split at ha
        · assumption
        · simp at ha
    obtain ⟨t', l, mvs, h1, h2, h3, h4⟩ := h.sampleLoop hcan true n ds
    have e : t.step (.sampleResume n ds) = (t', .ok (.samples l)) := by
      simp only [Table.step, Table.sampleResume, ha]; exact h1
    exact ⟨mvs, by rw [e]; exact h2, by rw [e]; exact .inr (.inr (.inl ⟨l, rfl, h3, h4⟩)),
      fun i v hm => absurd hm (not_insert_of_out h3 i v)⟩

theorem Inv.step {kS kR t} (h : Inv kS kR t) (op : Op) (hop : op.okFor kS kR) :
    ∃ mvs, StepPath kS kR t op mvs := by
  cases op with
  | insert i now d =>
    by_cases hv : itemValid i = true
    · cases hk : t.data.get? i.key with
      | some it =>
        obtain ⟨t', h1, h2⟩ := h.update hk hop
        have e : t.step (.insert i now d) = (t', .ok .done) := by
          simp [Table.step, Table.insertOrAssign, hv, AMap.contains, hk, h1, reply]
        exact ⟨_, by rw [e]; exact h2, by rw [e]; exact .inl ⟨rfl, rfl⟩, by intro j w hm; simp only [List.mem_cons, List.not_mem_nil, or_false, Mv.insert.injEq, reduceCtorEq] at hm <;> (obtain ⟨rfl, rfl⟩ := hm; exact ⟨rfl, rfl⟩)⟩
      | none =>
        obtain ⟨mvs, hp, hr, hin⟩ := h.insertResume hop now d
        have e : t.step (.insert i now d) = t.step (.insertResume i now d) := by
          simp [Table.step, Table.insertOrAssign, hv, AMap.contains, hk]
        exact ⟨mvs, by rw [e]; exact hp, by rw [e]; exact hr, hin⟩
    · have e : t.step (.insert i now d) = (t, .err .invalidArgument) := by
        simp [Table.step, Table.insertOrAssign, hv]
      exact ⟨[], by rw [e]; exact .nil h, by rw [e]; exact .inr (.inr (.inr ⟨_, rfl, .inr rfl, rfl, rfl⟩)), by simp⟩
  | insertResume i now d => exact h.insertResume hop now d
  | workerInsert i now d =>
    by_cases hcan : t.limiter.canInsert 1 = true
    · cases hk : t.data.get? i.key with
      | some it =>
        obtain ⟨t', h1, h2⟩ := h.update hk hop
        have e : t.step (.workerInsert i now d) = (t', .ok .done) := by
          simp [Table.step, Table.workerInsert, Table.insertInternal, hcan, AMap.contains, hk, h1, reply]
        exact ⟨_, by rw [e]; exact h2, by rw [e]; exact .inl ⟨rfl, rfl⟩, by intro j w hm; simp only [List.mem_cons, List.not_mem_nil, or_false, Mv.insert.injEq, reduceCtorEq] at hm <;> (obtain ⟨rfl, rfl⟩ := hm; exact ⟨rfl, rfl⟩)⟩
      | none =>
        obtain ⟨t', v, h1, h2, _⟩ := h.insertNew (now := now) hk hop hcan d
        have e : t.step (.workerInsert i now d) = (t', .ok .done) := by
          simp [Table.step, Table.workerInsert, Table.insertInternal, hcan, AMap.contains, hk, h1, reply]
        exact ⟨_, by rw [e]; exact h2, by rw [e]; exact .inl ⟨rfl, rfl⟩, by intro j w hm; simp only [List.mem_cons, List.not_mem_nil, or_false, Mv.insert.injEq, reduceCtorEq] at hm <;> (obtain ⟨rfl, rfl⟩ := hm; exact ⟨rfl, rfl⟩)⟩
    · have e : t.step (.workerInsert i now d) = (t, .ok .blocked) := by
        simp [Table.step, Table.workerInsert, hcan]
      exact ⟨[], by rw [e]; exact .nil h, by rw [e]; exact .inr (.inl ⟨rfl, rfl, rfl⟩), by simp⟩
  | mutate us ks =>
    obtain ⟨t1, m1, h1, h2, h3⟩ := Inv.deleteAll ks h
    obtain ⟨t2, m2, h4, h5, h6⟩ := Inv.updateAll us h2.fin hop
    have e : t.step (.mutate us ks) = (t2, .ok .done) := by
      simp [Table.step, Table.mutateItems, h1, h4, reply]
    have hnone : ∀ mv ∈ m1 ++ m2, mv.out = none := by
      intro mv hm
      rcases List.mem_append.mp hm with hm | hm
      · obtain ⟨it, rfl⟩ := h3 mv hm; rfl
      · obtain ⟨it, p, rfl⟩ := h6 mv hm; rfl
    refine ⟨m1 ++ m2, by rw [e]; exact h2.append h5, by rw [e]; exact .inl ⟨rfl, out_nil hnone⟩, ?_⟩
    · intro i v hm
      rcases List.mem_append.mp hm with hm | hm
      · obtain ⟨it, hc⟩ := h3 _ hm; cases hc
      · obtain ⟨it, p, hc⟩ := h6 _ hm; cases hc
  | sample n ds =>
    cases hm : t.limiter.maybeCommitSample with
    | some l =>
      obtain ⟨hcan, rfl⟩ := maybeCommit_some.mp hm
      obtain ⟨t', l, mvs, h1, h2, h3, h4⟩ := h.sampleLoop hcan false n ds
      have e : t.step (.sample n ds) = (t', .ok (.samples l)) := by
        simp only [Table.step, Table.sampleBatch, hm]; exact h1
      exact ⟨mvs, by rw [e]; exact h2, by rw [e]; exact .inr (.inr (.inl ⟨l, rfl, h3, h4⟩)),
      fun i v hm => absurd hm (not_insert_of_out h3 i v)⟩
    | none =>
      obtain ⟨mvs, hp, hr, hin⟩ := h.sampleResume n ds
      have e : t.step (.sample n ds) = t.step (.sampleResume n ds) := by
        simp [Table.step, Table.sampleBatch, hm]
      exact ⟨mvs, by rw [e]; exact hp, by rw [e]; exact hr, hin⟩
  | sampleResume n ds => exact h.sampleResume n ds
  | workerSample rl d =>
    cases hm : t.limiter.maybeCommitSample with
    | some l =>
      obtain ⟨hcan, rfl⟩ := maybeCommit_some.mp hm
      obtain ⟨t', it, pr, gone, h1, _, h3⟩ := h.sampleOne hcan rl d
      have e : t.step (.workerSample rl d) =
          (t', .ok (.samples [⟨bump it, pr, t.data.size, it.priority, it.timesSampled + 1, rl⟩])) := by
        simp only [Table.step, Table.workerSample, hm, h1]
      exact ⟨_, by rw [e]; exact h3, by rw [e]; exact .inr (.inr (.inl ⟨_, rfl, rfl, by simp⟩)), by simp⟩
    | none =>
      have e : t.step (.workerSample rl d) = (t, .ok .blocked) := by
        simp only [Table.step, Table.workerSample, hm]
      exact ⟨[], by rw [e]; exact .nil h, by rw [e]; exact .inr (.inl ⟨rfl, rfl, rfl⟩), by simp⟩
  | reset => exact ⟨_, h.reset, .inl ⟨rfl, rfl⟩, by intro j w hm; simp only [List.mem_cons, List.not_mem_nil, or_false, Mv.insert.injEq, reduceCtorEq] at hm <;> (obtain ⟨rfl, rfl⟩ := hm; exact ⟨rfl, rfl⟩)⟩
  | close => exact ⟨_, h.close, .inl ⟨rfl, rfl⟩, by intro j w hm; simp only [List.mem_cons, List.not_mem_nil, or_false, Mv.insert.injEq, reduceCtorEq] at hm <;> (obtain ⟨rfl, rfl⟩ := hm; exact ⟨rfl, rfl⟩)⟩

theorem Inv.make (maxSize : Nat) (m : Int) (kS kR : SelKind) {l : Limiter} {spi lo hi : Rat} {ms : Int}
    (hl : Limiter.make spi ms lo hi = .ok l) : Inv kS kR (Table.make maxSize m kS kR l) := by
  unfold Limiter.make at hl
  split at hl
  · rename_i hpos
    cases hl
    refine ⟨⟨_, _, _, _, Sel.Inv.make kS, Sel.Inv.make kR, ?_, ?_, ?_, ?_⟩, ?_, ?_, hpos⟩
    · intro k; simp [Table.make]
    · intro k; simp [Table.make]
    · intro k it hk; simp [Table.make] at hk
    · intro e; simp [Table.make, refCount, AMap.sumBy, AMap.empty]; rfl
    · simp [Table.make]
    · simp [Table.make]
  · simp at hl

/-- Tables in operation: a sequence of critical sections with admissible priorities. -/
theorem Inv.run {kS kR} (ops : List Op) : ∀ {t}, Inv kS kR t → (∀ op ∈ ops, op.okFor kS kR) →
    ∃ t' mvs, t.run ops = some t' ∧ Path kS kR t mvs t' ∧
      ∀ i v, Mv.insert i v ∈ mvs → ∃ op ∈ ops, op.inserted = some i := by
  induction ops with
  | nil => intro t h _; exact ⟨t, [], rfl, .nil h, by simp⟩
  | cons op ops ih =>
    intro t h hok
    obtain ⟨mvs, hp, hr, hin⟩ := h.step op (hok op (by simp))
    obtain ⟨t', mvs', h1, h2, h3⟩ := ih hp.fin (fun o ho => hok o (List.mem_cons_of_mem _ ho))
    refine ⟨t', mvs ++ mvs', ?_, hp.append h2, ?_⟩
    · simp only [Table.run]
      rcases hr with ⟨h, _⟩ | ⟨h, _⟩ | ⟨l, h, _⟩ | ⟨c, h, _⟩ <;> simp only [h, h1]
    · intro i v hm
      rcases List.mem_append.mp hm with hm | hm
      · exact ⟨op, by simp, (hin i v hm).1⟩
      · obtain ⟨o, ho, h⟩ := h3 i v hm
        exact ⟨o, List.mem_cons_of_mem _ ho, h⟩

end Table
end Verif
