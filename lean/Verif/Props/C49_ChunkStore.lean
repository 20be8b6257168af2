import Verif.Proofs.ChunkStore
/-
C49: the chunk store, for all interleavings of callers, deleters of shared pointers and the cleaner thread.
-/
namespace Verif
open ChunkStore (S Reachable Tidy NoReuse init run step)

/-- C49: `Get` never returns a dead chunk or one with another key, and if it succeeds it returns one chunk per key. -/
theorem C49_get_sound {s s' : S} (h : Reachable s) {ks : List Key} {ids : List Nat} {ok : Bool}
    (hs : step s (.get ks) = some (s', .chunks ids ok)) :
    (∀ (i : Nat) id, ids[i]? = some id → ∃ k, ks[i]? = some k ∧ s.live id k ∧ s'.live id k) ∧
    (ok = true → ids.length = ks.length) := by
  simp only [ChunkStore.step, Option.some.injEq, Prod.mk.injEq, ChunkStore.Out.chunks.injEq] at hs
  obtain ⟨rfl, rfl, rfl⟩ := hs
  obtain ⟨pre, h1, h2, h3, h4, h5, _⟩ := ChunkStore.get_eq s ks
  rw [h2, h3]
  refine ⟨fun i id hi => ?_, h5⟩
  have hlt := (List.getElem?_eq_some_iff.mp hi).1
  have hm : (ks.map s.find)[i]? = some (some id) := by
    rw [h4, List.getElem?_append_left (by simpa using hlt)]
    simp [hi]
  rw [List.getElem?_map, Option.map_eq_some_iff] at hm
  obtain ⟨k, hk, hf⟩ := hm
  have hl := h.inv.find_live hf
  refine ⟨k, hk, hl, ?_⟩
  exact ChunkStore.foldl_addRef (P := fun t => t.live id k) (fun t j ht ha => (ChunkStore.addRef_live ha).mpr ht) pre s hl h1

/-- C49: `Insert` returns a chunk with the key, owned by the caller; if it is a new one, it has the given data, and
otherwise it is one that was alive. -/
theorem C49_insert_sound {s s' : S} (h : Reachable s) {k : Key} {d id : Nat} (hs : step s (.insert k d) = some (s', .chunk id)) :
    s'.live id k ∧ (s.live id k ∨ (s.chunks[id]? = none ∧ s'.chunks[id]? = some ⟨k, d, 1⟩)) := by
  simp only [ChunkStore.step, Option.some.injEq, Prod.mk.injEq, ChunkStore.Out.chunk.injEq] at hs
  obtain ⟨rfl, rfl⟩ := hs
  rcases ChunkStore.insert_cases s k d with ⟨id, hf, he⟩ | ⟨hf, he⟩
  · rw [he]
    have hl := h.inv.find_live hf
    exact ⟨(ChunkStore.addRef_live (ChunkStore.find_some hf).2).mpr hl, .inl hl⟩
  · rw [he]
    exact ⟨⟨⟨k, d, 1⟩, by simp, rfl, by simp⟩, .inr ⟨by simp, by simp⟩⟩

/-- C49: entries of dead chunks in the map are on their way to the cleaner; so the map does not grow without bound. -/
theorem C49_no_leak {s : S} (h : Reachable s) {k : Key} {id : Nat} (hm : s.map.get? k = some id) :
    s.live id k ∨ k ∈ s.pending := by
  rcases h.inv.stale k id hm with ⟨c, h1, h2⟩ | h1
  · obtain ⟨c', h3, h4⟩ := h.inv.own k id hm
    rw [h1] at h3; cases h3
    exact .inl ⟨c, h1, h4, h2⟩
  · exact .inr h1

/-- C49: a chunk that has an owner is found under its key, is the only such chunk, and is returned by `Insert`. Missing: states
in which a key was inserted again before the cleaner had erased it (`C49_lost`). -/
theorem C49_find_partial {s : S} (h : Tidy s) {id : Nat} {k : Key} (hl : s.live id k) :
    (∀ id', s.live id' k → id' = id) ∧
    (∃ s', step s (.get [k]) = some (s', .chunks [id] true)) ∧
    (∀ d, ∃ s', step s (.insert k d) = some (s', .chunk id) ∧ s'.chunks.length = s.chunks.length) := by
  have hf := h.tinv.find hl
  refine ⟨fun id' hl' => ?_, ?_, fun d => ?_⟩
  · have := h.tinv.find hl'
    rw [hf] at this
    exact (Option.some.inj this).symm
  · exact ⟨s.addRef id, by simp [ChunkStore.step, ChunkStore.get, hf]⟩
  · exact ⟨s.addRef id, by simp [ChunkStore.step, ChunkStore.insert, hf], by simp [S.addRef]⟩

/-- C49: `Get` succeeds exactly if every key has a live chunk, and returns those. -/
theorem C49_get_partial {s : S} (h : Tidy s) (ks : List Key) :
    (∀ ids, ids.length = ks.length → (∀ (i id : Nat) (k : Key), ids[i]? = some id → ks[i]? = some k → s.live id k) →
      ∃ s', step s (.get ks) = some (s', .chunks ids true)) ∧
    ((∃ k ∈ ks, ∀ id, ¬ s.live id k) → ∃ s' ids, step s (.get ks) = some (s', .chunks ids false)) := by
  obtain ⟨pre, h1, h2, h3, h4, h5, h6⟩ := ChunkStore.get_eq s ks
  constructor
  · intro ids hlen hids
    have hm : ks.map s.find = ids.map some := by
      apply List.ext_getElem?
      intro i
      rw [List.getElem?_map, List.getElem?_map]
      by_cases hi : i < ks.length
      · rw [List.getElem?_eq_getElem hi, List.getElem?_eq_getElem (by omega)]
        have := hids i ids[i] ks[i] (List.getElem?_eq_getElem (by omega)) (List.getElem?_eq_getElem hi)
        simp [h.tinv.find this]
      · rw [List.getElem?_eq_none (by omega), List.getElem?_eq_none (by omega)]; rfl
    have hok : (ChunkStore.get s ks).2.2 = true := by
      cases hx : (ChunkStore.get s ks).2.2 with
      | true => rfl
      | false =>
        obtain ⟨k, hk, hn⟩ := h6 hx
        have : (ks.map s.find)[pre.length]? = some none := by rw [List.getElem?_map, hk]; simp [hn]
        rw [hm, List.getElem?_map] at this
        cases hy : ids[pre.length]? with
        | none => simp [hy] at this
        | some _ => simp [hy] at this
    have hpre : pre = ids := by
      have := h5 hok
      rw [h4, this, List.drop_length, List.map_nil, List.append_nil] at hm
      exact (List.map_inj_right (fun _ _ hx => Option.some.inj hx)).mp hm
    exact ⟨(ChunkStore.get s ks).1, by simp only [ChunkStore.step, h3, hok, hpre]⟩
  · rintro ⟨k, hk, hn⟩
    refine ⟨(ChunkStore.get s ks).1, pre, ?_⟩
    have hok : (ChunkStore.get s ks).2.2 = false := by
      cases hx : (ChunkStore.get s ks).2.2 with
      | false => rfl
      | true =>
        have := h5 hx
        rw [this, List.drop_length, List.map_nil, List.append_nil] at h4
        have hmem : s.find k ∈ ks.map s.find := List.mem_map_of_mem hk
        rw [h4, List.mem_map] at hmem
        obtain ⟨id, _, he⟩ := hmem
        exact (hn id (h.reachable.inv.find_live he.symm)).elim
    simp only [ChunkStore.step, h3, hok]

/-- In particular if keys are never used again after their chunk has died. -/
theorem C49_no_reuse {s : S} (h : NoReuse s) : Tidy s := h.tidy

/-- A run that meets the hypotheses: two keys, shared chunks, a chunk that dies and is cleaned up. -/
def storeActs : List ChunkStore.Act :=
  [.insert 1 10, .insert 2 20, .insert 1 11, .release 0, .get [1, 2], .release 1, .release 1, .pushKey 0, .cleanPop 1, .cleanErase]

/-- Key 1 still has its first chunk, key 2 is gone. -/
example : ∃ s, run init storeActs = some s ∧ NoReuse s ∧ s.live 0 1 ∧ (∀ id, ¬ s.live id 2) ∧ s.map.keys = [1] := by
  refine ⟨_, rfl, ?_, ⟨_, rfl, rfl, by decide⟩, ?_, by decide⟩
  · exact .step (a := .cleanErase) (.step (a := .cleanPop 1) (.step (a := .pushKey 0) (.step (a := .release 1)
      (.step (a := .release 1) (.step (a := .get [1, 2]) (.step (a := .release 0) (.step (a := .insert 1 11)
      (.step (a := .insert 2 20) (.step (a := .insert 1 10) .init rfl (by intro k d h c hc; simp [init] at hc)) rfl
        (by intro k d h; cases h; decide)) rfl (by intro k d h; cases h; decide)) rfl (by simp)) rfl (by simp)) rfl (by simp)) rfl
        (by simp)) rfl (by simp)) rfl (by simp)) rfl (by simp)
  · rintro id ⟨c, h1, h2, h3⟩
    have h1 : ([⟨1, 10, 2⟩, ⟨2, 20, 0⟩] : List ChunkStore.Chunk)[id]? = some c := h1
    match id with
    | 0 => simp at h1; subst h1; simp at h2
    | 1 => simp at h1; subst h1; simp at h3
    | n + 2 => simp at h1

/-- A key is inserted again after its chunk has died and before the cleaner erases it. -/
def lostActs : List ChunkStore.Act := [.insert 1 10, .release 0, .insert 1 10, .pushKey 0, .cleanPop 1, .cleanErase]

/-- The new chunk has an owner, but `Get` does not find it, and inserting the key once more makes a second chunk. -/
theorem C49_lost : ∃ s, run init lostActs = some s ∧ s.live 1 1 ∧
    (∃ s', step s (.get [1]) = some (s', .chunks [] false)) ∧
    (∃ s', step s (.insert 1 10) = some (s', .chunk 2) ∧ s'.live 1 1 ∧ s'.live 2 1) :=
  ⟨_, rfl, ⟨_, rfl, rfl, by decide⟩, ⟨_, rfl⟩, ⟨_, rfl, ⟨_, rfl, rfl, by decide⟩, ⟨_, rfl, rfl, by decide⟩⟩⟩

end Verif
