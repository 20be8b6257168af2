import Verif.Spec.ChunkStore
namespace Verif.ChunkStore

structure Inv (s : S) : Prop where
  own : ∀ k id, s.map.get? k = some id → ∃ c, s.chunks[id]? = some c ∧ c.key = k
  stale : ∀ k id, s.map.get? k = some id → s.alive id ∨ k ∈ s.pending
  died : ∀ k ∈ s.pending, ∃ c ∈ s.chunks, c.key = k ∧ c.refs = 0

def TInv (s : S) : Prop := ∀ id c, s.chunks[id]? = some c → 0 < c.refs → s.map.get? c.key = some id ∧ c.key ∉ s.pending

theorem foldl_erase (ks : List Key) (m : AMap Key Nat) (k : Key) :
    (ks.foldl AMap.erase m).get? k = if k ∈ ks then none else m.get? k := by
  induction ks generalizing m with
  | nil => simp
  | cons a ks ih =>
    rw [List.foldl_cons, ih, AMap.get?_erase]
    by_cases h : k = a
    · simp [h]
    · simp [h]

theorem find_some {s : S} {k : Key} {id : Nat} (h : s.find k = some id) : s.map.get? k = some id ∧ s.alive id := by
  unfold S.find at h
  split at h
  · simp at h
  · split at h
    · cases h; exact ⟨by assumption, by assumption⟩
    · simp at h

theorem Inv.find_live {s : S} (h : Inv s) {k : Key} {id : Nat} (hf : s.find k = some id) : s.live id k := by
  obtain ⟨h1, c, h2, h3⟩ := find_some hf
  obtain ⟨c', h4, h5⟩ := h.own k id h1
  rw [h2] at h4; cases h4
  exact ⟨c, h2, h5, h3⟩

theorem TInv.find {s : S} (h : TInv s) {k : Key} {id : Nat} (hl : s.live id k) : s.find k = some id := by
  obtain ⟨c, h1, rfl, h3⟩ := hl
  have := (h id c h1 h3).1
  simp only [S.find, this]
  rw [if_pos ⟨c, h1, h3⟩]

theorem addRef_get (s : S) (id i : Nat) : (s.addRef id).chunks[i]? =
    if id = i then s.chunks[i]?.map fun c => { c with refs := c.refs + 1 } else s.chunks[i]? := by
  simp only [S.addRef, List.getElem?_modify]
  by_cases h : id = i <;> simp [h]

theorem addRef_live {s : S} {id i : Nat} {k : Key} (ha : s.alive id) : (s.addRef id).live i k ↔ s.live i k := by
  obtain ⟨c, h1, h2⟩ := ha
  simp only [S.live, addRef_get]
  by_cases h : id = i
  · subst h
    simp [h1]
    omega
  · simp [h]

theorem alive_iff {s : S} {id : Nat} : s.alive id ↔ ∃ k, s.live id k := by
  constructor
  · rintro ⟨c, h1, h2⟩; exact ⟨c.key, c, h1, rfl, h2⟩
  · rintro ⟨k, c, h1, _, h2⟩; exact ⟨c, h1, h2⟩

theorem addRef_alive {s : S} {id i : Nat} (ha : s.alive id) : (s.addRef id).alive i ↔ s.alive i := by
  rw [alive_iff, alive_iff]; simp only [addRef_live ha]

theorem addRef_find {s : S} {id : Nat} (ha : s.alive id) (k : Key) : (s.addRef id).find k = s.find k := by
  unfold S.find
  show (match s.map.get? k with | none => none | some i => if (s.addRef id).alive i then some i else none) = _
  cases s.map.get? k with
  | none => rfl
  | some i => simp only [addRef_alive ha]

theorem Inv.addRef {s : S} (h : Inv s) {id : Nat} (ha : s.alive id) : Inv (s.addRef id) := by
  refine ⟨?_, ?_, ?_⟩
  · intro k i hm
    obtain ⟨c, h1, h2⟩ := h.own k i hm
    rw [addRef_get]
    by_cases he : id = i
    · simp [he, h1, h2]
    · simp [he, h1, h2]
  · intro k i hm
    rw [addRef_alive ha]
    exact h.stale k i hm
  · intro k hk
    obtain ⟨c, h1, h2, h3⟩ := h.died k hk
    obtain ⟨i, hi⟩ := List.mem_iff_getElem?.mp h1
    refine ⟨c, List.mem_iff_getElem?.mpr ⟨i, ?_⟩, h2, h3⟩
    rw [addRef_get, if_neg, hi]
    rintro rfl
    obtain ⟨c', h4, h5⟩ := ha
    rw [hi] at h4; cases h4; omega

theorem TInv.addRef {s : S} (h : TInv s) {id : Nat} (ha : s.alive id) : TInv (s.addRef id) := by
  intro i c hc hp
  obtain ⟨c', h1, h2, h3⟩ := (addRef_live ha).mp ⟨c, hc, rfl, hp⟩
  have := h i c' h1 h3
  rw [h2] at this
  exact this

/-- What `Get` does: references to chunks that are alive. -/
theorem get_eq (s : S) (ks : List Key) : ∃ pre, (∀ id ∈ pre, s.alive id) ∧ (get s ks).1 = pre.foldl S.addRef s ∧
    (get s ks).2.1 = pre ∧ ks.map s.find = pre.map some ++ (ks.drop pre.length).map s.find ∧
    ((get s ks).2.2 = true → pre.length = ks.length) ∧
    ((get s ks).2.2 = false → ∃ k, ks[pre.length]? = some k ∧ s.find k = none) := by
  induction ks generalizing s with
  | nil => exact ⟨[], by simp, rfl, rfl, by simp, by simp [get], by simp [get]⟩
  | cons k ks ih =>
    cases hf : s.find k with
    | none => refine ⟨[], by simp, ?_⟩; simp [get, hf]
    | some id =>
      have ha := (find_some hf).2
      obtain ⟨pre, h1, h2, h3, h4, h5, h6⟩ := ih (s.addRef id)
      have hfun : (s.addRef id).find = s.find := funext fun k => addRef_find ha k
      rw [hfun] at h4 h6
      refine ⟨id :: pre, ?_, ?_, ?_, ?_, ?_, ?_⟩
      · intro i hi
        rcases List.mem_cons.mp hi with rfl | hi
        · exact ha
        · exact (addRef_alive ha).mp (h1 i hi)
      · simp [get, hf, h2]
      · simp [get, hf, h3]
      · rw [List.map_cons, hf, h4]; rfl
      · simpa [get, hf] using h5
      · simpa [get, hf] using h6

theorem foldl_addRef {P : S → Prop} (hP : ∀ s id, P s → s.alive id → P (s.addRef id)) :
    ∀ (ids : List Nat) (s : S), P s → (∀ id ∈ ids, s.alive id) → P (ids.foldl S.addRef s)
  | [], _, h, _ => h
  | id :: ids, s, h, ha => by
    have h0 := ha id List.mem_cons_self
    exact foldl_addRef hP ids _ (hP s id h h0) fun i hi => (addRef_alive h0).mpr (ha i (List.mem_cons_of_mem _ hi))

theorem append_get (l : List Chunk) (c : Chunk) (i : Nat) : (l ++ [c])[i]? =
    if i = l.length then some c else l[i]? := by
  by_cases h : i = l.length
  · subst h; simp
  · rw [if_neg h]
    by_cases h2 : i < l.length
    · rw [List.getElem?_append_left h2]
    · rw [List.getElem?_eq_none (by simp; omega), List.getElem?_eq_none (by omega)]

theorem insert_cases (s : S) (k : Key) (d : Nat) : (∃ id, s.find k = some id ∧ insert s k d = (s.addRef id, id)) ∨
    (s.find k = none ∧ insert s k d = ({ s with
      chunks := s.chunks ++ [⟨k, d, 1⟩]
      map := s.map.insert k s.chunks.length }, s.chunks.length)) := by
  cases h : s.find k with
  | some id => exact .inl ⟨id, rfl, by simp [insert, h]⟩
  | none => exact .inr ⟨rfl, by simp [insert, h]⟩

theorem Inv.insert {s : S} (h : Inv s) (k : Key) (d : Nat) : Inv (insert s k d).1 := by
  rcases insert_cases s k d with ⟨id, hf, he⟩ | ⟨hf, he⟩
  · rw [he]; exact h.addRef (find_some hf).2
  · rw [he]
    refine ⟨?_, ?_, ?_⟩
    · intro k' id hm
      simp only [AMap.get?_insert] at hm
      simp only [append_get]
      split at hm
      · cases hm; rename_i hk; exact ⟨⟨k, d, 1⟩, by simp, hk.symm⟩
      · obtain ⟨c, h1, h2⟩ := h.own k' id hm
        have := (List.getElem?_eq_some_iff.mp h1).1
        exact ⟨c, by rw [if_neg (by omega)]; exact h1, h2⟩
    · intro k' id hm
      simp only [AMap.get?_insert] at hm
      simp only [S.alive, append_get]
      split at hm
      · cases hm; exact .inl ⟨⟨k, d, 1⟩, by simp, by simp⟩
      · rcases h.stale k' id hm with ⟨c, h1, h2⟩ | h1
        · have := (List.getElem?_eq_some_iff.mp h1).1
          exact .inl ⟨c, by rw [if_neg (by omega)]; exact h1, h2⟩
        · exact .inr h1
    · intro k' hk
      obtain ⟨c, h1, h2⟩ := h.died k' hk
      exact ⟨c, List.mem_append_left _ h1, h2⟩

theorem TInv.insert {s : S} (h : TInv s) (k : Key) (d : Nat) (hk : k ∉ s.pending) : TInv (insert s k d).1 := by
  rcases insert_cases s k d with ⟨id, hf, he⟩ | ⟨hf, he⟩
  · rw [he]; exact h.addRef (find_some hf).2
  · rw [he]
    intro id c hc hp
    simp only [append_get] at hc
    split at hc
    · cases hc; rename_i hid; exact ⟨by simp [hid], hk⟩
    · obtain ⟨h1, h2⟩ := h id c hc hp
      refine ⟨?_, h2⟩
      simp only [AMap.get?_insert]
      rw [if_neg]
      · exact h1
      · intro hck
        rw [h.find ⟨c, hc, hck, hp⟩] at hf
        simp at hf

theorem release_some {s s' : S} {id : Nat} (h : release s id = some s') : ∃ c, s.chunks[id]? = some c ∧ 0 < c.refs ∧
    s' = { s with
      chunks := s.chunks.set id { c with refs := c.refs - 1 }
      dying := if c.refs = 1 then s.dying ++ [c.key] else s.dying } := by
  unfold release at h
  split at h
  · simp at h
  · rename_i c hc
    split at h
    · simp at h
    · refine ⟨c, hc, by omega, ?_⟩
      have hm : (s.chunks.modify id fun c => { c with refs := c.refs - 1 }) = s.chunks.set id { c with refs := c.refs - 1 } := by
        apply List.ext_getElem?
        intro i
        rw [List.getElem?_modify, List.getElem?_set]
        by_cases hi : id = i
        · subst hi
          rw [hc, if_pos rfl, if_pos (List.getElem?_eq_some_iff.mp hc).1]; simp
        · simp [hi]
      rw [hm] at h
      split at h
      · rename_i h1; cases h; simp [h1]
      · rename_i h1; cases h; simp [h1]

theorem Inv.release {s s' : S} {id : Nat} (h : Inv s) (hr : release s id = some s') : Inv s' := by
  obtain ⟨c, hc, hp, rfl⟩ := release_some hr
  have hlt := (List.getElem?_eq_some_iff.mp hc).1
  have hpen : ∀ k, k ∈ S.pending { s with
      chunks := s.chunks.set id { c with refs := c.refs - 1 }
      dying := if c.refs = 1 then s.dying ++ [c.key] else s.dying } ↔ k ∈ s.pending ∨ (c.refs = 1 ∧ k = c.key) := by
    intro k
    simp only [S.pending]
    by_cases h1 : c.refs = 1
    · simp [h1]; grind
    · simp [h1]
  refine ⟨?_, ?_, ?_⟩
  · intro k i hm
    obtain ⟨c', h1, h2⟩ := h.own k i hm
    simp only [List.getElem?_set]
    by_cases hi : id = i
    · subst hi
      rw [hc] at h1; cases h1
      exact ⟨{ c with refs := c.refs - 1 }, by simp [hlt], h2⟩
    · exact ⟨c', by simp [hi, h1], h2⟩
  · intro k i hm
    rw [hpen]
    rcases h.stale k i hm with ⟨c', h1, h2⟩ | h1
    · by_cases hi : id = i
      · subst hi
        rw [hc] at h1; cases h1
        by_cases h1 : c.refs = 1
        · obtain ⟨c'', h3, h4⟩ := h.own k id hm
          rw [hc] at h3; cases h3
          exact .inr (.inr ⟨h1, h4.symm⟩)
        · exact .inl ⟨{ c with refs := c.refs - 1 }, by simp [hlt], by simp; omega⟩
      · exact .inl ⟨c', by simp [hi, h1], h2⟩
    · exact .inr (.inl h1)
  · intro k hk
    rw [hpen] at hk
    rcases hk with hk | ⟨h1, rfl⟩
    · obtain ⟨c', h1, h2, h3⟩ := h.died k hk
      obtain ⟨i, hi⟩ := List.mem_iff_getElem?.mp h1
      refine ⟨c', List.mem_iff_getElem?.mpr ⟨i, ?_⟩, h2, h3⟩
      simp only [List.getElem?_set]
      rw [if_neg]
      · exact hi
      · rintro rfl
        rw [hc] at hi; cases hi; omega
    · exact ⟨{ c with refs := c.refs - 1 }, List.mem_iff_getElem?.mpr ⟨id, by simp only [List.getElem?_set, if_true, if_pos hlt]⟩, rfl, by simp [h1]⟩

theorem TInv.release {s s' : S} {id : Nat} (h : TInv s) (hr : release s id = some s') : TInv s' := by
  obtain ⟨c, hc, hp, rfl⟩ := release_some hr
  have hlt := (List.getElem?_eq_some_iff.mp hc).1
  intro i c' hc' hp'
  simp only [List.getElem?_set] at hc'
  by_cases hi : id = i
  · subst hi
    simp only [if_true, if_pos hlt, Option.some.injEq] at hc'
    subst hc'
    simp only at hp'
    obtain ⟨h1, h2⟩ := h id c hc hp
    refine ⟨h1, ?_⟩
    have : c.refs ≠ 1 := by omega
    simpa [S.pending, this] using h2
  · rw [if_neg hi] at hc'
    obtain ⟨h1, h2⟩ := h i c' hc' hp'
    refine ⟨h1, ?_⟩
    have hne : c'.key ≠ c.key := by
      intro he
      rw [he, (h id c hc hp).1] at h1
      simp only [Option.some.injEq] at h1
      exact hi h1
    simp only [S.pending] at h2 ⊢
    by_cases h1 : c.refs = 1
    · simp [h1] at h2 ⊢; grind
    · simpa [h1] using h2

theorem pushKey_pending {s : S} {i : Nat} {k : Key} (h : s.dying[i]? = some k) (x : Key) :
    x ∈ S.pending { s with
        dying := s.dying.eraseIdx i
        queue := s.queue ++ [k] } ↔ x ∈ s.pending := by
  have : x ∈ s.dying ↔ x = k ∨ x ∈ s.dying.eraseIdx i := by
    obtain ⟨hl, he⟩ := List.getElem?_eq_some_iff.mp h
    rw [List.eraseIdx_eq_take_drop_succ]
    conv => lhs; rw [← List.take_append_drop i s.dying, List.drop_eq_getElem_cons hl, he]
    simp; grind
  simp only [S.pending, List.mem_append, List.mem_singleton, this]
  grind

theorem Inv.step {s : S} {r : S × Out} {a : Act} (h : Inv s) (hs : step s a = some r) : Inv r.1 := by
  cases a with
  | insert k d => simp only [ChunkStore.step, Option.some.injEq] at hs; subst hs; exact h.insert k d
  | get ks =>
    simp only [ChunkStore.step, Option.some.injEq] at hs; subst hs
    obtain ⟨pre, h1, h2, _⟩ := get_eq s ks
    simp only [h2]
    exact foldl_addRef (fun s id hi ha => hi.addRef ha) pre s h h1
  | copy id =>
    simp only [ChunkStore.step] at hs
    split at hs
    · cases hs; exact h.addRef (by assumption)
    · simp at hs
  | release id =>
    simp only [ChunkStore.step, Option.map_eq_some_iff] at hs
    obtain ⟨s', h1, rfl⟩ := hs
    exact h.release h1
  | pushKey i =>
    simp only [ChunkStore.step] at hs
    split at hs
    · simp at hs
    · rename_i k hk
      cases hs
      refine ⟨h.own, fun k' id hm => ?_, fun k' hk' => ?_⟩
      · rw [pushKey_pending hk]; exact h.stale k' id hm
      · rw [pushKey_pending hk] at hk'; exact h.died k' hk'
  | cleanPop n =>
    simp only [ChunkStore.step] at hs
    split at hs
    · rename_i hn
      cases hs
      have hp : ∀ x, x ∈ S.pending { s with
          queue := s.queue.drop n
          popped := s.queue.take n } ↔ x ∈ s.pending := by
        intro x
        simp only [S.pending, List.mem_append, hn.1, List.append_nil]
        conv => rhs; rw [← List.take_append_drop n s.queue]
        simp only [List.mem_append]; grind
      refine ⟨h.own, fun k' id hm => ?_, fun k' hk' => ?_⟩
      · rw [hp]; exact h.stale k' id hm
      · rw [hp] at hk'; exact h.died k' hk'
    · simp at hs
  | cleanErase =>
    simp only [ChunkStore.step, Option.some.injEq] at hs
    subst hs
    refine ⟨fun k' id hm => ?_, fun k' id hm => ?_, fun k' hk' => ?_⟩
    · simp only [foldl_erase] at hm
      split at hm
      · simp at hm
      · exact h.own k' id hm
    · simp only [foldl_erase] at hm
      split at hm
      · simp at hm
      · rename_i hx
        rcases h.stale k' id hm with h1 | h1
        · exact .inl h1
        · refine .inr ?_
          simp only [S.pending, List.mem_append] at h1 ⊢
          rcases h1 with h1 | h1
          · exact .inl h1
          · exact absurd h1 hx
    · apply h.died
      simp only [S.pending, List.mem_append, List.not_mem_nil, or_false] at hk' ⊢
      exact .inl hk'

theorem TInv.step {s : S} {r : S × Out} {a : Act} (h : TInv s) (hs : step s a = some r)
    (ht : ∀ k d, a = .insert k d → k ∉ s.pending) : TInv r.1 := by
  cases a with
  | insert k d => simp only [ChunkStore.step, Option.some.injEq] at hs; subst hs; exact h.insert k d (ht k d rfl)
  | get ks =>
    simp only [ChunkStore.step, Option.some.injEq] at hs; subst hs
    obtain ⟨pre, h1, h2, _⟩ := get_eq s ks
    simp only [h2]
    exact foldl_addRef (fun s id hi ha => hi.addRef ha) pre s h h1
  | copy id =>
    simp only [ChunkStore.step] at hs
    split at hs
    · cases hs; exact h.addRef (by assumption)
    · simp at hs
  | release id =>
    simp only [ChunkStore.step, Option.map_eq_some_iff] at hs
    obtain ⟨s', h1, rfl⟩ := hs
    exact h.release h1
  | pushKey i =>
    simp only [ChunkStore.step] at hs
    split at hs
    · simp at hs
    · rename_i k hk
      cases hs
      intro id c hc hp
      rw [pushKey_pending hk]
      exact h id c hc hp
  | cleanPop n =>
    simp only [ChunkStore.step] at hs
    split at hs
    · rename_i hn
      cases hs
      intro id c hc hp
      have hx : c.key ∈ S.pending { s with
          queue := s.queue.drop n
          popped := s.queue.take n } ↔ c.key ∈ s.pending := by
        simp only [S.pending, List.mem_append, hn.1, List.append_nil]
        conv => rhs; rw [← List.take_append_drop n s.queue]
        simp only [List.mem_append]; grind
      rw [hx]
      exact h id c hc hp
    · simp at hs
  | cleanErase =>
    simp only [ChunkStore.step, Option.some.injEq] at hs
    subst hs
    intro id c hc hp
    obtain ⟨h1, h2⟩ := h id c hc hp
    simp only [S.pending, List.mem_append, not_or] at h2 ⊢
    simp only [foldl_erase, if_neg h2.2]
    exact ⟨h1, h2.1, by simp⟩

theorem Reachable.inv {s : S} (h : Reachable s) : Inv s := by
  induction h with
  | init => exact ⟨by simp [ChunkStore.init], by simp [ChunkStore.init], by simp [ChunkStore.init, S.pending]⟩
  | step _ hs ih => exact ih.step hs

theorem Tidy.reachable {s : S} (h : Tidy s) : Reachable s := by
  induction h with
  | init => exact .init
  | step _ hs _ ih => exact ih.step hs

theorem Tidy.tinv {s : S} (h : Tidy s) : TInv s := by
  induction h with
  | init => intro id c hc; simp [ChunkStore.init] at hc
  | step _ hs ht ih => exact ih.step hs ht

theorem NoReuse.tidy {s : S} (h : NoReuse s) : Tidy s := by
  induction h with
  | init => exact .init
  | step _ hs ht ih =>
    refine ih.step hs fun k d ha hp => ?_
    obtain ⟨c, h1, h2, h3⟩ := ih.reachable.inv.died k hp
    have := ht k d ha c h1 h2
    omega

theorem Reachable.run {s s' : S} (h : Reachable s) : ∀ as, run s as = some s' → Reachable s' := by
  intro as
  induction as generalizing s with
  | nil => intro hr; cases hr; exact h
  | cons a as ih =>
    intro hr
    simp only [ChunkStore.run] at hr
    cases hs : ChunkStore.step s a with
    | none => simp [hs] at hr
    | some r => simp only [hs] at hr; exact ih (h.step hs) hr

end Verif.ChunkStore
