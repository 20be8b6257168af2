import Verif.Spec.SharedStore
import Verif.Proofs.ChunkStore
/-
Pointers into the chunk store are counted.
-/
namespace Verif.SharedStore
open ChunkStore (S)

/-- The number of pointers. -/
def refs (s : S) (id : Nat) : Nat :=
  match s.chunks[id]? with
  | none => 0
  | some c => c.refs

/-- Key and data. -/
def ident (s : S) (id : Nat) : Option (Key × Nat) := (s.chunks[id]?).map fun c => (c.key, c.data)

theorem alive_iff {s : S} {id : Nat} : s.alive id ↔ 0 < refs s id := by
  unfold ChunkStore.S.alive refs
  cases s.chunks[id]? with
  | none => simp
  | some c => simp

theorem addRef_refs {s : S} {id : Nat} (h : 0 < refs s id) (j : Nat) : refs (s.addRef id) j = refs s j + [id].count j := by
  unfold refs ChunkStore.S.addRef
  simp only [List.getElem?_modify, List.count_singleton]
  by_cases hij : id = j
  · subst hij
    unfold refs at h
    cases hc : s.chunks[id]? with
    | none => simp [hc] at h
    | some c => simp
  · have : (id == j) = false := by simpa using hij
    simp only [hij, if_false]
    cases s.chunks[j]? <;> simp [this]

theorem addRef_ident (s : S) (id j : Nat) : ident (s.addRef id) j = ident s j := by
  unfold ident ChunkStore.S.addRef
  simp only [List.getElem?_modify]
  by_cases hij : id = j <;> cases s.chunks[j]? <;> simp [hij]

theorem release_refs {s : S} {id : Nat} (h : 0 < refs s id) : ∃ s', ChunkStore.release s id = some s' ∧
    (∀ j, refs s' j + [id].count j = refs s j) ∧ ∀ j, ident s' j = ident s j := by
  unfold refs at h
  cases hc : s.chunks[id]? with
  | none => simp [hc] at h
  | some c =>
    simp only [hc] at h
    have hne : ¬ c.refs = 0 := by omega
    have key : ∀ s1 : S, s1.chunks = s.chunks.modify id (fun c => { c with refs := c.refs - 1 }) →
        (∀ j, refs s1 j + [id].count j = refs s j) ∧ ∀ j, ident s1 j = ident s j := by
      intro s1 h1
      refine ⟨fun j => ?_, fun j => ?_⟩
      · unfold refs
        rw [h1]
        simp only [List.getElem?_modify, List.count_singleton]
        by_cases hij : id = j
        · subst hij
          simp [hc]
          omega
        · have : (id == j) = false := by simpa using hij
          simp only [hij, if_false]
          cases s.chunks[j]? <;> simp [this]
      · unfold ident
        rw [h1]
        simp only [List.getElem?_modify]
        by_cases hij : id = j <;> cases s.chunks[j]? <;> simp [hij]
    unfold ChunkStore.release
    simp only [hc, if_neg hne]
    by_cases h1 : c.refs = 1
    · rw [if_pos h1]
      exact ⟨_, rfl, key _ rfl⟩
    · rw [if_neg h1]
      exact ⟨_, rfl, key _ rfl⟩

theorem run_releases (l : List Nat) {s : S} (h : ∀ j, l.count j ≤ refs s j) : ∃ s', ChunkStore.run s (l.map .release) = some s' ∧
    (∀ j, refs s' j + l.count j = refs s j) ∧ ∀ j, ident s' j = ident s j := by
  induction l generalizing s with
  | nil => exact ⟨s, rfl, by simp, fun _ => rfl⟩
  | cons id l ih =>
    have h0 : 0 < refs s id := by
      have := h id
      simp at this
      omega
    obtain ⟨s1, h1, h2, h3⟩ := release_refs h0
    have h' : ∀ j, l.count j ≤ refs s1 j := by
      intro j
      have g1 := h j
      have g2 := h2 j
      rw [List.count_cons] at g1
      rw [List.count_singleton] at g2
      omega
    obtain ⟨s', g1, g2, g3⟩ := ih h'
    refine ⟨s', ?_, ?_, fun j => (g3 j).trans (h3 j)⟩
    · simp only [List.map_cons, ChunkStore.run, ChunkStore.step, h1, Option.map_some]
      exact g1
    · intro j
      have e1 := g2 j
      have e2 := h2 j
      rw [List.count_singleton] at e2
      rw [List.count_cons]
      omega

theorem run_copies (l : List Nat) {s : S} (h : ∀ j ∈ l, 0 < refs s j) : ∃ s', ChunkStore.run s (l.map .copy) = some s' ∧
    (∀ j, refs s' j = refs s j + l.count j) ∧ ∀ j, ident s' j = ident s j := by
  induction l generalizing s with
  | nil => exact ⟨s, rfl, by simp, fun _ => rfl⟩
  | cons id l ih =>
    have h0 : 0 < refs s id := h id (by simp)
    have h2 := addRef_refs h0
    have h' : ∀ j ∈ l, 0 < refs (s.addRef id) j := by
      intro j hj
      rw [h2 j]
      have := h j (by simp [hj])
      omega
    obtain ⟨s', g1, g2, g3⟩ := ih h'
    refine ⟨s', ?_, ?_, fun j => (g3 j).trans (addRef_ident s id j)⟩
    · simp only [List.map_cons, ChunkStore.run, ChunkStore.step, if_pos (alive_iff.mpr h0)]
      exact g1
    · intro j
      have e1 := g2 j
      have e2 := h2 j
      rw [List.count_singleton] at e2
      rw [List.count_cons]
      omega

theorem insert_refs {s : S} (h : ChunkStore.Reachable s) (k : Key) (d : Nat) :
    (∀ j, refs (ChunkStore.insert s k d).1 j = refs s j + [(ChunkStore.insert s k d).2].count j) ∧
    (∀ j x, ident s j = some x → ident (ChunkStore.insert s k d).1 j = some x) ∧
    (∀ j x, ident (ChunkStore.insert s k d).1 j = some x → ident s j = some x ∨ x = (k, d)) ∧
    ∃ d', ident (ChunkStore.insert s k d).1 (ChunkStore.insert s k d).2 = some (k, d') := by
  rcases ChunkStore.insert_cases s k d with ⟨id, hf, he⟩ | ⟨hf, he⟩
  · rw [he]
    obtain ⟨c, h1, h2, h3⟩ := h.inv.find_live hf
    have h0 : 0 < refs s id := by simp [refs, h1]; exact h3
    refine ⟨addRef_refs h0, fun j x hx => by rw [addRef_ident]; exact hx, fun j x hx => by rw [addRef_ident] at hx; exact .inl hx, c.data, ?_⟩
    rw [addRef_ident]
    simp [ident, h1, h2]
  · rw [he]
    refine ⟨fun j => ?_, fun j x hx => ?_, fun j x hx => ?_, d, by simp [ident]⟩
    · unfold refs
      simp only [ChunkStore.append_get, List.count_singleton]
      by_cases hj : j = s.chunks.length
      · subst hj; simp
      · have : ¬ s.chunks.length = j := fun e => hj e.symm
        simp [hj, this]
    · unfold ident at hx ⊢
      simp only [ChunkStore.append_get]
      by_cases hj : j = s.chunks.length
      · subst hj; simp at hx
      · simp [hj]; simpa using hx
    · unfold ident at hx ⊢
      simp only [ChunkStore.append_get] at hx
      by_cases hj : j = s.chunks.length
      · subst hj
        simp at hx
        exact .inr hx.symm
      · simp [hj] at hx
        exact .inl (by simpa using hx)


/-- Pointers in the maps and in the items. -/
def W.count (w : W) (j : Nat) : Nat := (w.cache.map (·.2.2)).count j + w.items.flatten.count j

theorem count_filter (p : Nat × Key × Nat → Bool) (l : List (Nat × Key × Nat)) (j : Nat) :
    (gone p l).count j + ((l.filter fun e => !p e).map (·.2.2)).count j = (l.map (·.2.2)).count j := by
  unfold gone
  induction l with
  | nil => rfl
  | cons e l ih =>
    by_cases h : p e = true
    · simp only [List.filter_cons, h, if_true, Bool.not_true, List.map_cons, List.count_cons, Bool.false_eq_true, if_false]
      omega
    · have h : p e = false := by simpa using h
      simp only [List.filter_cons, h, Bool.not_false, if_true, List.map_cons, List.count_cons, Bool.false_eq_true, if_false]
      omega

theorem erase_ok {w : W} (p : Nat × Key × Nat → Bool) {x : Nat → Nat} (hr : ChunkStore.Reachable w.store)
    (h : ∀ j, refs w.store j = w.count j + x j) : ∃ st, w.erase p = some { w with
      store := st
      cache := w.cache.filter fun e => !p e } ∧ ChunkStore.Reachable st ∧
      (∀ j, refs st j = ((w.cache.filter fun e => !p e).map (·.2.2)).count j + w.items.flatten.count j + x j) ∧
      ∀ j, ident st j = ident w.store j := by
  have hc : ∀ j, (gone p w.cache).count j ≤ refs w.store j := by
    intro j
    have h1 := h j
    have h2 := count_filter p w.cache j
    unfold W.count at h1
    omega
  obtain ⟨st, g1, g2, g3⟩ := run_releases _ hc
  refine ⟨st, by simp [W.erase, g1], hr.run _ g1, fun j => ?_, g3⟩
  have h1 := h j
  have h2 := count_filter p w.cache j
  have h3 := g2 j
  unfold W.count at h1
  omega

theorem lookup_mem {w : W} {s : Nat} {k : Key} {id : Nat} (h : w.lookup s k = some id) : (s, k, id) ∈ w.cache := by
  unfold W.lookup at h
  rw [Option.map_eq_some_iff] at h
  obtain ⟨e, h1, rfl⟩ := h
  have h2 := List.find?_some h1
  simp only [Bool.and_eq_true, beq_iff_eq] at h2
  obtain ⟨rfl, rfl⟩ := h2
  exact List.mem_of_find?_eq_some h1

theorem lookup_isSome {w : W} {s : Nat} {k : Key} : (w.lookup s k).isSome = true ↔ ∃ id, (s, k, id) ∈ w.cache := by
  constructor
  · intro h
    obtain ⟨id, hid⟩ := Option.isSome_iff_exists.mp h
    exact ⟨id, lookup_mem hid⟩
  · rintro ⟨id, hid⟩
    unfold W.lookup
    rw [Option.isSome_map, List.find?_isSome]
    exact ⟨_, hid, by simp⟩

theorem mapM_all {f : Key → Option Nat} {keys : List Key} {ids : List Nat} (h : keys.mapM f = some ids) :
    ids.length = keys.length ∧ (∀ (i : Nat) k id, keys[i]? = some k → ids[i]? = some id → f k = some id) ∧ ∀ k ∈ keys, (f k).isSome = true := by
  induction keys generalizing ids with
  | nil =>
    simp at h
    subst h
    simp
  | cons k keys ih =>
    rw [List.mapM_cons] at h
    cases hk : f k with
    | none => simp [hk] at h
    | some id =>
      cases hm : keys.mapM f with
      | none => simp [hk, hm] at h
      | some l =>
        simp [hk, hm] at h
        subst h
        obtain ⟨h1, h2, h3⟩ := ih hm
        refine ⟨by simp [h1], ?_, ?_⟩
        · intro i k' id' hi hi'
          cases i with
          | zero => simp at hi hi'; subst hi; subst hi'; exact hk
          | succ i => exact h2 i k' id' (by simpa using hi) (by simpa using hi')
        · intro k' hk'
          rcases List.mem_cons.mp hk' with rfl | g
          · simp [hk]
          · exact h3 k' g

theorem mapM_none {f : Key → Option Nat} {keys : List Key} (h : keys.mapM f = none) : ∃ k ∈ keys, f k = none := by
  induction keys with
  | nil => simp at h
  | cons k keys ih =>
    rw [List.mapM_cons] at h
    cases hk : f k with
    | none => exact ⟨k, by simp, hk⟩
    | some id =>
      cases hm : keys.mapM f with
      | none =>
        obtain ⟨k', g1, g2⟩ := ih hm
        exact ⟨k', by simp [g1], g2⟩
      | some l => simp [hk, hm] at h

/-- The invariant. -/
structure I (as : List Act) (w : W) : Prop where
  reach : ChunkStore.Reachable w.store
  cnt : ∀ j, refs w.store j = w.count j
  sent : ∀ s c, (s, c) ∈ w.sent ↔ Sent s c as
  chunks : ∀ j k d, ident w.store j = some (k, d) → ∃ t c, w.sent[d]? = some (t, c) ∧ c.key = k
  cache : ∀ s k id, (s, k, id) ∈ w.cache → (∃ d, ident w.store id = some (k, d)) ∧ ∃ c, (s, c) ∈ w.sent ∧ c.key = k
  log : ∀ x ∈ w.log, x.2.2.length = x.2.1.length ∧ ∀ (i : Nat) k id, x.2.1[i]? = some k → x.2.2[i]? = some id →
    (∃ d, ident w.store id = some (k, d)) ∧ ∃ c, (x.1, c) ∈ w.sent ∧ c.key = k
  own : ∀ s k, (∃ id, (s, k, id) ∈ w.cache) ↔ ownKeys s as k = true

theorem I.init : I [] init :=
  ⟨.init, by intro j; simp [SharedStore.init, refs, W.count, ChunkStore.init], by simp [SharedStore.init, Sent],
    by simp [SharedStore.init, ident, ChunkStore.init], nofun, nofun, by simp [SharedStore.init, ownKeys]⟩

/-- Steps that send nothing. -/
theorem I.quiet {as : List Act} {w w' : W} {a : Act} (h : I as w) (ha : ∀ s c, a ≠ .chunk s c) (hr : ChunkStore.Reachable w'.store)
    (hc : ∀ j, refs w'.store j = w'.count j) (hs : w'.sent = w.sent) (hi : ∀ j, ident w'.store j = ident w.store j)
    (hsub : ∀ e ∈ w'.cache, e ∈ w.cache)
    (hl : ∀ x ∈ w'.log, x ∈ w.log ∨ (x.2.2.length = x.2.1.length ∧ ∀ (i : Nat) k id, x.2.1[i]? = some k → x.2.2[i]? = some id → (x.1, k, id) ∈ w.cache))
    (ho : ∀ s k, (∃ id, (s, k, id) ∈ w'.cache) ↔ ownKeys s (as ++ [a]) k = true) : I (as ++ [a]) w' := by
  refine ⟨hr, hc, ?_, ?_, ?_, ?_, ho⟩
  · intro s c
    rw [hs, h.sent]
    unfold Sent
    simp only [List.mem_append, List.mem_singleton]
    constructor
    · exact .inl
    · rintro (g | g)
      · exact g
      · exact absurd g.symm (ha s c)
  · intro j k d hj
    rw [hi] at hj
    rw [hs]
    exact h.chunks j k d hj
  · intro s k id he
    rw [hi, hs]
    exact h.cache s k id (hsub _ he)
  · intro x hx
    rw [hs]
    rcases hl x hx with g | ⟨g1, g2⟩
    · obtain ⟨g1, g2⟩ := h.log x g
      exact ⟨g1, fun i k id hk hid => by rw [hi]; exact g2 i k id hk hid⟩
    · exact ⟨g1, fun i k id hk hid => by rw [hi]; exact h.cache _ _ _ (g2 i k id hk hid)⟩

theorem ownKeys_snoc (s : Nat) (as : List Act) (a : Act) : ownKeys s (as ++ [a]) = (match a with
    | .chunk t c => fun k => if t = s ∧ c.key = k then true else ownKeys s as k
    | .item t keys keep => if t = s then (if keys.all (ownKeys s as) then fun k => ownKeys s as k && keep.contains k else fun _ => false) else ownKeys s as
    | .end_ t => if t = s then fun _ => false else ownKeys s as
    | _ => ownKeys s as) := by
  unfold ownKeys
  rw [List.foldl_append]
  cases a <;> rfl

theorem I.erased {as : List Act} {w : W} (h : I as w) (p : Nat × Key × Nat → Bool) : ∃ st, w.erase p = some { w with
    store := st
    cache := w.cache.filter fun e => !p e } ∧ ChunkStore.Reachable st ∧
    (∀ j, refs st j = ((w.cache.filter fun e => !p e).map (·.2.2)).count j + w.items.flatten.count j) ∧
    ∀ j, ident st j = ident w.store j := by
  obtain ⟨st, h1, h2, h3, h4⟩ := erase_ok p (x := fun _ => 0) h.reach (fun j => by rw [h.cnt j]; rfl)
  exact ⟨st, h1, h2, fun j => by simpa using h3 j, h4⟩

theorem of_stream_gone {w : W} {as : List Act} (h : I as w) (t : Nat) (s : Nat) (k : Key) :
    (∃ id, (s, k, id) ∈ w.cache.filter fun e => !ofStream t e) ↔ (if t = s then false else ownKeys s as k) = true := by
  by_cases hts : t = s
  · subst hts
    simp [ofStream]
  · rw [if_neg hts, ← h.own]
    have : ¬ s = t := fun e => hts e.symm
    simp [List.mem_filter, ofStream, this]

/-- What a chunk does. -/
theorem I.chunk {as : List Act} {w : W} (h : I as w) (hd : w.dead = false) (s : Nat) (c : ChunkData) :
    ∃ w', step w (.chunk s c) = some w' ∧ I (as ++ [.chunk s c]) w' := by
  obtain ⟨i1, i2, i3, i4⟩ := insert_refs h.reach c.key w.sent.length
  have hr : ChunkStore.Reachable (ChunkStore.insert w.store c.key w.sent.length).1 :=
    ChunkStore.Reachable.step (a := .insert c.key w.sent.length) h.reach rfl
  obtain ⟨st, e1, e2, e3, e4⟩ := erase_ok (w := { w with
    store := (ChunkStore.insert w.store c.key w.sent.length).1
    sent := w.sent ++ [(s, c)] }) (ofKey s c.key) (x := fun j => [(ChunkStore.insert w.store c.key w.sent.length).2].count j) hr
    (fun j => by rw [i1 j, h.cnt j]; rfl)
  have hst : step w (.chunk s c) = (some { w with
      store := st
      sent := w.sent ++ [(s, c)]
      cache := (w.cache.filter fun e => !ofKey s c.key e) ++ [(s, c.key, (ChunkStore.insert w.store c.key w.sent.length).2)] } : Option W) := by
    unfold step
    rw [if_neg (by simp [hd])]
    show Option.map _ (W.erase { w with
      store := (ChunkStore.insert w.store c.key w.sent.length).1
      sent := w.sent ++ [(s, c)] } (ofKey s c.key)) = _
    rw [e1]
    rfl
  refine ⟨_, hst, e2, ?_, ?_, ?_, ?_, ?_, ?_⟩
  · intro j
    rw [e3 j]
    simp only [W.count, List.map_append, List.count_append, List.map_cons, List.map_nil]
    omega
  · intro t c'
    unfold Sent
    simp only [List.mem_append, List.mem_singleton]
    rw [h.sent]
    unfold Sent
    constructor
    · rintro (g | g)
      · exact .inl g
      · cases g; exact .inr rfl
    · rintro (g | g)
      · exact .inl g
      · cases g; exact .inr rfl
  · intro j k d hj
    simp only [e4] at hj
    rcases i3 j _ hj with g | g
    · obtain ⟨t, c', g1, g2⟩ := h.chunks j k d g
      have hlt := (List.getElem?_eq_some_iff.mp g1).1
      exact ⟨t, c', by simp only [List.getElem?_append_left hlt]; exact g1, g2⟩
    · cases g
      exact ⟨s, c, by simp, rfl⟩
  · intro t k id he
    simp only [List.mem_append, List.mem_filter, List.mem_singleton, e4] at he ⊢
    rcases he with ⟨g, _⟩ | g
    · obtain ⟨⟨d, g1⟩, c', g2, g3⟩ := h.cache t k id g
      exact ⟨⟨d, i2 _ _ g1⟩, c', .inl g2, g3⟩
    · cases g
      exact ⟨i4, c, .inr rfl, rfl⟩
  · intro x hx
    obtain ⟨g1, g2⟩ := h.log x hx
    refine ⟨g1, fun i k id hk hid => ?_⟩
    obtain ⟨⟨d, g3⟩, c', g4, g5⟩ := g2 i k id hk hid
    exact ⟨⟨d, by simp only [e4]; exact i2 _ _ g3⟩, c', by simp [g4], g5⟩
  · intro t k
    rw [ownKeys_snoc]
    simp only [List.mem_append, List.mem_filter, List.mem_singleton, Prod.mk.injEq]
    by_cases hk : s = t ∧ c.key = k
    · obtain ⟨rfl, rfl⟩ := hk
      simp
    · rw [if_neg hk, ← h.own]
      constructor
      · rintro ⟨id, ⟨g, _⟩ | g⟩
        · exact ⟨id, g⟩
        · exact absurd ⟨g.1.symm, g.2.1.symm⟩ hk
      · rintro ⟨id, g⟩
        refine ⟨id, .inl ⟨g, ?_⟩⟩
        simp only [ofKey, Bool.not_eq_true', Bool.and_eq_false_iff]
        by_cases hst : s = t
        · right
          have : ¬ k = c.key := fun e => hk ⟨hst, e.symm⟩
          simpa using this
        · left
          have : ¬ t = s := fun e => hst e.symm
          simpa using this

theorem I.end_ {as : List Act} {w : W} (h : I as w) (hd : w.dead = false) (s : Nat) :
    ∃ w', step w (.end_ s) = some w' ∧ I (as ++ [.end_ s]) w' := by
  obtain ⟨st, e1, e2, e3, e4⟩ := h.erased (ofStream s)
  refine ⟨_, by unfold step; rw [if_neg (by simp [hd])]; exact e1, ?_⟩
  refine h.quiet nofun e2 e3 rfl e4 (fun e he => (List.mem_filter.mp he).1) (fun x hx => .inl hx) ?_
  intro t k
  rw [of_stream_gone h, ownKeys_snoc]
  by_cases hts : s = t <;> simp [hts]

/-- What an item does. -/
theorem I.item {as : List Act} {w : W} (h : I as w) (hd : w.dead = false) (s : Nat) (keys keep : List Key) :
    ∃ w', step w (.item s keys keep) = some w' ∧ I (as ++ [.item s keys keep]) w' ∧
      ((keys.all (ownKeys s as) = true ∧ w'.errors = w.errors ∧ ∃ ids, w'.log = w.log ++ [(s, keys, ids)]) ∨
        (keys.all (ownKeys s as) = false ∧ w'.errors = w.errors ++ [s] ∧ w'.log = w.log)) ∧
      (w'.dead = true ↔ keys.all (ownKeys s as) = true ∧ ∃ k ∈ keep, ownKeys s as k = false) := by
  cases hm : keys.mapM (w.lookup s) with
  | none =>
    obtain ⟨k0, hk0, hn⟩ := mapM_none hm
    have hall : keys.all (ownKeys s as) = false := by
      rw [List.all_eq_false]
      refine ⟨k0, hk0, fun ho => ?_⟩
      have := lookup_isSome.mpr ((h.own s k0).mpr ho)
      rw [hn] at this
      cases this
    obtain ⟨st, e1, e2, e3, e4⟩ := h.erased (ofStream s)
    have hst : step w (.item s keys keep) = some { w with
        store := st
        cache := w.cache.filter fun e => !ofStream s e
        errors := w.errors ++ [s] } := by
      unfold step
      rw [if_neg (by simp [hd])]
      simp only [hm, e1, Option.map_some]
    refine ⟨_, hst, ?_, .inr ⟨hall, rfl, rfl⟩, ?_⟩
    · refine h.quiet nofun e2 e3 rfl e4 (fun e he => (List.mem_filter.mp he).1) (fun x hx => .inl hx) ?_
      intro t k
      rw [of_stream_gone h, ownKeys_snoc]
      by_cases hts : s = t
      · subst hts
        simp [hall]
      · simp [hts]
    · simp [hd, hall]
  | some ids =>
    obtain ⟨m1, m2, m3⟩ := mapM_all hm
    have hall : keys.all (ownKeys s as) = true := by
      rw [List.all_eq_true]
      exact fun k hk => (h.own s k).mp (lookup_isSome.mp (m3 k hk))
    have hmem : ∀ (i : Nat) k id, keys[i]? = some k → ids[i]? = some id → (s, k, id) ∈ w.cache :=
      fun i k id hk hid => lookup_mem (m2 i k id hk hid)
    have hpos : ∀ j ∈ ids, 0 < refs w.store j := by
      intro j hj
      obtain ⟨i, hi⟩ := List.mem_iff_getElem?.mp hj
      have hlt : i < keys.length := by rw [← m1]; exact (List.getElem?_eq_some_iff.mp hi).1
      have := hmem i _ j (List.getElem?_eq_getElem hlt) hi
      rw [h.cnt j]
      have h2 : j ∈ w.cache.map (·.2.2) := List.mem_map.mpr ⟨_, this, rfl⟩
      have := List.count_pos_iff.mpr h2
      unfold W.count
      omega
    obtain ⟨st1, c1, c2, c3⟩ := run_copies ids hpos
    obtain ⟨st, e1, e2, e3, e4⟩ := erase_ok (w := { w with
      store := st1
      items := w.items ++ [ids]
      log := w.log ++ [(s, keys, ids)] }) (notKept s keep) (x := fun _ => 0) (h.reach.run _ c1)
      (fun j => by rw [c2 j, h.cnt j]; simp [W.count, List.count_append]; omega)
    have hst : ∃ b, step w (.item s keys keep) = some { w with
        store := st
        cache := w.cache.filter fun e => !notKept s keep e
        items := w.items ++ [ids]
        log := w.log ++ [(s, keys, ids)]
        dead := b } ∧ b = !keep.all fun k => (W.lookup { w with
          store := st
          cache := w.cache.filter fun e => !notKept s keep e
          items := w.items ++ [ids]
          log := w.log ++ [(s, keys, ids)] } s k).isSome := by
      refine ⟨_, ?_, rfl⟩
      unfold step
      rw [if_neg (by simp [hd])]
      simp only [hm, c1, e1, Option.map_some]
    obtain ⟨b, hst, hb⟩ := hst
    refine ⟨_, hst, ?_, .inl ⟨hall, rfl, ids, rfl⟩, ?_⟩
    · refine h.quiet nofun e2 (fun j => e3 j) rfl (fun j => (e4 j).trans (c3 j)) (fun e he => (List.mem_filter.mp he).1) ?_ ?_
      · intro x hx
        rcases List.mem_append.mp hx with g | g
        · exact .inl g
        · simp only [List.mem_singleton] at g
          subst g
          exact .inr ⟨m1, hmem⟩
      · intro t k
        rw [ownKeys_snoc]
        simp only [List.mem_filter, notKept]
        by_cases hts : s = t
        · subst hts
          simp only [if_true, hall, Bool.and_eq_true, ← h.own]
          simp
        · have : ¬ t = s := fun e => hts e.symm
          rw [if_neg hts, ← h.own]
          simp [this]
    · simp only [hb, Bool.not_eq_true', List.all_eq_false, hall, true_and]
      constructor
      · rintro ⟨k, hk, hn⟩
        refine ⟨k, hk, ?_⟩
        cases ho : ownKeys s as k with
        | false => rfl
        | true =>
          obtain ⟨id, hid⟩ := (h.own s k).mpr ho
          exact absurd (lookup_isSome.mpr ⟨id, List.mem_filter.mpr ⟨hid, by simp [notKept, hk]⟩⟩) hn
      · rintro ⟨k, hk, hn⟩
        refine ⟨k, hk, fun hs => ?_⟩
        obtain ⟨id, hid⟩ := lookup_isSome.mp hs
        have := (h.own s k).mp ⟨id, (List.mem_filter.mp hid).1⟩
        rw [hn] at this
        cases this

theorem count_eraseIdx {l : List (List Nat)} {j : Nat} {ids : List Nat} (h : l[j]? = some ids) (x : Nat) :
    (l.eraseIdx j).flatten.count x + ids.count x = l.flatten.count x := by
  induction l generalizing j with
  | nil => simp at h
  | cons a l ih =>
    cases j with
    | zero =>
      simp at h
      subst h
      simp [List.count_append]
      omega
    | succ j =>
      have := ih (j := j) (by simpa using h)
      simp only [List.eraseIdx_cons_succ, List.flatten_cons, List.count_append]
      omega

theorem I.drop {as : List Act} {w : W} (h : I as w) (hd : w.dead = false) (j : Nat) {ids : List Nat} (hj : w.items[j]? = some ids) :
    ∃ w', step w (.drop j) = some w' ∧ I (as ++ [.drop j]) w' := by
  have hc : ∀ x, ids.count x ≤ refs w.store x := by
    intro x
    rw [h.cnt x]
    have := count_eraseIdx hj x
    unfold W.count
    omega
  obtain ⟨st, g1, g2, g3⟩ := run_releases _ hc
  refine ⟨_, by unfold step; rw [if_neg (by simp [hd])]; simp only [hj, g1, Option.map_some]; rfl, ?_⟩
  refine h.quiet nofun (h.reach.run _ g1) (fun x => ?_) rfl g3 (fun e he => he) (fun x hx => .inl hx) (fun s k => by rw [ownKeys_snoc]; exact h.own s k)
  have e1 := g2 x
  have e2 := h.cnt x
  have e3 := count_eraseIdx hj x
  unfold W.count at e2
  simp only [W.count]
  omega

theorem I.clean {as : List Act} {w w' : W} {a : Act} {b : ChunkStore.Act} (h : I as w) (hb : (∃ i, b = .pushKey i) ∨ (∃ n, b = .cleanPop n) ∨ b = .cleanErase)
    (ha : ∀ s, ownKeys s (as ++ [a]) = ownKeys s as) (hn : ∀ s c, a ≠ .chunk s c)
    (hs : (ChunkStore.run w.store [b]).map (fun st => { w with store := st }) = some w') : I (as ++ [a]) w' := by
  rw [Option.map_eq_some_iff] at hs
  obtain ⟨st, h1, rfl⟩ := hs
  have hr := h.reach.run _ h1
  have hc : st.chunks = w.store.chunks := by
    simp only [ChunkStore.run] at h1
    rcases hb with ⟨i, rfl⟩ | ⟨n, rfl⟩ | rfl
    · simp only [ChunkStore.step] at h1
      cases hx : w.store.dying[i]? with
      | none => simp [hx] at h1
      | some k =>
        simp [hx] at h1
        rw [← h1]
    · simp only [ChunkStore.step] at h1
      split at h1
      · cases h1
      · rename_i r hr'
        split at hr'
        · cases hr'; cases h1; rfl
        · cases hr'
    · simp only [ChunkStore.step] at h1
      cases h1
      rfl
  refine h.quiet hn hr (fun j => ?_) rfl (fun j => by simp [ident, hc]) (fun e he => he) (fun x hx => .inl hx)
    (fun s k => by rw [ha s]; exact h.own s k)
  have := h.cnt j
  simpa [refs, hc, W.count] using this

theorem I.step {as : List Act} {w w' : W} {a : Act} (h : I as w) (hs : step w a = some w') : I (as ++ [a]) w' := by
  have hd : w.dead = false := by
    cases hd : w.dead with
    | false => rfl
    | true => simp [SharedStore.step, hd] at hs
  cases a with
  | chunk s c =>
    obtain ⟨w1, h1, h2⟩ := h.chunk hd s c
    rw [h1] at hs; cases hs; exact h2
  | item s keys keep =>
    obtain ⟨w1, h1, h2, _⟩ := h.item hd s keys keep
    rw [h1] at hs; cases hs; exact h2
  | end_ s =>
    obtain ⟨w1, h1, h2⟩ := h.end_ hd s
    rw [h1] at hs; cases hs; exact h2
  | drop j =>
    cases hj : w.items[j]? with
    | none => simp [SharedStore.step, hd, hj] at hs
    | some ids =>
      obtain ⟨w1, h1, h2⟩ := h.drop hd j hj
      rw [h1] at hs; cases hs; exact h2
  | pushKey i =>
    unfold SharedStore.step at hs
    rw [if_neg (by simp [hd])] at hs
    exact h.clean (.inl ⟨i, rfl⟩) (fun s => ownKeys_snoc s as _) nofun hs
  | cleanPop n =>
    unfold SharedStore.step at hs
    rw [if_neg (by simp [hd])] at hs
    exact h.clean (.inr (.inl ⟨n, rfl⟩)) (fun s => ownKeys_snoc s as _) nofun hs
  | cleanErase =>
    unfold SharedStore.step at hs
    rw [if_neg (by simp [hd])] at hs
    exact h.clean (.inr (.inr rfl)) (fun s => ownKeys_snoc s as _) nofun hs

theorem I.run_from {as bs : List Act} {w w' : W} (h : I as w) (hr : run w bs = some w') : I (as ++ bs) w' := by
  induction bs generalizing as w with
  | nil => cases hr; simpa using h
  | cons b bs ih =>
    simp only [run] at hr
    cases hs : SharedStore.step w b with
    | none => rw [hs] at hr; cases hr
    | some w1 =>
      rw [hs] at hr
      have := ih (h.step hs) hr
      simpa using this

theorem I.run {as : List Act} {w : W} (h : run SharedStore.init as = some w) : I as w := by
  simpa using I.init.run_from h

/-- Chunks of the store are never changed: for the steps that are used. -/
theorem ident_release {s s' : S} {id : Nat} (h : ChunkStore.release s id = some s') (j : Nat) : ident s' j = ident s j := by
  obtain ⟨c, h1, h2, _⟩ := ChunkStore.release_some h
  have h0 : 0 < refs s id := by simp [refs, h1]; exact h2
  obtain ⟨s1, g1, _, g3⟩ := release_refs h0
  rw [h] at g1
  cases g1
  exact g3 j

theorem ident_releases (l : List Nat) {s s' : S} (h : ChunkStore.run s (l.map .release) = some s') (j : Nat) : ident s' j = ident s j := by
  induction l generalizing s with
  | nil => cases h; rfl
  | cons id l ih =>
    simp only [List.map_cons, ChunkStore.run, ChunkStore.step] at h
    cases hr : ChunkStore.release s id with
    | none => simp [hr] at h
    | some s1 =>
      simp only [hr, Option.map_some] at h
      rw [ih h, ident_release hr]

theorem ident_copies (l : List Nat) {s s' : S} (h : ChunkStore.run s (l.map .copy) = some s') (j : Nat) : ident s' j = ident s j := by
  induction l generalizing s with
  | nil => cases h; rfl
  | cons id l ih =>
    simp only [List.map_cons, ChunkStore.run, ChunkStore.step] at h
    by_cases ha : s.alive id
    · simp only [if_pos ha] at h
      rw [ih h, addRef_ident]
    · simp [if_neg ha] at h

theorem erase_keeps {w w' : W} {p : Nat × Key × Nat → Bool} (h : w.erase p = some w') : w'.sent = w.sent ∧ ∀ j, ident w'.store j = ident w.store j := by
  unfold W.erase at h
  rw [Option.map_eq_some_iff] at h
  obtain ⟨st, h1, rfl⟩ := h
  exact ⟨rfl, ident_releases _ h1⟩

theorem clean_keeps {s s' : S} {b : ChunkStore.Act} (hb : (∃ i, b = .pushKey i) ∨ (∃ n, b = .cleanPop n) ∨ b = .cleanErase)
    (h1 : ChunkStore.run s [b] = some s') : s'.chunks = s.chunks := by
  simp only [ChunkStore.run] at h1
  rcases hb with ⟨i, rfl⟩ | ⟨n, rfl⟩ | rfl
  · simp only [ChunkStore.step] at h1
    cases hx : s.dying[i]? with
    | none => simp [hx] at h1
    | some k =>
      simp [hx] at h1
      rw [← h1]
  · simp only [ChunkStore.step] at h1
    split at h1
    · cases h1
    · rename_i r hr'
      split at hr'
      · cases hr'; cases h1; rfl
      · cases hr'
  · simp only [ChunkStore.step] at h1
    cases h1
    rfl

/-- What a step leaves of the chunks. -/
theorem step_keeps {as : List Act} {w w' : W} {a : Act} (hi : I as w) (hs : step w a = some w') : (∃ more, w'.sent = w.sent ++ more) ∧
    ∀ j x, ident w.store j = some x → ident w'.store j = some x := by
  unfold step at hs
  split at hs
  · cases hs
  · cases a with
    | chunk s c =>
      simp only [Option.map_eq_some_iff] at hs
      obtain ⟨w1, h1, rfl⟩ := hs
      obtain ⟨g1, g2⟩ := erase_keeps h1
      refine ⟨⟨_, g1⟩, fun j x hx => ?_⟩
      simp only [g2]
      exact (insert_refs hi.reach c.key w.sent.length).2.1 j x hx
    | item s keys keep =>
      simp only at hs
      split at hs
      · rw [Option.map_eq_some_iff] at hs
        obtain ⟨w1, h1, rfl⟩ := hs
        obtain ⟨g1, g2⟩ := erase_keeps h1
        exact ⟨⟨[], by simpa using g1⟩, fun j x hx => by simp only [g2]; exact hx⟩
      · rename_i ids _
        split at hs
        · cases hs
        · rename_i st hst
          rw [Option.map_eq_some_iff] at hs
          obtain ⟨w1, h1, rfl⟩ := hs
          obtain ⟨g1, g2⟩ := erase_keeps h1
          exact ⟨⟨[], by simpa using g1⟩, fun j x hx => by simp only [g2, ident_copies _ hst]; exact hx⟩
    | end_ s =>
      obtain ⟨g1, g2⟩ := erase_keeps hs
      exact ⟨⟨[], by simpa using g1⟩, fun j x hx => by simp only [g2]; exact hx⟩
    | drop j =>
      simp only at hs
      split at hs
      · cases hs
      · rw [Option.map_eq_some_iff] at hs
        obtain ⟨st, h1, rfl⟩ := hs
        exact ⟨⟨[], by simp⟩, fun j x hx => by simp only [ident_releases _ h1]; exact hx⟩
    | pushKey i =>
      rw [Option.map_eq_some_iff] at hs
      obtain ⟨st, h1, rfl⟩ := hs
      have hc := clean_keeps (.inl ⟨i, rfl⟩) h1
      exact ⟨⟨[], by simp⟩, fun j x hx => by simpa only [ident, hc] using hx⟩
    | cleanPop n =>
      rw [Option.map_eq_some_iff] at hs
      obtain ⟨st, h1, rfl⟩ := hs
      have hc := clean_keeps (.inr (.inl ⟨n, rfl⟩)) h1
      exact ⟨⟨[], by simp⟩, fun j x hx => by simpa only [ident, hc] using hx⟩
    | cleanErase =>
      rw [Option.map_eq_some_iff] at hs
      obtain ⟨st, h1, rfl⟩ := hs
      have hc := clean_keeps (.inr (.inr rfl)) h1
      exact ⟨⟨[], by simp⟩, fun j x hx => by simpa only [ident, hc] using hx⟩

/-- What a pointer leads to stays the same. -/
theorem content_step {as : List Act} {w w' : W} {a : Act} (h : I as w) (hs : step w a = some w') {id : Nat} {c : ChunkData}
    (hc : w.content id = some c) : w'.content id = some c := by
  obtain ⟨⟨more, hm⟩, hi⟩ := step_keeps h hs
  unfold W.content at hc ⊢
  cases hx : w.store.chunks[id]? with
  | none => simp [hx] at hc
  | some ch =>
    simp only [hx] at hc
    have h1 := hi id (ch.key, ch.data) (by simp [ident, hx])
    unfold ident at h1
    rw [Option.map_eq_some_iff] at h1
    obtain ⟨ch', g1, g2⟩ := h1
    have g3 : ch'.data = ch.data := (Prod.mk.inj g2).2
    rw [Option.map_eq_some_iff] at hc
    obtain ⟨p, g4, g5⟩ := hc
    have hlt := (List.getElem?_eq_some_iff.mp g4).1
    simp only [g1, g3, hm, List.getElem?_append_left hlt, g4, Option.map_some, g5]

end Verif.SharedStore
