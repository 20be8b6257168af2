import Verif.Proofs.SharedStore
/-
C121: the insert streams of the synchronous server share a chunk store.
-/
namespace Verif.SharedStore

/-- C121: a chunk lives exactly as long as a stream or an item has a pointer to it: none that is needed is destroyed, none is kept for
nothing. -/
theorem C121_lifetime {as : List Act} {w : W} (h : run init as = some w) (id : Nat) : w.lives id ↔ w.held id := by
  have hi := I.run h
  have h1 : w.lives id ↔ 0 < refs w.store id := by
    unfold W.lives refs
    cases w.store.chunks[id]? <;> simp
  rw [h1, hi.cnt id]
  unfold W.count W.held
  constructor
  · intro hp
    by_cases hc : 0 < (w.cache.map (·.2.2)).count id
    · obtain ⟨⟨s, k, j⟩, g1, g2⟩ := List.mem_map.mp (List.count_pos_iff.mp hc)
      subst g2
      exact .inl ⟨s, k, g1⟩
    · have : 0 < w.items.flatten.count id := by omega
      obtain ⟨ids, g1, g2⟩ := List.mem_flatten.mp (List.count_pos_iff.mp this)
      exact .inr ⟨ids, g1, g2⟩
  · rintro (⟨s, k, g⟩ | ⟨ids, g1, g2⟩)
    · have : 0 < (w.cache.map (·.2.2)).count id := List.count_pos_iff.mpr (List.mem_map.mpr ⟨_, g, rfl⟩)
      omega
    · have : 0 < w.items.flatten.count id := List.count_pos_iff.mpr (List.mem_flatten.mpr ⟨ids, g1, g2⟩)
      omega

/-- C121: no use of a pointer that nobody holds: every chunk, every item, every end of a stream and every removal of an item can be carried
out. -/
theorem C121_total {as : List Act} {w : W} (h : run init as = some w) (hd : w.dead = false) :
    (∀ s c, ∃ w', step w (.chunk s c) = some w') ∧ (∀ s keys keep, ∃ w', step w (.item s keys keep) = some w') ∧
    (∀ s, ∃ w', step w (.end_ s) = some w') ∧ ∀ j < w.items.length, ∃ w', step w (.drop j) = some w' := by
  have hi := I.run h
  refine ⟨fun s c => ?_, fun s keys keep => ?_, fun s => ?_, fun j hj => ?_⟩
  · obtain ⟨w', h1, _⟩ := hi.chunk hd s c
    exact ⟨w', h1⟩
  · obtain ⟨w', h1, _⟩ := hi.item hd s keys keep
    exact ⟨w', h1⟩
  · obtain ⟨w', h1, _⟩ := hi.end_ hd s
    exact ⟨w', h1⟩
  · obtain ⟨w', h1, _⟩ := hi.drop hd j (List.getElem?_eq_getElem hj)
    exact ⟨w', h1⟩

/-- C121: which items are accepted depends on the requests of their own stream alone: an item is given to the table if its stream has sent all
its chunks and not given them up, and otherwise the stream ends with an error; the server dies if and only if the stream asks to keep a chunk
that it does not have. -/
theorem C121_independent {as : List Act} {w w' : W} {s : Nat} {keys keep : List Key} (h : run init as = some w)
    (hs : step w (.item s keys keep) = some w') :
    ((∀ k ∈ keys, ownKeys s as k = true) → (∃ ids, w'.log = w.log ++ [(s, keys, ids)]) ∧ w'.errors = w.errors ∧
      (w'.dead = true ↔ ∃ k ∈ keep, ownKeys s as k = false)) ∧
    ((∃ k ∈ keys, ownKeys s as k = false) → w'.log = w.log ∧ w'.errors = w.errors ++ [s] ∧ w'.dead = false) := by
  have hd : w.dead = false := by
    cases hd : w.dead with
    | false => rfl
    | true => simp [step, hd] at hs
  obtain ⟨w1, h1, _, h2, h3⟩ := (I.run h).item hd s keys keep
  rw [h1] at hs
  cases hs
  constructor
  · intro hall
    have ha : keys.all (ownKeys s as) = true := List.all_eq_true.mpr hall
    rcases h2 with ⟨_, g2, g3⟩ | ⟨g1, _⟩
    · exact ⟨g3, g2, by rw [h3, ha]; simp⟩
    · rw [ha] at g1; cases g1
  · rintro ⟨k, hk, hn⟩
    have ha : keys.all (ownKeys s as) = false := List.all_eq_false.mpr ⟨k, hk, by simp [hn]⟩
    rcases h2 with ⟨g1, _⟩ | ⟨_, g2, g3⟩
    · rw [ha] at g1; cases g1
    · refine ⟨g3, g2, ?_⟩
      cases hw : w'.dead with
      | false => rfl
      | true =>
        have := (h3.mp hw).1
        rw [ha] at this
        cases this

/-- What a pointer leads to is a chunk with the right key that somebody has sent. -/
theorem content_of {as : List Act} {w : W} (hi : I as w) {id : Nat} {k : Key} {d : Nat} (h : ident w.store id = some (k, d)) :
    ∃ t c, w.content id = some c ∧ c.key = k ∧ Sent t c as := by
  obtain ⟨t, c, h1, h2⟩ := hi.chunks id k d h
  refine ⟨t, c, ?_, h2, (hi.sent t c).mp (List.mem_of_getElem? h1)⟩
  unfold ident at h
  rw [Option.map_eq_some_iff] at h
  obtain ⟨ch, g1, g2⟩ := h
  cases g2
  simp [W.content, g1, h1]

/-- C121: the chunks of an item are, in the order of its keys, chunks with these keys that some stream has sent. -/
theorem C121_some_stream {as : List Act} {w : W} {s : Nat} {keys : List Key} {ids : List Nat} (h : run init as = some w)
    (hl : (s, keys, ids) ∈ w.log) : ids.length = keys.length ∧ ∀ (i : Nat) k id, keys[i]? = some k → ids[i]? = some id →
      ∃ t c, w.content id = some c ∧ c.key = k ∧ Sent t c as := by
  have hi := I.run h
  obtain ⟨h1, h2⟩ := hi.log _ hl
  refine ⟨h1, fun i k id hk hid => ?_⟩
  obtain ⟨⟨d, g1⟩, _⟩ := h2 i k id hk hid
  exact content_of hi g1

/-- C121: if no two different chunks with the same key are sent, they are the ones that the stream of the item has sent. Missing: streams of
which the keys collide, see `C121_is_false`. -/
theorem C121_own_partial {as : List Act} {w : W} {s : Nat} {keys : List Key} {ids : List Nat} (h : run init as = some w) (hn : NoCollision as)
    (hl : (s, keys, ids) ∈ w.log) : ids.length = keys.length ∧ ∀ (i : Nat) k id, keys[i]? = some k → ids[i]? = some id →
      ∃ c, w.content id = some c ∧ c.key = k ∧ Sent s c as := by
  have hi := I.run h
  obtain ⟨h1, h2⟩ := hi.log _ hl
  refine ⟨h1, fun i k id hk hid => ?_⟩
  obtain ⟨⟨d, g1⟩, c', g2, g3⟩ := h2 i k id hk hid
  obtain ⟨t, c, g4, g5, g6⟩ := content_of hi g1
  have hs := (hi.sent s c').mp g2
  have : c = c' := hn t s c c' g6 hs (g5.trans g3.symm)
  subst this
  exact ⟨c, g4, g5, hs⟩

/-- C121: what an item contains does not change: the contents of a pointer stay what they are in all later states. -/
theorem C121_constant {as bs : List Act} {w w' : W} {s : Nat} {keys : List Key} {ids : List Nat} (h : run init as = some w)
    (hr : run w bs = some w') (hl : (s, keys, ids) ∈ w.log) : ∀ id ∈ ids, w'.content id = w.content id := by
  have key : ∀ id c, w.content id = some c → w'.content id = some c := by
    have hi := I.run h
    clear h hl
    induction bs generalizing as w with
    | nil => cases hr; exact fun _ _ h => h
    | cons b bs ih =>
      simp only [run] at hr
      cases hs : step w b with
      | none => rw [hs] at hr; cases hr
      | some w1 =>
        rw [hs] at hr
        intro id c hc
        exact ih hr (hi.step hs) id c (content_step hi hs hc)
  intro id hid
  obtain ⟨i, hi⟩ := List.mem_iff_getElem?.mp hid
  obtain ⟨h1, h2⟩ := C121_some_stream h hl
  have hlt : i < keys.length := by rw [← h1]; exact (List.getElem?_eq_some_iff.mp hi).1
  obtain ⟨_, c, hc, _⟩ := h2 i _ id (List.getElem?_eq_getElem hlt) hi
  rw [key id c hc, hc]

namespace StoreDemo

/-- A chunk with one column. -/
def chunk (k : Key) (x : Nat) : ChunkData := ⟨k, none, [⟨.int32, [1], [x]⟩], false⟩

/-- Stream 1 sends two chunks, stream 2 sends one of them again, both make items of them; the first item is removed and stream 1 gives up its
chunks. -/
def acts : List Act :=
  [.chunk 1 (chunk 7 70), .chunk 1 (chunk 8 80), .chunk 2 (chunk 7 70), .item 1 [7, 8] [8], .item 2 [7] [7], .drop 0, .end_ 1, .pushKey 0,
   .cleanPop 1, .cleanErase]

theorem no_collision : NoCollision acts := by
  intro s s' c c' h h' hk
  simp only [Sent, acts, List.mem_cons, Act.chunk.injEq, reduceCtorEq, List.not_mem_nil, or_false] at h h'
  rcases h with ⟨_, rfl⟩ | ⟨_, rfl⟩ | ⟨_, rfl⟩ <;> rcases h' with ⟨_, rfl⟩ | ⟨_, rfl⟩ | ⟨_, rfl⟩ <;> first | rfl | (exact absurd hk (by decide))

/-- The hypotheses of the theorems above are met: the chunk with key 7 is stored once and lives on with the second item. -/
example : ∃ w, run init acts = some w ∧ w.dead = false ∧ NoCollision acts ∧ w.log = [(1, [7, 8], [0, 1]), (2, [7], [0])] ∧ w.lives 0 ∧ ¬ w.lives 1 ∧
    w.store.map.keys = [7] ∧ w.content 0 = some (chunk 7 70) := by
  refine ⟨_, rfl, by decide +kernel, no_collision, by decide +kernel, ⟨_, rfl, by decide +kernel⟩, ?_, by decide +kernel, by decide +kernel⟩
  rintro ⟨c, h1, h2⟩
  cases h1
  revert h2
  decide +kernel

/-- An item with a chunk that its stream has not sent, although another one has. -/
example : ∃ w w', run init [.chunk 1 (chunk 7 70)] = some w ∧ step w (.item 2 [7] []) = some w' ∧ w'.errors = [2] ∧ ownKeys 2 [.chunk 1 (chunk 7 70)] 7 = false :=
  ⟨_, _, rfl, rfl, by decide +kernel, by decide +kernel⟩

end StoreDemo

/-- C121: it is false that an item contains what its stream has sent: with the key of a chunk that another client has sent, it contains the data
of the other client, and its own data are dropped without an error. -/
theorem C121_is_false : ¬ ∀ (as : List Act) (w : W) (s : Nat) (keys : List Key) (ids : List Nat), run init as = some w → (s, keys, ids) ∈ w.log →
    ∀ id ∈ ids, ∃ c, w.content id = some c ∧ Sent s c as := by
  intro hall
  obtain ⟨c, h1, h2⟩ := hall [.chunk 1 (StoreDemo.chunk 7 70), .chunk 2 (StoreDemo.chunk 7 71), .item 2 [7] []] _ 2 [7] [0] rfl (by decide +kernel) 0 (by simp)
  have h1' : some (StoreDemo.chunk 7 70) = some c := h1
  cases h1'
  simp only [Sent, List.mem_cons, Act.chunk.injEq, reduceCtorEq, List.not_mem_nil, or_false] at h2
  rcases h2 with ⟨h, _⟩ | ⟨_, h⟩
  · cases h
  · revert h; decide

/-- C121: nor is it true of one client: a chunk sent again with other contents on the same stream is ignored as well. -/
theorem C121_again_is_false : ¬ ∀ (c c' : ChunkData) (w : W), run init [.chunk 1 c, .chunk 1 c', .item 1 [c'.key] []] = some w →
    ∀ x ∈ w.log, ∀ id ∈ x.2.2, w.content id = some c' := by
  intro hall
  have h := hall (StoreDemo.chunk 7 70) (StoreDemo.chunk 7 71) _ rfl (1, [7], [0]) (by decide +kernel) 0 (by simp)
  have h1 : some (StoreDemo.chunk 7 70) = some (StoreDemo.chunk 7 71) := h
  revert h1
  decide

end Verif.SharedStore
