import Verif.Model.Trajectory
import Verif.Proofs.TableCore
/-
C30: the chunk keys of a trajectory. C31: timestep trajectories.
-/
namespace Verif

/-! ### C30 -/

/-- The chunk keys named by a trajectory, in the order in which they are named. -/
def FlatTraj.mentions (t : FlatTraj) : List Key := (t.flatMap Column.slices).map Slice.chunk

theorem chunkKeys_fold (ss : List Slice) : ∀ keys : List Key,
    ss.foldl chunkKeysStep keys = keys ++ ((ss.map Slice.chunk).filter (· ∉ keys)).eraseDups := by
  induction ss with
  | nil => intro keys; simp
  | cons s ss ih =>
    intro keys
    simp only [List.foldl_cons, List.map_cons]
    rw [ih]
    by_cases h : s.chunk ∈ keys
    · simp [chunkKeysStep, h]
    · simp only [chunkKeysStep, h, if_false, List.filter_cons, not_false_eq_true, decide_true, if_true,
        List.eraseDups_cons, List.append_assoc, List.cons_append, List.nil_append, List.filter_filter]
      congr 3
      apply List.filter_congr
      intro x _
      by_cases hx : x = s.chunk <;> simp [hx]

theorem getChunkKeys_eq (t : FlatTraj) : getChunkKeys t = t.mentions.eraseDups := by
  have : ∀ (t : FlatTraj) (keys : List Key), t.foldl (fun keys col => col.slices.foldl chunkKeysStep keys) keys =
      (t.flatMap Column.slices).foldl chunkKeysStep keys := by
    intro t
    induction t with
    | nil => intro keys; rfl
    | cons c t ih => intro keys; simp [ih, List.foldl_append]
  rw [getChunkKeys, this, chunkKeys_fold]
  simp only [FlatTraj.mentions, List.nil_append]
  congr 1
  exact List.filter_eq_self.mpr (by simp)

theorem idx_self (a : Key) (l : List Key) : (a :: l).idxOf a = 0 := by simp

theorem idx_ne {a x : Key} (h : x ≠ a) (l : List Key) : (x :: l).idxOf a = l.idxOf a + 1 := by
  rw [List.idxOf_cons]
  have : (x == a) = false := by simpa using h
  rw [this, cond_false]

theorem mem_of_ne {a x : Key} {l : List Key} (ha : a ∈ x :: l) (h : x ≠ a) : a ∈ l := by
  rcases List.mem_cons.mp ha with h' | h'
  · exact absurd h'.symm h
  · exact h'

theorem idxOf_filter (p : Key → Bool) (l : List Key) : ∀ a b, a ∈ l → b ∈ l → p a = true → p b = true →
    (l.idxOf a < l.idxOf b ↔ (l.filter p).idxOf a < (l.filter p).idxOf b) := by
  induction l with
  | nil => intro a b ha; simp at ha
  | cons x l ih =>
    intro a b ha hb pa pb
    by_cases hxa : x = a
    · subst hxa
      rw [List.filter_cons, if_pos pa, idx_self, idx_self]
      by_cases hxb : x = b
      · subst hxb; simp
      · rw [idx_ne hxb, idx_ne hxb]; simp
    · by_cases hxb : x = b
      · subst hxb; rw [List.filter_cons, if_pos pb, idx_self, idx_self]; simp
      · have := ih a b (mem_of_ne ha hxa) (mem_of_ne hb hxb) pa pb
        rw [idx_ne hxa, idx_ne hxb, List.filter_cons]
        split
        · rw [idx_ne hxa, idx_ne hxb]; omega
        · omega

theorem idxOf_eraseDups (n : Nat) : ∀ l : List Key, l.length ≤ n → ∀ a b, a ∈ l → b ∈ l →
    (l.idxOf a < l.idxOf b ↔ l.eraseDups.idxOf a < l.eraseDups.idxOf b) := by
  induction n with
  | zero => intro l h; simp at h; subst h; simp
  | succ n ih =>
    intro l h a b ha hb
    cases l with
    | nil => simp at ha
    | cons x l =>
      rw [List.eraseDups_cons]
      by_cases hxa : x = a
      · subst hxa
        rw [idx_self, idx_self]
        by_cases hxb : x = b
        · subst hxb; simp
        · rw [idx_ne hxb, idx_ne hxb]; simp
      · by_cases hxb : x = b
        · subst hxb; rw [idx_self, idx_self]; simp
        · have hlen := List.length_filter_le (fun b => !b == x) l
          have pa : (!a == x) = true := by simpa using Ne.symm hxa
          have pb : (!b == x) = true := by simpa using Ne.symm hxb
          have ha' := mem_of_ne ha hxa
          have hb' := mem_of_ne hb hxb
          have h1 := idxOf_filter (fun b => !b == x) l a b ha' hb' pa pb
          have h2 := ih (l.filter (fun b => !b == x)) (by simp at h; omega) a b
            (List.mem_filter.mpr ⟨ha', pa⟩) (List.mem_filter.mpr ⟨hb', pb⟩)
          rw [idx_ne hxa, idx_ne hxb, idx_ne hxa, idx_ne hxb]
          omega

/-- C30: `GetChunkKeys` lists exactly the keys named by the trajectory, each once, in the order in which they
are first named. -/
theorem C30_chunk_keys (t : FlatTraj) :
    (getChunkKeys t).Nodup ∧
    (∀ k, k ∈ getChunkKeys t ↔ ∃ c ∈ t, ∃ s ∈ c.slices, s.chunk = k) ∧
    (∀ a b, a ∈ getChunkKeys t → b ∈ getChunkKeys t →
      ((getChunkKeys t).idxOf a < (getChunkKeys t).idxOf b ↔ t.mentions.idxOf a < t.mentions.idxOf b)) := by
  rw [getChunkKeys_eq]
  refine ⟨nodup_eraseDups _, ?_, ?_⟩
  · intro k
    simp only [List.mem_eraseDups, FlatTraj.mentions, List.mem_map, List.mem_flatMap]
    constructor
    · rintro ⟨s, ⟨c, h1, h2⟩, h3⟩; exact ⟨c, h1, s, h2, h3⟩
    · rintro ⟨c, h1, s, h2, h3⟩; exact ⟨s, ⟨c, h1, h2⟩, h3⟩
  · intro a b ha hb
    rw [List.mem_eraseDups] at ha hb
    exact (idxOf_eraseDups _ _ (Nat.le_refl _) a b ha hb).symm

/-- C30: the table refuses an item, without any effect, unless its chunks are the ones its trajectory names,
in that order (and the first column is not empty). -/
theorem C30_chunks_checked (t : Table) (i : Item) (now : Int) (d : Draw)
    (h : i.chunks.map ChunkRef.key ≠ getChunkKeys i.traj ∨ i.traj = [] ∨ (i.traj.head?.map Column.slices) = some []) :
    t.insertOrAssign i now d = (t, .err .invalidArgument) := by
  have : Table.itemValid i = false := by
    simp only [Table.itemValid, Bool.and_eq_false_iff]
    rcases h with h | h | h
    · right; simpa using Ne.symm h
    · left; rw [h]
    · left
      cases ht : i.traj with
      | nil => rfl
      | cons c l => rw [ht] at h; simp at h; simp [h]
  simp [Table.insertOrAssign, this]

/-! Two columns over three chunks, one of them used by both. -/
def twoColumns : FlatTraj := [⟨[⟨7, 1, 2, 0⟩, ⟨3, 0, 4, 0⟩], false⟩, ⟨[⟨3, 0, 1, 1⟩, ⟨9, 2, 1, 0⟩, ⟨7, 0, 1, 0⟩], true⟩]

example : getChunkKeys twoColumns = [7, 3, 9] := by decide
example : (getChunkKeys twoColumns) ≠ [3, 7, 9] := by decide

/-! ### C31 -/

/-- All rows of a list of chunks, one chunk after the other. -/
def allRows (chunks : List (Key × Nat)) : List (Key × Nat) :=
  chunks.flatMap fun c => (List.range c.2).map fun r => (c.1, r)

/-- The rows a column selects, in order. -/
def Column.rows (c : Column) : List (Key × Nat) :=
  c.slices.flatMap fun s => (List.range s.length.toNat).map fun r => (s.chunk, s.offset.toNat + r)

/-- The requested rows start in the first chunk and end in the last one. -/
def WithinRange (chunks : List (Key × Nat)) (offset length : Nat) : Prop :=
  0 < length ∧ (∃ c rest, chunks = c :: rest ∧ offset < c.2) ∧ (∀ c ∈ chunks, 0 < c.2) ∧
  (allRows chunks.dropLast).length < offset + length ∧ offset + length ≤ (allRows chunks).length

/-- The chunks as `FlatTimestepTrajectory` takes them. -/
def withLengths (chunks : List (Key × Nat)) : List (Key × Int) := chunks.map fun c => (c.1, ((c.2 : Nat) : Int))

theorem allRows_cons (c : Key × Nat) (l : List (Key × Nat)) :
    allRows (c :: l) = (List.range c.2).map (fun r => (c.1, r)) ++ allRows l := by simp [allRows]

theorem length_allRows_cons (c : Key × Nat) (l : List (Key × Nat)) :
    (allRows (c :: l)).length = c.2 + (allRows l).length := by simp [allRows_cons]

theorem drop_range_map (k : Key) (n o : Nat) : ((List.range n).map (fun r => (k, r))).drop o =
    (List.range (n - o)).map fun r => (k, o + r) := by
  apply List.ext_getElem
  · simp
  · intro i h1 h2; simp

theorem take_range_map (k : Key) (n o r : Nat) (h : r ≤ n) : ((List.range n).map (fun r => (k, o + r))).take r =
    (List.range r).map fun r => (k, o + r) := by
  apply List.ext_getElem
  · simp; omega
  · intro i h1 h2; simp

theorem timestepSlices_spec (col : Nat) : ∀ (chunks : List (Key × Nat)) (o r : Nat), WithinRange chunks o r →
    ∃ s ss, timestepSlices col (withLengths chunks) (o : Nat) (r : Nat) = some (s :: ss) ∧
      Column.rows ⟨s :: ss, false⟩ = ((allRows chunks).drop o).take r ∧ Column.length ⟨s :: ss, false⟩ = (r : Nat) ∧
      s.offset = (o : Nat) ∧ ∀ s' ∈ ss, s'.offset = 0 := by
  intro chunks
  induction chunks with
  | nil => rintro o r ⟨_, ⟨c, rest, h, _⟩, _⟩; simp at h
  | cons c rest ih =>
    rintro o r ⟨hr, ⟨c', rest', he, ho⟩, hpos, hlo, hhi⟩
    cases he
    have hr' : (0 : Int) < (r : Nat) := by omega
    cases rest with
    | nil =>
      simp only [length_allRows_cons] at hhi
      simp only [allRows, List.flatMap_nil, List.length_nil] at hhi
      have hmin : min (((c.2 : Nat) : Int) - (o : Nat)) (r : Nat) = (r : Nat) := by omega
      refine ⟨⟨c.1, (o : Nat), (r : Nat), col⟩, [], ?_, ?_, ?_, rfl, by simp⟩
      · simp [withLengths, timestepSlices, hr, hmin]
      · simp only [Column.rows, List.flatMap_cons, List.flatMap_nil, List.append_nil, Int.toNat_natCast, allRows_cons]
        simp only [allRows, List.flatMap_nil, List.append_nil]
        rw [drop_range_map, take_range_map _ _ _ _ (by omega)]
      · simp [Column.length]
    | cons c2 rest2 =>
      rw [List.dropLast_cons_cons, length_allRows_cons] at hlo
      rw [length_allRows_cons] at hhi
      obtain ⟨s, ss, h1, h2, h3, h4, h5⟩ := ih 0 (r - (c.2 - o))
        ⟨by omega, ⟨c2, rest2, rfl, hpos c2 (by simp)⟩, fun x hx => hpos x (List.mem_cons_of_mem _ hx), by omega, by omega⟩
      have hmin : min (((c.2 : Nat) : Int) - (o : Nat)) (r : Nat) = ((c.2 - o : Nat) : Int) := by omega
      have hsub : ((r : Nat) : Int) - ((c.2 - o : Nat) : Int) = ((r - (c.2 - o) : Nat) : Int) := by omega
      refine ⟨⟨c.1, (o : Nat), ((c.2 - o : Nat) : Int), col⟩, s :: ss, ?_, ?_, ?_, rfl, ?_⟩
      · rw [show withLengths (c :: c2 :: rest2) = (c.1, ((c.2 : Nat) : Int)) :: withLengths (c2 :: rest2) from rfl,
          timestepSlices]
        simp only [hr', if_true, hmin, hsub]
        have : ((0 : Nat) : Int) = 0 := rfl
        rw [this] at h1
        rw [h1]
      · rw [allRows_cons, List.drop_append_of_le_length (by simp; omega), drop_range_map, List.take_append]
        rw [List.take_of_length_le (by simp; omega)]
        simp only [List.length_map, List.length_range]
        simp only [List.drop_zero] at h2
        rw [← h2]
        simp [Column.rows]
      · simp only [Column.length, List.map_cons, List.sum_cons] at h3 ⊢
        omega
      · intro s' hs'
        rcases List.mem_cons.mp hs' with rfl | hs'
        · rw [h4]; rfl
        · exact h5 s' hs'

theorem timestepSlices_col (col : Nat) (chunks : List (Key × Int)) : ∀ (o r : Int),
    timestepSlices col chunks o r =
      (timestepSlices 0 chunks o r).map fun ss => ss.map fun s => { s with index := (col : Int) } := by
  induction chunks with
  | nil => intro o r; simp only [timestepSlices]; split <;> rfl
  | cons c rest ih =>
    intro o r
    obtain ⟨k, n⟩ := c
    simp only [timestepSlices]
    split
    · rw [ih]
      cases timestepSlices 0 rest 0 (r - min (n - o) r) <;> simp
    · rfl

theorem mapM_some_map {α β : Type} (f : α → Option β) (g : α → β) (h : ∀ a, f a = some (g a)) (l : List α) :
    l.mapM f = some (l.map g) := by
  induction l with
  | nil => rfl
  | cons a l ih => simp [h, ih]

/-- C31: for rows that start in the first chunk and end in the last, `FlatTimestepTrajectory` yields the
requested number of columns, each of which selects exactly the rows `offset .. offset + length - 1` of the
concatenated chunks, in order, out of its own column of the chunks. If there is any column,
`IsTimestepTrajectory` recognises the result, and its length and offset are reported as given. -/
theorem C31_timestep (chunks : List (Key × Nat)) (numColumns offset length : Nat)
    (h : WithinRange chunks offset length) :
    ∃ t, flatTimestepTrajectory (withLengths chunks) numColumns (offset : Nat) (length : Nat) = some t ∧
      t.length = numColumns ∧
      (∀ (i : Nat) (c : Column), t[i]? = some c → c.rows = ((allRows chunks).drop offset).take length ∧ c.squeeze = false ∧
        ∀ s ∈ c.slices, s.index = (i : Int)) ∧
      (0 < numColumns → isTimestepTrajectory t = true ∧ timestepTrajectoryLength t = some (length : Int) ∧
        timestepTrajectoryOffset t = some (offset : Int)) := by
  obtain ⟨s, ss, h1, h2, h3, h4, h5⟩ := timestepSlices_spec 0 chunks offset length h
  let g : Nat → Column := fun col => ⟨(s :: ss).map fun x => { x with index := (col : Int) }, false⟩
  have hg : ∀ col : Nat, (timestepSlices col (withLengths chunks) (offset : Nat) (length : Nat)).map
      (fun ss => (⟨ss, false⟩ : Column)) = some (g col) := by
    intro col; rw [timestepSlices_col, h1]; rfl
  have hrows : ∀ col, (g col).rows = ((allRows chunks).drop offset).take length := by
    intro col; rw [← h2]; simp [g, Column.rows, List.flatMap_map]
  have hlen : ∀ col, (g col).length = (length : Int) := by
    intro col; rw [← h3]; simp only [g, Column.length, List.map_map]; rfl
  refine ⟨(List.range numColumns).map g, mapM_some_map _ g hg _, by simp, ?_, ?_⟩
  · intro i c hc
    simp only [List.getElem?_map, Option.map_eq_some_iff] at hc
    obtain ⟨j, hj, rfl⟩ := hc
    have : j = i := by
      rw [List.getElem?_range (by
        have := (List.getElem?_eq_some_iff.mp hj).1; simpa using this)] at hj
      simpa using hj.symm
    subst this
    refine ⟨hrows _, rfl, ?_⟩
    intro x hx
    simp only [g, List.mem_map] at hx
    obtain ⟨y, _, rfl⟩ := hx
    rfl
  · intro hpos
    obtain ⟨n, rfl⟩ : ∃ n, numColumns = n + 1 := ⟨numColumns - 1, by omega⟩
    have hhead : (List.range (n + 1)).map g = g 0 :: ((List.range n).map (g ∘ Nat.succ)) := by
      rw [List.range_succ_eq_map]; simp
    refine ⟨?_, ?_, ?_⟩
    · have hagree : ∀ i, columnAgrees (g 0) i (g i) = true := by
        intro i
        simp only [columnAgrees, g, List.length_map, beq_self_eq_true, Bool.true_and, List.all_eq_true]
        intro p hp
        rw [List.zip_map, List.mem_map] at hp
        obtain ⟨⟨x, y⟩, hxy, rfl⟩ := hp
        have : x = y := by
          obtain ⟨i, hi, he⟩ := List.getElem_of_mem hxy
          simp only [List.getElem_zip, Prod.mk.injEq] at he
          rw [← he.1, ← he.2]
        subst this
        simp [sliceAgrees]
      rw [hhead, isTimestepTrajectory, ← hhead]
      simp only [Bool.and_eq_true, List.all_eq_true]
      constructor
      · intro x hx
        simp only [g, List.map_cons, List.drop_succ_cons, List.drop_zero, List.mem_map] at hx
        obtain ⟨y, hy, rfl⟩ := hx
        simp [h5 y hy]
      · rintro ⟨c, i⟩ hp
        rw [List.mem_zipIdx_iff_getElem?] at hp
        simp only [List.getElem?_map, Option.map_eq_some_iff] at hp
        obtain ⟨j, hj, rfl⟩ := hp
        have : j = i := by
          rw [List.getElem?_range (by
            have := (List.getElem?_eq_some_iff.mp hj).1; simpa using this)] at hj
          simpa using hj.symm
        subst this
        exact hagree j
    · rw [hhead]; simp only [timestepTrajectoryLength, List.head?_cons, Option.map_some, hlen]
    · rw [hhead]; simp [timestepTrajectoryOffset, g, h4]

/-! Rows 2 to 6 of three chunks. -/
example : WithinRange [(5, 3), (9, 2), (4, 4)] 2 5 := by
  refine ⟨by decide, ⟨_, _, rfl, by decide⟩, by decide, by decide, by decide⟩
example : (flatTimestepTrajectory (withLengths [(5, 3), (9, 2), (4, 4)]) 2 2 5).map (List.map Column.rows) =
    some [[(5, 2), (9, 0), (9, 1), (4, 0), (4, 1)], [(5, 2), (9, 0), (9, 1), (4, 0), (4, 1)]] := by decide

/-- An offset beyond the first chunk is not noticed: the first slice gets a negative length and the second
selects rows that were not asked for. -/
theorem C31_offset_not_checked : ∃ t, flatTimestepTrajectory (withLengths [(5, 2), (9, 10)]) 1 5 3 = some t ∧
    t.map Column.rows ≠ [((allRows [(5, 2), (9, 10)]).drop 5).take 3] := by decide

/-- **C31, recognition.** `IsTimestepTrajectory` accepts a trajectory if and only if it has a column, its columns select the same rows of the
same chunks, column `i` taking them from tensor `i` of the chunks, and no slice but the first starts after row 0. -/
theorem C31_recognised (t : FlatTraj) : isTimestepTrajectory t = true ↔ t ≠ [] ∧ ∃ rows : List (Key × Int × Int),
    (∀ i : Nat, ∀ col : Column, t[i]? = some col → col.slices = rows.map fun r => ⟨r.1, r.2.1, r.2.2, (i : Int)⟩) ∧
    ∀ i : Nat, 0 < i → ∀ r, rows[i]? = some r → r.2.1 ≤ 0 := by
  have hcol : ∀ (first c : Column) (ci : Nat), columnAgrees first ci c = true ↔
      c.slices = (first.slices.map fun s => (s.chunk, s.offset, s.length)).map fun r => ⟨r.1, r.2.1, r.2.2, (ci : Int)⟩ := by
    intro first c ci
    unfold columnAgrees
    generalize first.slices = fs
    generalize c.slices = cs
    induction cs generalizing fs with
    | nil => cases fs <;> simp
    | cons s cs ih =>
      cases fs with
      | nil => simp
      | cons f fs =>
        have ih := ih fs
        simp only [Bool.and_eq_true, beq_iff_eq, List.length_cons, Nat.add_right_cancel_iff, List.zip_cons_cons, List.all_cons, List.map_cons,
          List.cons.injEq, sliceAgrees] at ih ⊢
        rw [← ih]
        cases s
        simp only [Slice.mk.injEq]
        constructor
        · rintro ⟨a, ⟨⟨⟨b, c⟩, d⟩, e⟩, f⟩; exact ⟨⟨b, c, d, e⟩, a, f⟩
        · rintro ⟨⟨b, c, d, e⟩, a, f⟩; exact ⟨a, ⟨⟨⟨b, c⟩, d⟩, e⟩, f⟩
  cases t with
  | nil => simp [isTimestepTrajectory]
  | cons first rest =>
    have hz : ((first :: rest).zipIdx.all fun p => columnAgrees first p.2 p.1) = true ↔
        ∀ i : Nat, ∀ col : Column, (first :: rest)[i]? = some col → columnAgrees first i col = true := by
      rw [List.all_eq_true]
      constructor
      · intro h i col hi
        exact h (col, i) (List.mem_zipIdx_iff_getElem?.mpr hi)
      · rintro h ⟨col, i⟩ hm
        exact h i col (List.mem_zipIdx_iff_getElem?.mp hm)
    have ho : ((first.slices.drop 1).all (fun s => !decide (0 < s.offset))) = true ↔
        ∀ i : Nat, 0 < i → ∀ s, first.slices[i]? = some s → s.offset ≤ 0 := by
      rw [List.all_eq_true]
      constructor
      · intro h i hi s hs
        obtain ⟨i, rfl⟩ : ∃ j, i = 1 + j := ⟨i - 1, by omega⟩
        have := h s (List.mem_of_getElem? (by rw [List.getElem?_drop]; exact hs))
        simpa using this
      · intro h s hs
        obtain ⟨i, hi⟩ := List.getElem?_of_mem hs
        rw [List.getElem?_drop] at hi
        have := h _ (by omega) s hi
        simpa using this
    unfold isTimestepTrajectory
    simp only [Bool.and_eq_true]
    rw [hz, ho]
    constructor
    · rintro ⟨h1, h2⟩
      refine ⟨by simp, first.slices.map fun s => (s.chunk, s.offset, s.length), fun i col hi => (hcol _ _ _).mp (h2 i col hi), ?_⟩
      intro i hi r hr
      rw [List.getElem?_map, Option.map_eq_some_iff] at hr
      obtain ⟨s, hs, rfl⟩ := hr
      exact h1 i hi s hs
    · rintro ⟨_, rows, h1, h2⟩
      have hf := h1 0 first rfl
      have hr : (first.slices.map fun s => (s.chunk, s.offset, s.length)) = rows := by
        rw [hf, List.map_map]
        exact List.map_id'' (fun _ => rfl) _
      refine ⟨?_, fun i col hi => (hcol _ _ _).mpr (by rw [hr]; exact h1 i col hi)⟩
      intro i hi s hs
      exact h2 i hi (s.chunk, s.offset, s.length) (by rw [← hr, List.getElem?_map, hs]; rfl)

/-- The hypotheses are met by two columns over two chunks, and not if a column has another length. -/
example : isTimestepTrajectory [⟨[⟨5, 1, 2, 0⟩, ⟨9, 0, 1, 0⟩], false⟩, ⟨[⟨5, 1, 2, 1⟩, ⟨9, 0, 1, 1⟩], false⟩] = true ∧
    isTimestepTrajectory [⟨[⟨5, 1, 2, 0⟩], false⟩, ⟨[⟨5, 1, 1, 1⟩], false⟩] = false := by decide

/-- `IsTimestepTrajectory` accepts columns that skip rows at the end of a chunk, although it promises to
refuse gaps: here rows 0 and 1 of a chunk of any length are followed by the next chunk. -/
theorem C31_gap_not_detected : isTimestepTrajectory [⟨[⟨5, 0, 2, 0⟩, ⟨9, 0, 1, 0⟩], false⟩] = true := by decide

end Verif
