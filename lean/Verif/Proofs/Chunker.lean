import Verif.Proofs.ChunkerOpts
import Verif.Proofs.Rows
namespace Verif
namespace Chunker

/-- The cells of a run of rows that share a chunk key. -/
def mkCells (key : Key) (ch : Option ChunkData) (rows : List Row) : List Cell :=
  rows.mapIdx fun o r => ⟨key, o, r.episode, r.step, ch⟩

/-- A finished run of rows: its chunk, or `none` if it was given up by `Reset`. -/
structure Block where
  rows : List Row
  chunk : Option ChunkData

/-- The cells of the finished blocks. -/
def blockCells (gen : Nat → Key) (j : Nat) : List Block → List Cell
  | [] => []
  | b :: bs => mkCells (gen j) b.chunk b.rows ++ blockCells gen (j + 1) bs

/-- One episode, increasing steps. -/
def Ordered (rows : List Row) : Prop := rows.Pairwise fun a b => a.episode = b.episode ∧ a.step < b.step

/-- The chunk made of the rows. -/
structure GoodChunk (dt : DType) (sh : List Nat) (key : Key) (rows : List Row) (ch : ChunkData) : Prop where
  keyEq : ch.key = key
  holds : ch.Holds dt sh (rows.map Row.tensor)
  ordered : Ordered rows
  range : rangeOf none (mkCells key none rows) = some ch.range
  ne : rows ≠ []
  one : ch.tensors.length = 1

/-- Total number of rows. -/
def total (bs : List Block) : Nat := (bs.map fun b => b.rows.length).sum

/-- The invariant: `bs` are the finished blocks, `cur` the rows in the buffer, `d` the oldest active reference. -/
structure Inv (c : Chunker) (bs : List Block) (cur : List Row) (d : Nat) : Prop where
  opts : c.opts.Good
  keys : ∀ i j, c.keyGen i = c.keyGen j → i = j
  drawn : bs.length = c.drawn
  cells : c.cells = blockCells c.keyGen 0 bs ++ mkCells c.nextKey none cur
  buffer : c.buffer = cur.map fun r => r.tensor.addBatchDim
  offset : c.offset = cur.length
  tensors : ∀ r ∈ cur, Tensor.Is c.dtype c.shape r.tensor
  ordered : Ordered cur
  active : c.active = List.range' d (c.cells.length - d)
  dle : d ≤ total bs
  good : ∀ j b ch, bs[j]? = some b → b.chunk = some ch → GoodChunk c.dtype c.shape (c.keyGen j) b.rows ch
  lost : ∀ j b, bs[j]? = some b → b.chunk = none → total (bs.take (j + 1)) ≤ d

theorem mkCells_length (key : Key) (ch : Option ChunkData) (rows : List Row) : (mkCells key ch rows).length = rows.length := by
  simp [mkCells]

theorem blockCells_length (gen : Nat → Key) : ∀ (bs : List Block) (j : Nat), (blockCells gen j bs).length = total bs
  | [], _ => rfl
  | b :: bs, j => by simp [blockCells, blockCells_length gen bs, mkCells_length, total]

theorem blockCells_append (gen : Nat → Key) : ∀ (bs bs' : List Block) (j : Nat),
    blockCells gen j (bs ++ bs') = blockCells gen j bs ++ blockCells gen (j + bs.length) bs'
  | [], _, _ => by simp [blockCells]
  | b :: bs, bs', j => by
    simp only [List.cons_append, blockCells, blockCells_append gen bs bs', List.append_assoc, List.length_cons]
    rw [show j + 1 + bs.length = j + (bs.length + 1) by omega]

theorem mem_mkCells {key : Key} {ch : Option ChunkData} {rows : List Row} {x : Cell} (h : x ∈ mkCells key ch rows) :
    x.key = key ∧ x.chunk = ch := by
  simp only [mkCells, List.mem_mapIdx] at h
  obtain ⟨i, hi, rfl⟩ := h
  exact ⟨rfl, rfl⟩

theorem mem_blockCells {gen : Nat → Key} : ∀ {bs : List Block} {j : Nat} {x : Cell}, x ∈ blockCells gen j bs →
    ∃ i b, bs[i]? = some b ∧ x ∈ mkCells (gen (j + i)) b.chunk b.rows
  | b :: bs, j, x, h => by
    rcases List.mem_append.mp h with h | h
    · exact ⟨0, b, rfl, h⟩
    · obtain ⟨i, b', h1, h2⟩ := mem_blockCells h
      exact ⟨i + 1, b', h1, by rwa [show j + (i + 1) = j + 1 + i by omega]⟩

theorem total_append (a b : List Block) : total (a ++ b) = total a + total b := by simp [total]

theorem total_take_le (bs : List Block) (j : Nat) : total (bs.take j) ≤ total bs := by
  have h := total_append (bs.take j) (bs.drop j)
  rw [List.take_append_drop] at h
  omega

/-! ### The range of a chunk -/

/-- Range from the rows, after the first. -/
theorem rangeOf_some : ∀ (cells : List Cell) (r : SeqRange),
    (∀ x ∈ cells, x.episode = r.episode ∧ r.end_ < x.step) →
    cells.Pairwise (fun a b => a.episode = b.episode ∧ a.step < b.step) →
    ∃ sp, rangeOf (some r) cells = some (some ⟨r.episode, r.start, (cells.getLast?.map Cell.step).getD r.end_, sp⟩) ∧
      (sp = true ↔ r.sparse = true ∨ ¬ Consecutive (r.end_ :: cells.map Cell.step))
  | [], r, _, _ => by
    refine ⟨r.sparse, by simp [rangeOf], ?_⟩
    simp only [List.map_nil]
    constructor
    · exact Or.inl
    · rintro (h | h)
      · exact h
      · exact absurd (fun i a b h1 h2 => by simp at h2) h
  | x :: cells, r, h, hp => by
    obtain ⟨hp1, hp2⟩ := List.pairwise_cons.mp hp
    obtain ⟨he, hs⟩ := h x List.mem_cons_self
    simp only [rangeOf, extendRange, he, hs, and_self, if_true]
    obtain ⟨sp, h1, h2⟩ := rangeOf_some cells ⟨r.episode, r.start, x.step, r.sparse || decide (x.step ≠ r.end_ + 1)⟩
      (fun y hy => ⟨by rw [← (hp1 y hy).1, he], (hp1 y hy).2⟩) hp2
    refine ⟨sp, ?_, ?_⟩
    · rw [← he] at h1 ⊢
      simp only at h1
      rw [h1]
      simp only [Option.some.injEq, SeqRange.mk.injEq, true_and, and_true]
      cases hl : cells.getLast? with
      | none =>
        rw [List.getLast?_eq_none_iff] at hl
        subst hl
        simp
      | some y => simp [List.getLast?_cons, hl]
    · rw [h2]
      simp only [Bool.or_eq_true, decide_eq_true_eq, List.map_cons]
      constructor
      · rintro ((h | h) | h)
        · exact Or.inl h
        · refine Or.inr fun hc => h (hc 0 _ _ rfl rfl)
        · exact Or.inr fun hc => h fun i a b h1 h2 => hc (i + 1) a b h1 h2
      · rintro (h | h)
        · exact Or.inl (Or.inl h)
        · by_cases hx : x.step = r.end_ + 1
          · refine Or.inr fun hc => h fun i a b h1 h2 => ?_
            cases i with
            | zero =>
              simp only [List.getElem?_cons_zero, Option.some.injEq] at h1
              simp only [Nat.zero_add, List.getElem?_cons_succ, List.getElem?_cons_zero, Option.some.injEq] at h2
              omega
            | succ i => exact hc i a b h1 h2
          · exact Or.inl (Or.inr hx)

theorem mkCells_steps (key : Key) (ch : Option ChunkData) (rows : List Row) :
    (mkCells key ch rows).map Cell.step = rows.map Row.step := by
  apply List.ext_getElem? 
  intro i
  simp only [mkCells, List.getElem?_map, List.getElem?_mapIdx]
  cases rows[i]? <;> rfl

theorem mkCells_ordered {key : Key} {ch : Option ChunkData} {rows : List Row} (h : Ordered rows) :
    (mkCells key ch rows).Pairwise fun a b => a.episode = b.episode ∧ a.step < b.step := by
  rw [List.pairwise_iff_getElem]
  intro i j hi hj hij
  simp only [mkCells, List.length_mapIdx] at hi hj
  simp only [mkCells, List.getElem_mapIdx]
  exact (List.pairwise_iff_getElem.mp h) i j hi hj hij

theorem rangeOf_rows {key : Key} {rows : List Row} {r0 : Row} {rest : List Row} (hr : rows = r0 :: rest) (h : Ordered rows) :
    ∃ sp, rangeOf none (mkCells key none rows) =
      some (some ⟨r0.episode, r0.step, (rows.getLast?.map Row.step).getD 0, sp⟩) ∧
      (sp = true ↔ ¬ Consecutive (rows.map Row.step)) := by
  have hp := mkCells_ordered (key := key) (ch := none) h
  have hst := mkCells_steps key none rows
  cases hc : mkCells key none rows with
  | nil =>
    have := mkCells_length key none rows
    rw [hc, hr] at this
    simp at this
  | cons x xs =>
    rw [hc] at hp hst
    have hx : x.episode = r0.episode ∧ x.step = r0.step := by
      have : (mkCells key none rows)[0]? = some x := by rw [hc]; rfl
      rw [hr] at this
      simp only [mkCells, List.mapIdx_cons, List.getElem?_cons_zero, Option.some.injEq] at this
      rw [← this]
      exact ⟨rfl, rfl⟩
    obtain ⟨hp1, hp2⟩ := List.pairwise_cons.mp hp
    obtain ⟨sp, h1, h2⟩ := rangeOf_some xs ⟨x.episode, x.step, x.step, false⟩
      (fun y hy => ⟨(hp1 y hy).1.symm, (hp1 y hy).2⟩) hp2
    refine ⟨sp, ?_, ?_⟩
    · simp only [rangeOf, extendRange, h1]
      simp only [hx.1, hx.2, Option.some.injEq, SeqRange.mk.injEq, true_and, and_true]
      have hl : (rows.map Row.step).getLast? = ((x :: xs).map Cell.step).getLast? := by rw [hst]
      rw [List.getLast?_map] at hl
      rw [hl, List.getLast?_map, List.getLast?_cons]
      cases xs.getLast? <;> simp [hx.2]
    · rw [h2, ← hst]
      simp

/-! ### The cells -/

theorem cellAt_eq {c : Chunker} {i : Nat} (h : i < c.cells.length) : c.cellAt i = c.cells[i] := by
  simp [cellAt, List.getD_eq_getElem?_getD, h]

theorem active_map (c : Chunker) (d : Nat) :
    (List.range' d (c.cells.length - d)).map c.cellAt = c.cells.drop d := by
  apply List.ext_getElem
  · simp
  · intro i h1 h2
    simp only [List.length_map, List.length_range'] at h1
    simp only [List.getElem_map, List.getElem_range', Nat.one_mul, List.getElem_drop]
    rw [cellAt_eq (by omega)]

theorem key_lt {gen : Nat → Key} {bs : List Block} {x : Cell} (h : x ∈ blockCells gen 0 bs) : ∃ j, j < bs.length ∧ x.key = gen j := by
  obtain ⟨i, b, h1, h2⟩ := mem_blockCells h
  exact ⟨i, (List.getElem?_eq_some_iff.mp h1).1, by simpa using (mem_mkCells h2).1⟩

theorem Inv.key_ne {c : Chunker} {bs : List Block} {cur : List Row} {d : Nat} (h : Inv c bs cur d) {x : Cell}
    (hx : x ∈ blockCells c.keyGen 0 bs) : x.key ≠ c.nextKey := by
  obtain ⟨j, hj, he⟩ := key_lt hx
  intro hn
  have := h.keys _ _ (he.symm.trans hn)
  have := h.drawn
  omega

theorem Inv.filter {c : Chunker} {bs : List Block} {cur : List Row} {d : Nat} (h : Inv c bs cur d) :
    ((c.active.map c.cellAt).filter fun cell => cell.key = c.nextKey) = mkCells c.nextKey none cur := by
  rw [h.active, active_map, h.cells, List.drop_append_of_le_length (by rw [blockCells_length]; exact h.dle), List.filter_append]
  rw [List.filter_eq_nil_iff.mpr, List.filter_eq_self.mpr, List.nil_append]
  · intro x hx
    simp [(mem_mkCells hx).1]
  · intro x hx
    simp [h.key_ne (List.mem_of_mem_drop hx)]

theorem notify_get (cellKey : Nat → Key) (ch : ChunkData) (i : Nat) : ∀ (active : List Nat) (cells : List Cell),
    (active.foldl (fun cells i => if cellKey i = ch.key then cells.modify i (setChunk ch) else cells) cells)[i]? =
      if i ∈ active ∧ cellKey i = ch.key then cells[i]?.map (setChunk ch) else cells[i]?
  | [], cells => by simp
  | a :: active, cells => by
    rw [List.foldl_cons, notify_get cellKey ch i active]
    by_cases hk : cellKey a = ch.key
    · simp only [hk, if_true, List.getElem?_modify]
      by_cases hi : a = i
      · subst hi
        cases cells[a]? <;> simp [hk, setChunk]
      · have : ¬ i = a := fun h => hi h.symm
        simp [hi, this]
    · simp only [hk, if_false]
      by_cases hi : i = a
      · subst hi
        simp [hk]
      · simp [hi]

theorem mkCells_set (key : Key) (ch : ChunkData) (rows : List Row) :
    (mkCells key none rows).map (setChunk ch) = mkCells key (some ch) rows := by
  apply List.ext_getElem?
  intro i
  simp only [mkCells, List.getElem?_map, List.getElem?_mapIdx]
  cases rows[i]? <;> rfl

theorem Inv.notify {c : Chunker} {bs : List Block} {cur : List Row} {d : Nat} (h : Inv c bs cur d) {ch : ChunkData}
    (hk : ch.key = c.nextKey) : c.notify ch = blockCells c.keyGen 0 bs ++ mkCells c.nextKey (some ch) cur := by
  apply List.ext_getElem?
  intro i
  unfold Chunker.notify
  rw [notify_get (fun i => (c.cellAt i).key) ch i, h.active]
  have hlen : c.cells.length = total bs + cur.length := by
    rw [h.cells, List.length_append, blockCells_length, mkCells_length]
  have hd := h.dle
  by_cases hi : i < total bs
  · have hmem : c.cellAt i ∈ blockCells c.keyGen 0 bs := by
      rw [cellAt_eq (by omega), List.getElem_of_eq h.cells, List.getElem_append_left (by rw [blockCells_length]; exact hi)]
      exact List.getElem_mem _
    rw [if_neg (fun hc => h.key_ne hmem (hc.2.trans hk)), h.cells, List.getElem?_append_left (by rw [blockCells_length]; exact hi),
      List.getElem?_append_left (by rw [blockCells_length]; exact hi)]
  · rw [List.getElem?_append_right (by rw [blockCells_length]; omega), blockCells_length]
    have hc : c.cells[i]? = (mkCells c.nextKey none cur)[i - total bs]? := by
      rw [h.cells, List.getElem?_append_right (by rw [blockCells_length]; omega), blockCells_length]
    by_cases hin : i < c.cells.length
    · have hmem : c.cellAt i ∈ mkCells c.nextKey none cur := by
        rw [cellAt_eq hin]
        apply List.mem_of_getElem? (i := i - total bs)
        rw [← hc]
        exact List.getElem?_eq_getElem hin
      rw [if_pos ⟨by rw [List.mem_range'_1]; omega, by rw [hk]; exact (mem_mkCells hmem).1⟩, hc, ← mkCells_set, List.getElem?_map]
    · rw [if_neg (fun hx => by have := hx.1; rw [List.mem_range'_1] at this; omega)]
      rw [List.getElem?_eq_none (by omega), List.getElem?_eq_none (by rw [mkCells_length]; omega)]

/-! ### The operations -/

/-- The rows in the buffer, as tensors. -/
theorem Inv.concat {c : Chunker} {bs : List Block} {cur : List Row} {d : Nat} (h : Inv c bs cur d) (hne : cur ≠ []) :
    Tensor.concat c.buffer = .ok (Tensor.stack c.dtype c.shape (cur.map Row.tensor)) := by
  rw [h.buffer]
  have := Tensor.concat_batch (d := c.dtype) (s := c.shape) (ts := cur.map Row.tensor)
    (fun t ht => by obtain ⟨r, hr, rfl⟩ := List.mem_map.mp ht; exact h.tensors r hr) (by simpa using hne)
  rw [List.map_map] at this
  exact this

theorem Inv.flush {c : Chunker} {bs : List Block} {cur : List Row} {d : Nat} (h : Inv c bs cur d) (hne : cur ≠ []) :
    ∃ ch, c.flush = ({ c with
      cells := c.notify ch
      buffer := []
      drawn := c.drawn + 1
      offset := 0 }, .ok ()) ∧ GoodChunk c.dtype c.shape c.nextKey cur ch ∧ Inv c.flush.1 (bs ++ [⟨cur, some ch⟩]) [] d := by
  have hbuf : c.buffer ≠ [] := by rw [h.buffer]; simpa using hne
  have hten : ∀ t ∈ cur.map Row.tensor, Tensor.Is c.dtype c.shape t := fun t ht => by
    obtain ⟨r, hr, rfl⟩ := List.mem_map.mp ht
    exact h.tensors r hr
  have hneT : cur.map Row.tensor ≠ [] := by simpa using hne
  obtain ⟨data, hdata, hdec⟩ : ∃ data, (if c.opts.delta then
      (Tensor.stack c.dtype c.shape (cur.map Row.tensor)).deltaEncode true
      else .ok (Tensor.stack c.dtype c.shape (cur.map Row.tensor))) = .ok data ∧
      (if c.opts.delta then data.deltaEncode false else .ok data) = .ok (Tensor.stack c.dtype c.shape (cur.map Row.tensor)) := by
    cases c.opts.delta with
    | false => exact ⟨_, rfl, rfl⟩
    | true =>
      obtain ⟨e, h1, h2⟩ := Tensor.delta_stack hten hneT
      exact ⟨e, by simpa using h1, by simpa using h2⟩
  obtain ⟨r0, rest, hcur⟩ : ∃ r0 rest, cur = r0 :: rest := by
    cases cur with
    | nil => exact absurd rfl hne
    | cons a l => exact ⟨a, l, rfl⟩
  obtain ⟨sp, hr, _⟩ := rangeOf_rows (key := c.nextKey) hcur h.ordered
  let range : Option SeqRange := some ⟨r0.episode, r0.step, (cur.getLast?.map Row.step).getD 0, sp⟩
  let ch : ChunkData := ⟨c.nextKey, range, [data], c.opts.delta⟩
  have hgood : GoodChunk c.dtype c.shape c.nextKey cur ch := by
    refine ⟨rfl, ⟨?_, hten⟩, h.ordered, hr, hne, rfl⟩
    simp only [unpackChunkColumn, ch, List.length_singleton]
    rw [if_neg (by omega)]
    simpa using hdec
  have hflush : c.flush = ({ c with
      cells := c.notify ch
      buffer := []
      drawn := c.drawn + 1
      offset := 0 }, .ok ()) := by
    unfold Chunker.flush
    rw [if_neg hbuf, h.concat hne]
    simp only [hdata, h.filter, hr]
    rfl
  refine ⟨ch, hflush, hgood, ?_⟩
  rw [hflush]
  have hnot := h.notify (ch := ch) rfl
  have hlen : (c.notify ch).length = c.cells.length := by
    rw [hnot, h.cells]
    simp [mkCells_length]
  refine {
    opts := h.opts
    keys := h.keys
    drawn := by simp [h.drawn]
    cells := ?_
    buffer := rfl
    offset := rfl
    tensors := by simp
    ordered := .nil
    active := by simp only; rw [hlen, h.active]
    dle := by rw [total_append]; have := h.dle; omega
    good := ?_
    lost := ?_ }
  · simp only [hnot, blockCells_append, Nat.zero_add, h.drawn, blockCells, List.append_nil, mkCells, List.mapIdx_nil]
    rfl
  · intro j b ch' hj hc
    by_cases hlt : j < bs.length
    · rw [List.getElem?_append_left hlt] at hj
      exact (h.good j b ch' hj hc)
    · rw [List.getElem?_append_right (by omega)] at hj
      have hj0 : j - bs.length = 0 := by
        have := (List.getElem?_eq_some_iff.mp hj).1
        simp at this
        omega
      rw [hj0] at hj
      simp only [List.getElem?_cons_zero, Option.some.injEq] at hj
      subst hj
      simp only [Option.some.injEq] at hc
      subst hc
      have : j = c.drawn := by have := h.drawn; omega
      subst this
      exact hgood
  · intro j b hj hc
    by_cases hlt : j < bs.length
    · rw [List.getElem?_append_left hlt] at hj
      rw [List.take_append_of_le_length (by omega)]
      exact h.lost j b hj hc
    · rw [List.getElem?_append_right (by omega)] at hj
      have := (List.getElem?_eq_some_iff.mp hj).1
      simp only [List.length_singleton] at this
      rw [show j - bs.length = 0 by omega] at hj
      simp only [List.getElem?_cons_zero, Option.some.injEq] at hj
      subst hj
      simp at hc

/-- Fewer active references. -/
theorem Inv.trim {c : Chunker} {bs : List Block} {cur : List Row} {d : Nat} (h : Inv c bs cur d) (hr : (cur.length : Int) ≤ c.opts.keep) :
    Inv c.trim bs cur (max d (c.cells.length - c.opts.keep.toNat)) := by
  have hlen : c.cells.length = total bs + cur.length := by
    rw [h.cells, List.length_append, blockCells_length, mkCells_length]
  have hd := h.dle
  refine {
    opts := h.opts
    keys := h.keys
    drawn := h.drawn
    cells := h.cells
    buffer := h.buffer
    offset := h.offset
    tensors := h.tensors
    ordered := h.ordered
    active := ?_
    dle := by have := h.opts.pos; have := h.opts.le; omega
    good := fun j b ch hj hc => (h.good j b ch hj hc)
    lost := fun j b hj hc => by have := h.lost j b hj hc; omega }
  show c.active.drop (c.active.length - c.opts.keep.toNat) = _
  rw [h.active, List.length_range', List.drop_range']
  have e1 : d + (c.cells.length - d - c.opts.keep.toNat) * 1 = max d (c.cells.length - c.opts.keep.toNat) := by omega
  have e2 : c.cells.length - d - (c.cells.length - d - c.opts.keep.toNat) =
      c.cells.length - max d (c.cells.length - c.opts.keep.toNat) := by omega
  rw [e1, e2]
  rfl

/-- A row more, before the buffer is looked at. -/
theorem Inv.push {c : Chunker} {bs : List Block} {cur : List Row} {d : Nat} (h : Inv c bs cur d) {r : Row}
    (ht : Tensor.Is c.dtype c.shape r.tensor) (ho : Ordered (cur ++ [r])) :
    Inv (c.pushRow r.tensor r.episode r.step) bs (cur ++ [r]) d := by
  have hlen : c.cells.length = total bs + cur.length := by
    rw [h.cells, List.length_append, blockCells_length, mkCells_length]
  have hd := h.dle
  refine {
    opts := h.opts
    keys := h.keys
    drawn := h.drawn
    cells := ?_
    buffer := by simp [pushRow, h.buffer]
    offset := by simp [pushRow, h.offset]
    tensors := ?_
    ordered := ho
    active := ?_
    dle := h.dle
    good := fun j b ch hj hc => (h.good j b ch hj hc)
    lost := h.lost }
  · simp only [pushRow, h.cells, mkCells, List.mapIdx_append, List.mapIdx_cons, List.mapIdx_nil, h.offset, List.append_assoc,
      Nat.zero_add]
    rfl
  · intro x hx
    rcases List.mem_append.mp hx with hx | hx
    · exact h.tensors x hx
    · rw [List.mem_singleton] at hx
      subst hx
      exact ht
  · simp only [pushRow, List.length_append, List.length_singleton]
    rw [h.active, show c.cells.length + 1 - d = (c.cells.length - d) + 1 by omega, List.range'_concat]
    congr 2
    omega

theorem Inv.resetInv {c : Chunker} {bs : List Block} {cur : List Row} {d : Nat} (h : Inv c bs cur d) :
    Inv c.reset (bs ++ [⟨cur, none⟩]) [] c.cells.length := by
  have hlen : c.cells.length = total bs + cur.length := by
    rw [h.cells, List.length_append, blockCells_length, mkCells_length]
  have htot : total (bs ++ [⟨cur, none⟩]) = c.cells.length := by rw [total_append, hlen]; simp [total]
  refine {
    opts := h.opts
    keys := h.keys
    drawn := by simp [h.drawn, reset]
    cells := ?_
    buffer := rfl
    offset := rfl
    tensors := by simp
    ordered := .nil
    active := by simp [reset]
    dle := by rw [htot]; exact Nat.le_refl _
    good := ?_
    lost := ?_ }
  · show c.cells = _
    rw [h.cells, blockCells_append, Nat.zero_add, h.drawn]
    simp [blockCells, mkCells, reset, nextKey]
  · intro j b ch hj hc
    by_cases hlt : j < bs.length
    · rw [List.getElem?_append_left hlt] at hj
      exact (h.good j b ch hj hc)
    · rw [List.getElem?_append_right (by omega)] at hj
      have := (List.getElem?_eq_some_iff.mp hj).1
      simp only [List.length_singleton] at this
      rw [show j - bs.length = 0 by omega] at hj
      simp only [List.getElem?_cons_zero, Option.some.injEq] at hj
      subst hj
      simp at hc
  · intro j b _ _
    rw [← htot]
    exact total_take_le _ _

theorem Inv.len {c : Chunker} {bs : List Block} {cur : List Row} {d : Nat} (h : Inv c bs cur d) :
    c.cells.length = total bs + cur.length := by
  rw [h.cells, List.length_append, blockCells_length, mkCells_length]

theorem Inv.last {c : Chunker} {bs : List Block} {cur : List Row} {d : Nat} (h : Inv c bs cur d) {l : List Row} {r : Row}
    (hc : cur = l ++ [r]) : c.active.getLast? = some (c.cells.length - 1) ∧
      (c.cellAt (c.cells.length - 1)).episode = r.episode ∧ (c.cellAt (c.cells.length - 1)).step = r.step := by
  have hlen := h.len
  have hd := h.dle
  have hl : cur.length = l.length + 1 := by simp [hc]
  constructor
  · rw [h.active, show c.cells.length - d = (c.cells.length - d - 1) + 1 by omega, List.range'_concat, List.getLast?_concat]
    congr 1
    omega
  · rw [cellAt_eq (by omega)]
    have he : c.cells[c.cells.length - 1]'(by omega) = ⟨c.nextKey, l.length, r.episode, r.step, none⟩ := by
      apply Option.some.inj
      rw [← List.getElem?_eq_getElem, h.cells, List.getElem?_append_right (by rw [← h.cells, blockCells_length]; omega)]
      rw [← h.cells, blockCells_length, show c.cells.length - 1 - total bs = l.length by omega, hc]
      simp [mkCells]
    rw [he]
    exact ⟨rfl, rfl⟩

/-- The rows in all blocks. -/
def allRows (bs : List Block) (cur : List Row) : List Row := bs.flatMap Block.rows ++ cur

/-- The effect of a call on the ghost state. -/
structure StepOK (c c' : Chunker) (bs bs' : List Block) (cur cur' : List Row) (d d' : Nat) (op : Op) (out : Res (Option Nat)) : Prop where
  inv : Inv c' bs' cur' d'
  room : (cur'.length : Int) < c'.opts.keep
  rows : allRows bs' cur' = allRows bs cur ++ op.accepted out
  dtype : c'.dtype = c.dtype
  shape : c'.shape = c.shape
  keyGen : c'.keyGen = c.keyGen
  grow : ∃ new, bs' = bs ++ new ∧ (op.isReset = false → ∀ b ∈ new, b.chunk ≠ none)
  dropped : op.isReset = false → d' ≤ max d (c'.cells.length - c'.opts.keep.toNat)
  lens : ∀ b ∈ bs', b ∈ bs ∨ b.rows.length ≤ cur.length + 1
  curLen : (cur'.length : Int) < c'.opts.maxLen ∨ cur'.length ≤ cur.length
  alive : out ≠ .died
  ref : ∀ i, out = .ok (some i) → i = c.cells.length ∧ ∃ r, op.accepted out = [r]

theorem StepOK.refl {c : Chunker} {bs : List Block} {cur : List Row} {d : Nat} (h : Inv c bs cur d) (hr : (cur.length : Int) < c.opts.keep)
    {op : Op} {out : Res (Option Nat)} (ha : op.accepted out = []) (ho : out ≠ .died) (hs : ∀ i, out ≠ .ok (some i)) :
    StepOK c c bs bs cur cur d d op out :=
  ⟨h, hr, by simp [ha], rfl, rfl, rfl, ⟨[], by simp⟩, fun _ => by omega, fun b hb => .inl hb, .inr (Nat.le_refl _),
    ho, fun i hi => absurd hi (hs i)⟩

theorem append_ok {c : Chunker} {bs : List Block} {cur : List Row} {d : Nat} (h : Inv c bs cur d) (hr : (cur.length : Int) < c.opts.keep)
    {t : Tensor} {e : Key} {s : Int} (hwf : t.WF) (hd : t.dtype = c.dtype) (hs : t.shape = c.shape) (ho : Ordered (cur ++ [⟨t, e, s⟩])) :
    ∃ bs' cur' d', (c.append t e s).2 = .ok c.cells.length ∧
      StepOK c (c.append t e s).1 bs bs' cur cur' d d' (.append t e s) (.ok (some c.cells.length)) := by
  have hpush := h.push (r := ⟨t, e, s⟩) ⟨hwf, hd, hs⟩ ho
  unfold append
  rw [if_neg (by simpa using hd), if_neg (by simpa using hs)]
  have hrefused : c.refuses e s = .ok false := by
    unfold refuses
    by_cases hb : c.buffer = []
    · rw [if_pos hb]
    · rw [if_neg hb]
      have hc : cur ≠ [] := by rintro rfl; exact hb (by simp [h.buffer])
      obtain ⟨l, r, hlr⟩ : ∃ l r, cur = l ++ [r] := ⟨cur.dropLast, cur.getLast hc, (List.dropLast_concat_getLast hc).symm⟩
      obtain ⟨h1, h2, h3⟩ := h.last hlr
      have ho' := (List.pairwise_append.mp ho).2.2 r (by simp [hlr]) ⟨t, e, s⟩ (by simp)
      simp only [h1, h2, h3]
      simp only [ho'.1, ne_eq, not_true_eq_false, decide_false, Bool.false_or, Res.ok.injEq, decide_eq_false_iff_not]
      have := ho'.2
      simp only at this
      omega
  simp only [hrefused]
  simp only at hpush
  generalize hc1 : c.pushRow t e s = c1 at hpush ⊢
  have hc1' : c1.dtype = c.dtype ∧ c1.shape = c.shape ∧ c1.keyGen = c.keyGen ∧ c1.opts = c.opts ∧ c1.cells.length = c.cells.length + 1 := by
    subst hc1
    simp [pushRow]
  have hbl : c1.buffer.length = cur.length + 1 := by rw [hpush.buffer]; simp
  have hpos := h.opts.pos
  have hle := h.opts.le
  by_cases hm : c1.opts.maxLen ≤ c1.buffer.length
  · obtain ⟨ch, hf, hg, hinv⟩ := hpush.flush (by simp)
    have hfull : c1.flushIfFull = c1.flush := if_pos hm
    rw [hfull]
    rw [hf] at hinv ⊢
    simp only at hinv ⊢
    have hlen : (c1.notify ch).length = c1.cells.length := by
      have := hinv.len
      simp only at this
      rw [this, hpush.len, total_append]
      simp [total]
    refine ⟨bs ++ [⟨cur ++ [⟨t, e, s⟩], some ch⟩], [], max d ((c1.notify ch).length - c1.opts.keep.toNat), trivial, ?_⟩
    refine {
      inv := hinv.trim (by simp only [List.length_nil, hc1'.2.2.2.1]; omega)
      room := by simp only [List.length_nil, trim, hc1'.2.2.2.1]; omega
      rows := by simp [allRows, Op.accepted]
      dtype := hc1'.1
      shape := hc1'.2.1
      keyGen := hc1'.2.2.1
      grow := ⟨[⟨cur ++ [⟨t, e, s⟩], some ch⟩], rfl, by simp⟩
      dropped := fun _ => Nat.le_refl _
      lens := by
        intro b hb
        rcases List.mem_append.mp hb with hb | hb
        · exact .inl hb
        · rw [List.mem_singleton] at hb
          subst hb
          exact .inr (by simp)
      curLen := .inr (by simp)
      alive := by simp
      ref := fun i hi => by simp only [Res.ok.injEq, Option.some.injEq] at hi; exact ⟨hi.symm, _, rfl⟩ }
  · have hfull : c1.flushIfFull = (c1, .ok ()) := if_neg hm
    rw [hfull]
    simp only
    refine ⟨bs, cur ++ [⟨t, e, s⟩], max d (c1.cells.length - c1.opts.keep.toNat), trivial, ?_⟩
    rw [hbl] at hm
    rw [hc1'.2.2.2.1] at hm
    refine {
      inv := hpush.trim (by simp only [List.length_append, List.length_singleton, hc1'.2.2.2.1]; omega)
      room := by simp only [List.length_append, List.length_singleton, trim, hc1'.2.2.2.1]; omega
      rows := by simp [allRows, Op.accepted]
      dtype := hc1'.1
      shape := hc1'.2.1
      keyGen := hc1'.2.2.1
      grow := ⟨[], by simp⟩
      dropped := fun _ => Nat.le_refl _
      lens := fun b hb => .inl hb
      curLen := .inl (by simp only [List.length_append, List.length_singleton, trim, hc1'.2.2.2.1]; omega)
      alive := by simp
      ref := fun i hi => by simp only [Res.ok.injEq, Option.some.injEq] at hi; exact ⟨hi.symm, _, rfl⟩ }

/-- When `Append` refuses. -/
theorem append_err {c : Chunker} {bs : List Block} {cur : List Row} {d : Nat} (h : Inv c bs cur d)
    {t : Tensor} {e : Key} {s : Int} (hbad : ¬ (t.dtype = c.dtype ∧ t.shape = c.shape ∧ ∀ r, cur.getLast? = some r → r.episode = e ∧ r.step < s)) :
    ∃ code, c.append t e s = (c, .err code) := by
  unfold append
  by_cases hd : t.dtype = c.dtype
  · by_cases hs : t.shape = c.shape
    · rw [if_neg (by simpa using hd), if_neg (by simpa using hs)]
      simp only [hd, hs, true_and, Classical.not_forall] at hbad
      obtain ⟨r, hr, hbad⟩ := hbad
      obtain ⟨l, hlr⟩ := List.getLast?_eq_some_iff.mp hr
      obtain ⟨h1, h2, h3⟩ := h.last hlr
      have hb : c.buffer ≠ [] := by rw [h.buffer, hlr]; simp
      have href : c.refuses e s = .ok (decide (r.episode ≠ e) || decide (s ≤ r.step)) := by
        simp only [refuses, hb, if_false, h1, h2, h3]
      have : (decide (r.episode ≠ e) || decide (s ≤ r.step)) = true := by
        simp only [Bool.or_eq_true, decide_eq_true_eq]
        by_cases he : r.episode = e
        · exact Or.inr (Int.not_lt.mp fun hlt => hbad ⟨he, hlt⟩)
        · exact Or.inl he
      rw [href, this]
      exact ⟨_, rfl⟩
    · rw [if_neg (by simpa using hd), if_pos hs]
      exact ⟨_, rfl⟩
  · rw [if_pos hd]
    exact ⟨_, rfl⟩

theorem ordered_snoc {cur : List Row} (h : Ordered cur) {r : Row} :
    Ordered (cur ++ [r]) ↔ ∀ x, cur.getLast? = some x → x.episode = r.episode ∧ x.step < r.step := by
  constructor
  · intro ho x hx
    obtain ⟨l, rfl⟩ := List.getLast?_eq_some_iff.mp hx
    exact (List.pairwise_append.mp ho).2.2 x (by simp) r (by simp)
  · intro hx
    refine List.pairwise_append.mpr ⟨h, by simp, fun a ha b hb => ?_⟩
    rw [List.mem_singleton] at hb
    subst hb
    have hc : cur ≠ [] := List.ne_nil_of_mem ha
    have hl := hx _ (List.getLast?_eq_some_getLast hc)
    have hcur := (List.dropLast_concat_getLast hc).symm
    rw [hcur] at ha h
    rcases List.mem_append.mp ha with ha | ha
    · have := (List.pairwise_append.mp h).2.2 a ha (cur.getLast hc) (by simp)
      exact ⟨this.1.trans hl.1, by omega⟩
    · rw [List.mem_singleton] at ha
      subst ha
      exact hl

theorem step_ok {c : Chunker} {bs : List Block} {cur : List Row} {d : Nat} (h : Inv c bs cur d) (hr : (cur.length : Int) < c.opts.keep)
    {op : Op} (hv : op.Valid) : ∃ bs' cur' d', StepOK c (c.step op).1 bs bs' cur cur' d d' op (c.step op).2 := by
  cases op with
  | append t e s =>
    by_cases hgood : t.dtype = c.dtype ∧ t.shape = c.shape ∧ ∀ r, cur.getLast? = some r → r.episode = e ∧ r.step < s
    · obtain ⟨bs', cur', d', h1, h2⟩ := append_ok h hr hv hgood.1 hgood.2.1 ((ordered_snoc h.ordered).mpr hgood.2.2)
      have he : c.append t e s = ((c.append t e s).1, .ok c.cells.length) := Prod.ext rfl h1
      refine ⟨bs', cur', d', ?_⟩
      simp only [step]
      rw [he]
      exact h2
    · obtain ⟨code, he⟩ := append_err h hgood
      refine ⟨bs, cur, d, ?_⟩
      simp only [step, he]
      exact .refl h hr rfl (by simp) (by simp)
  | flush =>
    by_cases hc : cur = []
    · have hb : c.buffer = [] := by rw [h.buffer, hc]; rfl
      refine ⟨bs, cur, d, ?_⟩
      simp only [step, Chunker.flush, if_pos hb, noRef]
      exact .refl h hr rfl (by simp) (by simp)
    · obtain ⟨ch, hf, hg, hinv⟩ := h.flush hc
      refine ⟨bs ++ [⟨cur, some ch⟩], [], d, ?_⟩
      have hpos := h.opts.pos
      have hle := h.opts.le
      refine {
        inv := hinv
        room := by simp only [step, hf, List.length_nil]; omega
        rows := by simp [allRows, Op.accepted]
        dtype := by simp only [step, hf]
        shape := by simp only [step, hf]
        keyGen := by simp only [step, hf]
        grow := ⟨_, rfl, by simp⟩
        dropped := fun _ => by omega
        lens := by
          intro b hb
          rcases List.mem_append.mp hb with hb | hb
          · exact .inl hb
          · rw [List.mem_singleton] at hb
            subst hb
            exact .inr (by simp)
        curLen := .inr (by simp)
        alive := by simp [step, hf, noRef]
        ref := by simp [step, hf, noRef] }
  | reset =>
    refine ⟨bs ++ [⟨cur, none⟩], [], c.cells.length, ?_⟩
    have hpos := h.opts.pos
    have hle := h.opts.le
    exact {
      inv := h.resetInv
      room := by simp only [step, Chunker.reset, List.length_nil]; omega
      rows := by simp [allRows, Op.accepted]
      dtype := rfl
      shape := rfl
      keyGen := rfl
      grow := ⟨_, rfl, by simp [Op.isReset]⟩
      dropped := by simp [Op.isReset]
      lens := by
        intro b hb
        rcases List.mem_append.mp hb with hb | hb
        · exact .inl hb
        · rw [List.mem_singleton] at hb
          subst hb
          exact .inr (by simp)
      curLen := .inr (by simp)
      alive := by simp [step]
      ref := by simp [step] }
  | configure o =>
    by_cases hb : c.buffer = []
    · cases hval : o.validate with
      | ok u =>
        have hcur : cur = [] := by
          have := h.buffer
          rw [hb] at this
          simpa using this.symm
        subst hcur
        have hgood := ChunkerOpts.good_of hval hv
        have hinv : Inv { c with opts := o } bs [] d :=
          ⟨hgood, h.keys, h.drawn, h.cells, h.buffer, h.offset, h.tensors, h.ordered, h.active, h.dle, h.good, h.lost⟩
        have hp := hgood.pos
        have hl := hgood.le
        have he : c.applyConfig o = ({ c with opts := o }.trim, .ok ()) := by
          simp [applyConfig, hb, hval]
        refine ⟨bs, [], max d (c.cells.length - o.keep.toNat), ?_⟩
        simp only [step, he]
        exact {
          inv := hinv.trim (by simp only [List.length_nil]; omega)
          room := by simp only [trim, List.length_nil]; omega
          rows := by simp [Op.accepted]
          dtype := rfl
          shape := rfl
          keyGen := rfl
          grow := ⟨[], by simp⟩
          dropped := fun _ => Nat.le_refl _
          lens := fun b hb => .inl hb
          curLen := .inr (by simp)
          alive := by simp [noRef]
          ref := by simp [noRef] }
      | err code =>
        have he : c.applyConfig o = (c, .err code) := by simp [applyConfig, hb, hval]
        refine ⟨bs, cur, d, ?_⟩
        simp only [step, he, noRef]
        exact .refl h hr rfl (by simp) (by simp)
      | died =>
        exfalso
        unfold ChunkerOpts.validate at hval
        split at hval
        · simp at hval
        · split at hval
          · simp at hval
          · split at hval <;> simp at hval
    · have he : c.applyConfig o = (c, .err .failedPrecondition) := by simp [applyConfig, hb]
      refine ⟨bs, cur, d, ?_⟩
      simp only [step, he, noRef]
      exact .refl h hr rfl (by simp) (by simp)
  | finalized refs =>
    by_cases hrefs : refs = []
    · have he : c.itemFinalized refs = (c, .ok ()) := by simp [itemFinalized, hrefs]
      refine ⟨bs, cur, d, ?_⟩
      simp only [step, he, noRef]
      exact .refl h hr rfl (by simp) (by simp)
    · obtain ⟨o', h1, h2, h3, _⟩ := ChunkerOpts.finalized_good h.opts hrefs
      have he : c.itemFinalized refs = ({ c with opts := o' }, .ok ()) := by simp [itemFinalized, hrefs, h1]
      refine ⟨bs, cur, d, ?_⟩
      simp only [step, he, noRef]
      exact {
        inv := ⟨h2, h.keys, h.drawn, h.cells, h.buffer, h.offset, h.tensors, h.ordered, h.active, h.dle, h.good, h.lost⟩
        room := by simp only [h3]; exact hr
        rows := by simp [Op.accepted]
        dtype := rfl
        shape := rfl
        keyGen := rfl
        grow := ⟨[], by simp⟩
        dropped := fun _ => by simp only; omega
        lens := fun b hb => .inl hb
        curLen := .inr (Nat.le_refl _)
        alive := by simp
        ref := by simp }

theorem Started.inv {c : Chunker} (h : c.Started) : Inv c [] [] 0 ∧ (([] : List Row).length : Int) < c.opts.keep := by
  have hg := ChunkerOpts.good_of h.opts h.fresh
  have hn := h.new
  unfold Chunker.new at hn
  rw [if_neg (by have := hg.le; omega)] at hn
  simp only [Res.ok.injEq] at hn
  have hp := hg.pos
  have hl := hg.le
  refine ⟨?_, by simp; omega⟩
  have e1 : c.drawn = 0 := by rw [← hn]
  have e2 : c.cells = [] := by rw [← hn]
  have e3 : c.buffer = [] := by rw [← hn]
  have e4 : c.offset = 0 := by rw [← hn]
  have e5 : c.active = [] := by rw [← hn]
  exact ⟨hg, h.keys, by simp [e1], by simp [e2, blockCells, mkCells], by simp [e3], by simp [e4], by simp, .nil, by simp [e5, e2],
    by simp, by simp, by simp⟩

/-- A sequence of calls. -/
theorem run_ok : ∀ {ops : List Op} {c : Chunker} {bs : List Block} {cur : List Row} {d : Nat}, Inv c bs cur d →
    (cur.length : Int) < c.opts.keep → (∀ op ∈ ops, op.Valid) →
    ∃ bs' cur' d', Inv (c.run ops) bs' cur' d' ∧ (cur'.length : Int) < (c.run ops).opts.keep ∧
      allRows bs' cur' = allRows bs cur ++ c.appended ops ∧ (c.run ops).dtype = c.dtype ∧ (c.run ops).shape = c.shape ∧
      (∃ new, bs' = bs ++ new ∧ ((∀ op ∈ ops, op.isReset = false) → ∀ b ∈ new, b.chunk ≠ none))
  | [], c, bs, cur, d, h, hr, _ => ⟨bs, cur, d, h, hr, by simp [appended], rfl, rfl, [], by simp⟩
  | op :: ops, c, bs, cur, d, h, hr, hv => by
    obtain ⟨bs1, cur1, d1, hs⟩ := step_ok h hr (hv op List.mem_cons_self)
    obtain ⟨bs2, cur2, d2, h1, h2, h3, h4, h5, new2, h6, h7⟩ :=
      run_ok hs.inv hs.room fun o ho => hv o (List.mem_cons_of_mem _ ho)
    obtain ⟨new1, g1, g2⟩ := hs.grow
    refine ⟨bs2, cur2, d2, h1, h2, ?_, h4.trans hs.dtype, h5.trans hs.shape, new1 ++ new2, ?_, ?_⟩
    · rw [h3, hs.rows]
      simp [appended]
    · rw [h6, g1]
      simp
    · intro hres b hb
      rcases List.mem_append.mp hb with hb | hb
      · exact g2 (hres op List.mem_cons_self) b hb
      · exact h7 (fun o ho => hres o (List.mem_cons_of_mem _ ho)) b hb

/-! ### Finding a row -/

theorem blockCells_at (gen : Nat → Key) : ∀ (bs : List Block) (k i : Nat), i < total bs →
    ∃ j b o, bs[j]? = some b ∧ ∃ ho : o < b.rows.length, i = total (bs.take j) + o ∧
      (blockCells gen k bs)[i]? = some ⟨gen (k + j), o, b.rows[o].episode, b.rows[o].step, b.chunk⟩ ∧
      (bs.flatMap Block.rows)[i]? = some b.rows[o]
  | [], _, _, h => by simp [total] at h
  | b :: bs, k, i, h => by
    by_cases hi : i < b.rows.length
    · refine ⟨0, b, i, rfl, hi, by simp [total], ?_, ?_⟩
      · rw [blockCells, List.getElem?_append_left (by rw [mkCells_length]; exact hi)]
        simp [mkCells, hi]
      · rw [List.flatMap_cons, List.getElem?_append_left hi, List.getElem?_eq_getElem hi]
    · have ht : total (b :: bs) = b.rows.length + total bs := by simp [total]
      obtain ⟨j, b', o, h1, h2, h3, h4, h5⟩ := blockCells_at gen bs (k + 1) (i - b.rows.length) (by omega)
      refine ⟨j + 1, b', o, h1, h2, ?_, ?_, ?_⟩
      · have : total ((b :: bs).take (j + 1)) = b.rows.length + total (bs.take j) := by simp [total]
        omega
      · rw [blockCells, List.getElem?_append_right (by rw [mkCells_length]; omega), mkCells_length, h4]
        rw [show k + (j + 1) = k + 1 + j by omega]
      · rw [List.flatMap_cons, List.getElem?_append_right (by omega), h5]

theorem allRows_length (bs : List Block) (cur : List Row) : (allRows bs cur).length = total bs + cur.length := by
  simp [allRows, total, List.length_flatMap]

/-- A row is in a finished block or in the buffer. -/
theorem Inv.locate {c : Chunker} {bs : List Block} {cur : List Row} {d : Nat} (h : Inv c bs cur d) {i : Nat} {r : Row}
    (hr : (allRows bs cur)[i]? = some r) :
    (∃ j b o, bs[j]? = some b ∧ b.rows[o]? = some r ∧ i = total (bs.take j) + o ∧
      c.cells[i]? = some ⟨c.keyGen j, o, r.episode, r.step, b.chunk⟩) ∨
    (∃ o, cur[o]? = some r ∧ i = total bs + o ∧ c.cells[i]? = some ⟨c.nextKey, o, r.episode, r.step, none⟩) := by
  have hlt := (List.getElem?_eq_some_iff.mp hr).1
  rw [allRows_length] at hlt
  have hfl : (bs.flatMap Block.rows).length = total bs := by simp [total, List.length_flatMap]
  by_cases hi : i < total bs
  · left
    obtain ⟨j, b, o, h1, h2, h3, h4, h5⟩ := blockCells_at c.keyGen bs 0 i hi
    rw [allRows, List.getElem?_append_left (by omega), h5] at hr
    simp only [Option.some.injEq] at hr
    refine ⟨j, b, o, h1, by rw [List.getElem?_eq_getElem h2, hr], h3, ?_⟩
    rw [h.cells, List.getElem?_append_left (by rw [blockCells_length]; exact hi), h4]
    simp [hr]
  · right
    rw [allRows, List.getElem?_append_right (by omega), hfl] at hr
    refine ⟨i - total bs, hr, by omega, ?_⟩
    rw [h.cells, List.getElem?_append_right (by rw [blockCells_length]; omega), blockCells_length]
    simp [mkCells, hr]

theorem cellAt_of {c : Chunker} {i : Nat} {x : Cell} (h : c.cells[i]? = some x) : c.cellAt i = x := by
  simp [cellAt, List.getD_eq_getElem?_getD, h]

theorem idxOf_range' (d n i : Nat) (h1 : d ≤ i) (h2 : i < d + n) : (List.range' d n).reverse.idxOf i = d + n - 1 - i := by
  have hlen : d + n - 1 - i < (List.range' d n).reverse.length := by simp; omega
  have hget : (List.range' d n).reverse[d + n - 1 - i] = i := by
    simp only [List.getElem_reverse, List.length_range', List.getElem_range', Nat.one_mul]
    omega
  have hnd : (List.range' d n).reverse.Nodup := (List.reverse_perm _).nodup_iff.mpr List.nodup_range'
  have := hnd.idxOf_getElem (d + n - 1 - i) hlen
  rw [hget] at this
  exact this

/-- The data of a row that is in the buffer or in a chunk. -/
theorem Inv.data {c : Chunker} {bs : List Block} {cur : List Row} {d : Nat} (h : Inv c bs cur d) {i : Nat} {r : Row}
    (hr : (allRows bs cur)[i]? = some r) (ha : i ∈ c.active ∨ (c.cellAt i).chunk ≠ none) : c.getData i = .ok r.tensor := by
  rcases h.locate hr with ⟨j, b, o, h1, h2, h3, h4⟩ | ⟨o, h1, h2, h3⟩
  · have hcell := cellAt_of h4
    have ho := (List.getElem?_eq_some_iff.mp h2).1
    cases hch : b.chunk with
    | none =>
      exfalso
      rw [hcell, hch] at ha
      simp only [ne_eq, not_true_eq_false, or_false] at ha
      rw [h.active, List.mem_range'_1] at ha
      have hlost := h.lost j b h1 hch
      have : total (bs.take (j + 1)) = total (bs.take j) + b.rows.length := by
        have hj := (List.getElem?_eq_some_iff.mp h1).1
        have hb := (List.getElem?_eq_some_iff.mp h1).2
        rw [List.take_succ_eq_append_getElem hj, total_append, hb]
        simp [total]
      omega
    | some ch =>
      have hg := h.good j b ch h1 hch
      unfold getData
      rw [hcell]
      simp only [hch, hg.holds.1]
      rw [Tensor.subSlice_stack hg.holds.2 (by simpa using ho)]
      have := (List.getElem?_eq_some_iff.mp h2).2
      simp [this]
  · have hcell := cellAt_of h3
    have ho := (List.getElem?_eq_some_iff.mp h1).1
    unfold getData
    rw [hcell]
    simp only
    rw [hcell] at ha
    simp only [ne_eq, not_true_eq_false, or_false] at ha
    have hlen := h.len
    have hd := h.dle
    rw [h.active, idxOf_range' _ _ _ (by omega) (by omega)]
    have hb : c.buffer.length = cur.length := by rw [h.buffer]; simp
    rw [if_neg (by omega)]
    have hidx : ((c.buffer.length : Int) - ((d + (c.cells.length - d) - 1 - i : Nat) : Int) - 1).toNat = o := by omega
    rw [hidx, h.buffer, List.getElem?_map, h1]
    simp only [Option.map_some, Res.ok.injEq]
    rfl

end Chunker
end Verif
