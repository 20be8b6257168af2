import Verif.Proofs.ChunkerHist
/-
C34: references and their data. C35: chunks. C36: auto-tuned chunk lengths.
-/
namespace Verif
namespace Chunker

/-! ### C34 -/

/-- A successful `Append` returns the number of rows appended before, whatever the calls before it. -/
theorem C34_ref {c : Chunker} (h : c.Started) {ops : List Op} (hv : ∀ op ∈ ops, op.Valid) {t : Tensor} (ht : t.WF) {e : Key} {s : Int}
    {out : Option Nat} (ha : ((c.run ops).step (.append t e s)).2 = .ok out) :
    out = some (c.appended ops).length ∧
      (c.appended (ops ++ [.append t e s]))[(c.appended ops).length]? = some ⟨t, e, s⟩ := by
  obtain ⟨bs, cur, d, h1, h2, h3, _, _⟩ := h.run hv
  obtain ⟨bs', cur', d', hs⟩ := step_ok h1 h2 (op := .append t e s) ht
  constructor
  · have : ∃ i, out = some i := by
      simp only [step] at ha
      rcases hx : (c.run ops).append t e s with ⟨c', _ | _ | _⟩ <;> rw [hx] at ha <;> simp at ha
      exact ⟨_, ha.symm⟩
    obtain ⟨i, rfl⟩ := this
    have := (hs.ref i ha).1
    rw [this, h1.len, ← allRows_length, h3]
  · rw [appended_append, List.getElem?_append_right (Nat.le_refl _), Nat.sub_self]
    simp [appended, ha, Op.accepted]

/-- **C34.** No call makes the process die, and a row's reference, as long as it is among the kept ones or its chunk was
finished, gives exactly the appended tensor. -/
theorem C34_data {c : Chunker} (h : c.Started) {ops : List Op} (hv : ∀ op ∈ ops, op.Valid) {i : Nat} {r : Row}
    (hr : (c.appended ops)[i]? = some r) (ha : i ∈ (c.run ops).active ∨ ((c.run ops).cellAt i).chunk ≠ none) :
    (c.run ops).getData i = .ok r.tensor := by
  obtain ⟨bs, cur, d, h1, _, h3, _, _⟩ := h.run hv
  exact h1.data (by rw [h3]; exact hr) ha

theorem C34_alive {c : Chunker} (h : c.Started) {ops : List Op} (hv : ∀ op ∈ ops, op.Valid) {op : Op} (ho : op.Valid) :
    ((c.run ops).step op).2 ≠ .died := by
  obtain ⟨bs, cur, d, h1, h2, _⟩ := h.run hv
  obtain ⟨bs', cur', d', hs⟩ := step_ok h1 h2 ho
  exact hs.alive

/-- `Append` succeeds exactly if type and shape are right and, while rows are buffered, the row continues the episode with a
larger step. -/
theorem C34_accepts {c : Chunker} (h : c.Started) {ops : List Op} (hv : ∀ op ∈ ops, op.Valid) {t : Tensor} (ht : t.WF) {e : Key} {s : Int} :
    (∃ i, ((c.run ops).step (.append t e s)).2 = .ok (some i)) ↔
      t.dtype = c.dtype ∧ t.shape = c.shape ∧
        ((c.run ops).buffer ≠ [] → ∀ r, (c.appended ops).getLast? = some r → r.episode = e ∧ r.step < s) := by
  obtain ⟨bs, cur, d, h1, h2, h3, hd, hs⟩ := h.run hv
  have hlast : (∀ r, cur.getLast? = some r → r.episode = e ∧ r.step < s) ↔
      ((c.run ops).buffer ≠ [] → ∀ r, (c.appended ops).getLast? = some r → r.episode = e ∧ r.step < s) := by
    rw [h1.buffer, ← h3, allRows, List.getLast?_append]
    cases hc : cur.getLast? with
    | none => simp [List.getLast?_eq_none_iff.mp hc]
    | some r =>
      have : cur ≠ [] := fun h => by simp [h] at hc
      simp [this]
  rw [← hlast, ← hd, ← hs]
  constructor
  · rintro ⟨i, hi⟩
    refine Classical.byContradiction fun hn => ?_
    obtain ⟨code, hx⟩ := append_err h1 hn
    simp [step, hx] at hi
  · rintro ⟨g1, g2, g3⟩
    obtain ⟨bs', cur', d', k1, _⟩ := append_ok h1 h2 ht g1 g2 ((ordered_snoc h1.ordered (r := ⟨t, e, s⟩)).mpr g3)
    refine ⟨(c.run ops).cells.length, ?_⟩
    have he : (c.run ops).append t e s = (((c.run ops).append t e s).1, .ok (c.run ops).cells.length) := Prod.ext rfl k1
    rw [step, he]

/-- **C34.** A reference is kept at least while fewer than `K` more rows are appended, if `num_keep_alive_refs` is always at
least `K`; then it gives the appended tensor. -/
theorem C34_kept {c : Chunker} (h : c.Started) {pre post : List Op} (hpre : ∀ op ∈ pre, op.Valid) (hpost : ∀ op ∈ post, op.Valid)
    (hreset : ∀ op ∈ post, op.isReset = false) {t : Tensor} (ht : t.WF) {e : Key} {s : Int} {i : Nat}
    (ha : ((c.run pre).step (.append t e s)).2 = .ok (some i)) {K : Nat}
    (hK : ∀ k, (K : Int) ≤ (c.run (pre ++ .append t e s :: post.take k)).opts.keep)
    (hn : ((c.run (pre ++ [.append t e s])).appended post).length < K) :
    i ∈ (c.run (pre ++ .append t e s :: post)).active ∧ (c.run (pre ++ .append t e s :: post)).getData i = .ok t := by
  obtain ⟨bs, cur, d, h1, h2, h3, _, _⟩ := h.run hpre
  obtain ⟨bs', cur', d', hs⟩ := step_ok h1 h2 (op := .append t e s) ht
  obtain ⟨hi, hrow⟩ := C34_ref h hpre ht ha
  simp only [Option.some.injEq] at hi
  have hsplit : ∀ l, c.run (pre ++ .append t e s :: l) = ((c.run pre).step (.append t e s)).1.run l := fun l => by
    rw [run_append, run_cons]
  have hlen : ((c.run pre).step (.append t e s)).1.cells.length = i + 1 := by
    have := congrArg List.length hs.rows
    rw [List.length_append, allRows_length, allRows_length] at this
    rw [hs.inv.len, this, ← allRows_length, h3, hi, ha]
    rfl
  have hone : c.run (pre ++ [.append t e s]) = ((c.run pre).step (.append t e s)).1 := by rw [hsplit]; rfl
  rw [hone] at hn
  have hK0 := hK 0
  rw [List.take_zero, hone] at hK0
  have hact : i ∈ ((c.run pre).step (.append t e s)).1.active := by
    rw [hs.inv.active_iff]
    have hd := hs.dropped rfl
    have hd0 := h1.dle
    have hl := h1.len
    have : (c.run pre).cells.length = i := by rw [hl, ← allRows_length, h3, hi]
    omega
  have hfin : i ∈ (c.run (pre ++ .append t e s :: post)).active := by
    rw [hsplit]
    exact stay_active (K := K) hs.inv hs.room hpost hreset (fun k => by rw [← hsplit]; exact hK k) hact (by omega)
  refine ⟨hfin, ?_⟩
  have hall : ∀ op ∈ pre ++ .append t e s :: post, op.Valid := by
    intro op hop
    rcases List.mem_append.mp hop with hop | hop
    · exact hpre op hop
    · rcases List.mem_cons.mp hop with rfl | hop
      · exact ht
      · exact hpost op hop
  refine C34_data h hall (r := ⟨t, e, s⟩) ?_ (.inl hfin)
  rw [show pre ++ .append t e s :: post = (pre ++ [.append t e s]) ++ post by simp, appended_append, List.getElem?_append_left, hi]
  · exact hrow
  · rw [hi]
    exact (List.getElem?_eq_some_iff.mp hrow).1

/-- **C34.** A reference that is kept by its holder goes on giving the appended tensor, unless the writer is `Reset` before its
chunk is finished. -/
theorem C34_held {c : Chunker} (h : c.Started) {pre post : List Op} (hpre : ∀ op ∈ pre, op.Valid) (hpost : ∀ op ∈ post, op.Valid)
    (hreset : ∀ op ∈ post, op.isReset = false) {i : Nat} {r : Row} (hr : (c.appended pre)[i]? = some r)
    (ha : i ∈ (c.run pre).active ∨ ((c.run pre).cellAt i).chunk ≠ none) :
    (c.run (pre ++ post)).getData i = .ok r.tensor := by
  obtain ⟨bs, cur, d, h1, h2, h3, _, _⟩ := h.run hpre
  refine C34_data h (fun op hop => (List.mem_append.mp hop).elim (hpre op) (hpost op)) (r := r) ?_ ?_
  · rw [appended_append, List.getElem?_append_left (List.getElem?_eq_some_iff.mp hr).1]
    exact hr
  · rw [run_append]
    exact stay_ready h1 h2 hpost hreset (by rw [h3]; exact hr) ha

/-- **C34.** The chunk and the offset that a reference names contain the appended tensor. -/
theorem C34_chunk {c : Chunker} (h : c.Started) {ops : List Op} (hv : ∀ op ∈ ops, op.Valid) {i : Nat} {r : Row}
    (hr : (c.appended ops)[i]? = some r) {ch : ChunkData} (hch : ((c.run ops).cellAt i).chunk = some ch) :
    ch.key = ((c.run ops).cellAt i).key ∧
      unpackChunkColumnAndSlice ch 0 ((c.run ops).cellAt i).offset 1 = .ok r.tensor.addBatchDim := by
  obtain ⟨bs, cur, d, h1, _, h3, hd, hs⟩ := h.run hv
  rcases h1.locate (by rw [h3]; exact hr) with ⟨j, b, o, g1, g2, g3, g4⟩ | ⟨o, g1, g2, g3⟩
  · rw [cellAt_of g4] at hch ⊢
    have hg := h1.good j b ch g1 hch
    refine ⟨hg.keyEq, ?_⟩
    have ho := (List.getElem?_eq_some_iff.mp g2).1
    have hsl := hg.holds.slice (off := o) (len := 1) (by rw [List.length_map]; exact ho)
    simp only
    rw [show ((1 : Nat) : Int) = 1 from rfl] at hsl
    rw [hsl]
    have hmem : r ∈ b.rows := List.mem_of_getElem? g2
    have hlist : ((b.rows.map Row.tensor).drop o).take 1 = [r.tensor] := by
      rw [List.drop_eq_getElem_cons (by simpa using ho)]
      simp [(List.getElem?_eq_some_iff.mp g2).2]
    rw [hlist]
    have his := hg.holds.2 r.tensor (List.mem_map_of_mem hmem)
    simp [Tensor.stack, Tensor.addBatchDim, his.2.1, his.2.2]
  · rw [cellAt_of g3] at hch
    simp at hch

/-- **C34.** What a reference names never changes: key, offset, episode and step. -/
theorem C34_fixed (c : Chunker) (ops : List Op) {i : Nat} {x : Cell} (h : c.cells[i]? = some x) :
    ∃ x', (c.run ops).cells[i]? = some x' ∧ x'.key = x.key ∧ x'.offset = x.offset ∧ x'.episode = x.episode ∧ x'.step = x.step := by
  induction ops generalizing c x with
  | nil => exact ⟨x, h, rfl, rfl, rfl, rfl⟩
  | cons op ops ih =>
    obtain ⟨x1, h1, h2⟩ := step_fixed c op i h
    obtain ⟨x2, g1, g2, g3, g4, g5⟩ := ih _ h1
    simp only [ident, Prod.mk.injEq] at h2
    exact ⟨x2, g1, g2.trans h2.1, g3.trans h2.2.1, g4.trans h2.2.2.1, g5.trans h2.2.2.2⟩

/-! ### C35 -/

/-- **C35.** Every finished chunk is made of a stretch of the appended rows, its references are the ones of these rows, at the
offsets 0, 1, 2, …, and its range describes them. -/
theorem C35_partial {c : Chunker} (h : c.Started) {ops : List Op} (hv : ∀ op ∈ ops, op.Valid) {cell : Cell}
    (hc : cell ∈ (c.run ops).cells) {ch : ChunkData} (hch : cell.chunk = some ch) :
    ∃ pre rows post, c.appended ops = pre ++ rows ++ post ∧ ch.MadeOf c.dtype c.shape rows ∧
      ((c.run ops).cellsOf ch).map (fun x => (x.offset, x.episode, x.step, x.chunk)) =
        rows.mapIdx (fun o r => (o, r.episode, r.step, some ch)) := by
  obtain ⟨bs, cur, d, h1, _, h3, hd, hs⟩ := h.run hv
  rw [h1.cells] at hc
  rcases List.mem_append.mp hc with hc | hc
  · obtain ⟨j, b, g1, g2⟩ := mem_blockCells hc
    have hb := (mem_mkCells g2).2.symm.trans hch
    have hg := h1.good j b ch g1 hb
    obtain ⟨pre, post, hpp⟩ := take_flatMap bs j b g1
    refine ⟨pre, b.rows, post ++ cur, ?_, ?_, ?_⟩
    · rw [← h3, allRows, hpp]
      simp
    · rw [← hd, ← hs]
      exact madeOf hg
    · rw [h1.cellsOf g1 hg.keyEq, hb]
      apply List.ext_getElem?
      intro i
      simp only [mkCells, List.getElem?_map, List.getElem?_mapIdx]
      cases b.rows[i]? <;> rfl
  · rw [(mem_mkCells hc).2] at hch
    simp at hch

/-- **C35.** Chunks are not longer than the largest `max_chunk_length` that was in force. -/
theorem C35_length_partial {c : Chunker} (h : c.Started) {ops : List Op} (hv : ∀ op ∈ ops, op.Valid) {B : Nat}
    (hB : ∀ k, (c.run (ops.take k)).opts.maxLen ≤ B) {cell : Cell} (hc : cell ∈ (c.run ops).cells) {ch : ChunkData}
    (hch : cell.chunk = some ch) : ((c.run ops).cellsOf ch).length ≤ B := by
  obtain ⟨h1, h2⟩ := h.inv
  have hpos := h1.opts.pos
  have h0 : c.opts.maxLen ≤ B := hB 0
  obtain ⟨bs, cur, d, g1, _, g3⟩ := run_lens (B := B) h1 h2 hv hB (by simp) (by simp; omega)
  rw [g1.cells] at hc
  rcases List.mem_append.mp hc with hc | hc
  · obtain ⟨j, b, k1, k2⟩ := mem_blockCells hc
    have hb := (mem_mkCells k2).2.symm.trans hch
    have hg := g1.good j b ch k1 hb
    rw [g1.cellsOf k1 hg.keyEq, mkCells_length]
    exact g3 b (List.mem_of_getElem? k1)
  · rw [(mem_mkCells hc).2] at hch
    simp at hch

/-- **C35.** With constant options no chunk is longer than `max_chunk_length`. -/
theorem C35_length_constant {c : Chunker} (h : c.Started) {ops : List Op} (hv : ∀ op ∈ ops, op.Valid) {B : Nat}
    (hc0 : ConstantLe B c.opts) (hcfg : ∀ o, Op.configure o ∈ ops → ConstantLe B o) {cell : Cell} (hc : cell ∈ (c.run ops).cells)
    {ch : ChunkData} (hch : cell.chunk = some ch) : ((c.run ops).cellsOf ch).length ≤ B :=
  C35_length_partial h hv (fun k => by
    obtain ⟨m, k', d, h1, h2⟩ := run_constant (ops := ops.take k) hc0 fun o hm => hcfg o (List.mem_of_mem_take hm)
    rw [h1]
    exact h2) hc hch

/-! A chunker of scalars with chunks of two rows and three references. -/
namespace ChunkDemo

def row (n : Nat) : Tensor := ⟨.int32, [], [n]⟩

def chunker (o : ChunkerOpts) : Chunker := ⟨.int32, [], o, fun i => 100 + i, 0, [], 0, [], []⟩

theorem started {o : ChunkerOpts} (h : o.validate = .ok ()) (hf : Op.Valid (.configure o)) : (chunker o).Started := by
  refine ⟨h, hf, fun i j hij => Nat.add_left_cancel hij, ?_⟩
  have := (ChunkerOpts.good_of h hf).le
  rw [Chunker.new, if_neg (by simp only [chunker]; omega)]
  rfl

theorem row_wf (n : Nat) (h : n < 2 ^ 32) : (row n).WF :=
  ⟨rfl, fun w hw x hx => by simp [row, DType.bits] at hw hx; subst hw hx; exact h⟩

def opts : ChunkerOpts := .constant 2 3 true

def ops : List Op := [.append (row 5) 7 0, .append (row 9) 7 2, .append (row 4) 7 3, .flush, .append (row 8) 8 0, .append (row 1) 9 0,
  .append (row 2) 8 5]

theorem ops_valid : ∀ op ∈ ops, op.Valid := by
  intro op hop
  simp only [ops, List.mem_cons, List.not_mem_nil, or_false] at hop
  rcases hop with rfl | rfl | rfl | rfl | rfl | rfl | rfl <;> first | exact row_wf _ (by decide) | trivial

example : (chunker opts).Started := started (by decide) trivial

/-- Rows with a gap, a shorter chunk, a row of another episode that is refused; delta encoding. -/
example : (chunker opts).appended ops = [⟨row 5, 7, 0⟩, ⟨row 9, 7, 2⟩, ⟨row 4, 7, 3⟩, ⟨row 8, 8, 0⟩, ⟨row 2, 8, 5⟩] ∧
    ((chunker opts).run ops).active = [2, 3, 4] ∧
    ((chunker opts).run ops).cells.map (fun x => (x.key, x.offset)) = [(100, 0), (100, 1), (101, 0), (102, 0), (102, 1)] ∧
    ((chunker opts).run ops).cells.map (fun x => x.chunk.bind ChunkData.range) =
      [some ⟨7, 0, 2, true⟩, some ⟨7, 0, 2, true⟩, some ⟨7, 3, 3, false⟩, some ⟨8, 0, 5, true⟩, some ⟨8, 0, 5, true⟩] ∧
    ((chunker opts).run ops).getData 1 = .ok (row 9) := by decide

/-- The hypotheses of `C34_kept` with two appends in between. -/
example : ((chunker opts).step (.append (row 5) 7 0)).2 = .ok (some 0) ∧
    (((chunker opts).run [.append (row 5) 7 0]).appended [.append (row 9) 7 2, .flush, .append (row 4) 7 3]).length < 3 := by decide

/-! Auto-tuned options. -/

def auto : ChunkerOpts := .auto (.new 8 1 false)

/-- An item of five chunks of the given length and size. -/
def item (length bytes : Nat) : List ChunkObs := (List.range 5).map fun k => ⟨1000 * length + k, length, bytes⟩

/-- Ten items are observed with chunks of one row, two rows are appended, ten items are observed with larger chunks of three rows, and one
more row is appended. -/
def shrink : List Op := List.replicate 10 (.finalized (item 1 10)) ++ [.append (row 1) 7 0, .append (row 2) 7 1] ++
  List.replicate 10 (.finalized (item 3 300)) ++ [.append (row 3) 7 2]

theorem shrink_valid : ∀ op ∈ shrink, op.Valid := by
  intro op hop
  simp only [shrink, List.mem_append, List.mem_replicate, List.mem_cons, List.not_mem_nil, or_false] at hop
  rcases hop with ((⟨_, rfl⟩ | rfl | rfl) | ⟨_, rfl⟩) | rfl
  · trivial
  · exact row_wf _ (by decide)
  · exact row_wf _ (by decide)
  · trivial
  · exact row_wf _ (by decide)

end ChunkDemo

/-- **C35 fails for auto-tuned options**: when the chunk length is lowered while rows are buffered, the next chunk is longer than
the maximal length in force, before and after the `Append` that finishes it. -/
theorem C35_autotuned : (ChunkDemo.chunker ChunkDemo.auto).Started ∧ (∀ op ∈ ChunkDemo.shrink, op.Valid) ∧
    ((ChunkDemo.chunker ChunkDemo.auto).run ChunkDemo.shrink.dropLast).opts.maxLen = 2 ∧
    ((ChunkDemo.chunker ChunkDemo.auto).run ChunkDemo.shrink).opts.maxLen = 2 ∧
    ∃ cell ch, cell ∈ ((ChunkDemo.chunker ChunkDemo.auto).run ChunkDemo.shrink).cells ∧ cell.chunk = some ch ∧
      (((ChunkDemo.chunker ChunkDemo.auto).run ChunkDemo.shrink).cellsOf ch).length = 3 := by
  refine ⟨ChunkDemo.started (by decide) ⟨rfl, rfl⟩, ChunkDemo.shrink_valid, by decide +kernel, by decide +kernel,
    ⟨100, 0, 7, 0, some ⟨100, some ⟨7, 0, 2, false⟩, [⟨.int32, [3], [1, 2, 3]⟩], false⟩⟩, _, ?_, rfl, ?_⟩
  · decide +kernel
  · decide +kernel

end Chunker

/-! ### C36 -/

namespace AutoTuned

/-- **C36.** Whatever items are observed, no check fails, the chunk length stays between 1 and `num_keep_alive_refs`, the other
options stay as they are, and one more item changes the length by at most -1 or +2. -/
theorem C36 {keep : Int} (hk : 1 ≤ keep) (w : Rat) (d : Bool) {items : List (List ChunkObs)} (hi : ∀ refs ∈ items, refs ≠ [])
    {refs : List ChunkObs} (hr : refs ≠ []) :
    ∃ a b, (new keep w d).after items = some a ∧ (new keep w d).after (items ++ [refs]) = some b ∧
      1 ≤ a.maxLen ∧ a.maxLen ≤ keep ∧ a.keep = keep ∧ a.delta = d ∧ a.weight = w ∧
      a.maxLen - 1 ≤ b.maxLen ∧ b.maxLen ≤ a.maxLen + 2 := by
  obtain ⟨a, h1, h2, h3, h4, h5⟩ := after_wf (new_wf hk w d) hi
  obtain ⟨b, g1, _, _, _, _, g2, g3⟩ := finalized_wf h2 hr
  refine ⟨a, b, h1, by rw [after_snoc, h1]; exact g1, h2.pos, ?_, h3, h4, h5, g2, g3⟩
  have := h2.le
  rw [h3] at this
  exact this

/-- The length changes only when both the items and the chunks have been collected. -/
theorem C36_rarely {a a' : AutoTuned} {refs : List ChunkObs} (h : a.onItemFinalized refs = some a')
    (hn : a.items.length + 1 < numItems) : a'.maxLen = a.maxLen := by
  unfold onItemFinalized at h
  split at h
  · simp at h
  · simp only at h
    rw [if_pos] at h
    · simp only [Option.some.injEq] at h
      subst h
      rfl
    · left
      simp only [pushChunks, pushItem, List.length_append, List.length_singleton]
      rw [if_neg (by simp; omega)]
      simpa using hn

/-- Growing to 3 at the first adjustment, and then shrinking to 2. -/
example : ((new 8 1 false).after (List.replicate 10 (Chunker.ChunkDemo.item 1 10))).map AutoTuned.maxLen = some 3 ∧
    ((new 8 1 false).after (List.replicate 10 (Chunker.ChunkDemo.item 1 10) ++
      List.replicate 10 (Chunker.ChunkDemo.item 3 300))).map AutoTuned.maxLen = some 2 := by decide +kernel

end AutoTuned
end Verif
