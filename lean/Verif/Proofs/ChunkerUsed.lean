import Verif.Proofs.ChunkerHist
namespace Verif
namespace Chunker

/-- A chunker in use to which `rows` were appended. -/
def Used (c : Chunker) (rows : List Row) : Prop :=
  ∃ bs cur d, Inv c bs cur d ∧ (cur.length : Int) < c.opts.keep ∧ allRows bs cur = rows

/-- The data of the reference is not given up. -/
def Held (c : Chunker) (i : Nat) : Prop := i ∈ c.active ∨ (c.cellAt i).chunk ≠ none

/-- What stays when a chunker changes. -/
structure Moves (c c' : Chunker) (reset : Bool) : Prop where
  dtype : c'.dtype = c.dtype
  shape : c'.shape = c.shape
  keyGen : c'.keyGen = c.keyGen
  cells : ∀ (i : Nat) (x : Cell), c.cells[i]? = some x → ∃ x', c'.cells[i]? = some x' ∧ ident x' = ident x ∧
    ∀ ch, x.chunk = some ch → x'.chunk = some ch
  held : reset = false → ∀ i, i < c.cells.length → Held c i → Held c' i

theorem Moves.refl (c : Chunker) (b : Bool) : Moves c c b :=
  ⟨rfl, rfl, rfl, fun _ x h => ⟨x, h, rfl, fun _ h => h⟩, fun _ _ _ h => h⟩

theorem Moves.length {c c' : Chunker} {b : Bool} (h : Moves c c' b) : c.cells.length ≤ c'.cells.length := by
  cases hl : c.cells.length with
  | zero => omega
  | succ n =>
    have hn : c.cells[n]? = some (c.cells[n]'(by omega)) := List.getElem?_eq_getElem _
    obtain ⟨x', h1, _⟩ := h.cells n _ hn
    have := (List.getElem?_eq_some_iff.mp h1).1
    omega

theorem Moves.trans {a b c : Chunker} {r s : Bool} (h : Moves a b r) (g : Moves b c s) : Moves a c (r || s) := by
  refine ⟨g.dtype.trans h.dtype, g.shape.trans h.shape, g.keyGen.trans h.keyGen, fun i x hx => ?_, fun hr i hi ha => ?_⟩
  · obtain ⟨x1, h1, h2, h3⟩ := h.cells i x hx
    obtain ⟨x2, g1, g2, g3⟩ := g.cells i x1 h1
    exact ⟨x2, g1, g2.trans h2, fun ch hc => g3 ch (h3 ch hc)⟩
  · simp only [Bool.or_eq_false_iff] at hr
    exact g.held hr.2 i (by have := h.length; omega) (h.held hr.1 i hi ha)

theorem Moves.weaken {a b : Chunker} {r : Bool} (h : Moves a b r) : Moves a b true := by
  have := h.trans (Moves.refl b true)
  simpa using this

theorem Inv.at {c : Chunker} {bs : List Block} {cur : List Row} {d : Nat} (h : Inv c bs cur d) {i : Nat} (hi : i < c.cells.length) :
    (∃ j b o, bs[j]? = some b ∧ o < b.rows.length ∧ i = total (bs.take j) + o ∧
      ∃ e s, c.cells[i]? = some ⟨c.keyGen j, o, e, s, b.chunk⟩) ∨
    (∃ o, o < cur.length ∧ i = total bs + o ∧ ∃ e s, c.cells[i]? = some ⟨c.nextKey, o, e, s, none⟩) := by
  have hl : i < (allRows bs cur).length := by rw [allRows_length, ← h.len]; exact hi
  rcases h.locate (List.getElem?_eq_getElem hl) with ⟨j, b, o, h1, h2, h3, h4⟩ | ⟨o, h1, h2, h3⟩
  · exact .inl ⟨j, b, o, h1, (List.getElem?_eq_some_iff.mp h2).1, h3, _, _, h4⟩
  · exact .inr ⟨o, (List.getElem?_eq_some_iff.mp h1).1, h2, _, _, h3⟩

theorem total_lt {bs : List Block} {j : Nat} {b : Block} (h : bs[j]? = some b) : total (bs.take j) + b.rows.length ≤ total bs := by
  have hj := (List.getElem?_eq_some_iff.mp h).1
  have hb := (List.getElem?_eq_some_iff.mp h).2
  have := total_take_le bs (j + 1)
  rw [List.take_succ_eq_append_getElem hj, total_append, hb] at this
  simpa [total] using this

/-- One call. -/
theorem Used.step {c : Chunker} {rows : List Row} (h : c.Used rows) {op : Op} (hv : op.Valid) :
    (c.step op).1.Used (rows ++ op.accepted (c.step op).2) ∧ Moves c (c.step op).1 op.isReset ∧ (c.step op).2 ≠ .died ∧
      ∀ i, (c.step op).2 = .ok (some i) → i = rows.length := by
  obtain ⟨bs, cur, d, h1, h2, h3⟩ := h
  obtain ⟨bs', cur', d', hs⟩ := step_ok h1 h2 hv
  have hlen : c.cells.length = rows.length := by rw [h1.len, ← h3, allRows_length]
  refine ⟨⟨bs', cur', d', hs.inv, hs.room, by rw [hs.rows, h3]⟩, ⟨hs.dtype, hs.shape, hs.keyGen, fun i x hx => ?_, fun hr i hi ha => ?_⟩,
    hs.alive, fun i hi => (hs.ref i hi).1.trans hlen⟩
  · obtain ⟨x', g1, g2⟩ := step_fixed c op i hx
    refine ⟨x', g1, g2, fun ch hch => ?_⟩
    have hil := (List.getElem?_eq_some_iff.mp hx).1
    rcases h1.at hil with ⟨j, b, o, k1, k2, k3, e, s, k4⟩ | ⟨o, k1, k2, e, s, k3⟩
    · obtain ⟨new, hn, _⟩ := hs.grow
      have hlt : i < total bs := by have := total_lt k1; omega
      have : (c.step op).1.cells[i]? = c.cells[i]? := by
        rw [hs.inv.cells, h1.cells, hs.keyGen, hn, blockCells_append, List.append_assoc,
          List.getElem?_append_left (by rw [blockCells_length]; exact hlt), List.getElem?_append_left (by rw [blockCells_length]; exact hlt)]
      rw [this, hx] at g1
      cases g1
      exact hch
    · rw [k3] at hx
      cases hx
      simp at hch
  · have hl : i < (allRows bs cur).length := by rw [allRows_length, ← h1.len]; exact hi
    exact stay_ready (ops := [op]) h1 h2 (fun o ho => by simp at ho; subst ho; exact hv) (fun o ho => by simp at ho; subst ho; exact hr)
      (List.getElem?_eq_getElem hl) ha

theorem Started.used {c : Chunker} (h : c.Started) : c.Used [] := by
  obtain ⟨h1, h2⟩ := h.inv
  exact ⟨[], [], 0, h1, h2, rfl⟩

theorem Used.length {c : Chunker} {rows : List Row} (h : c.Used rows) : c.cells.length = rows.length := by
  obtain ⟨bs, cur, d, h1, h2, h3⟩ := h
  rw [h1.len, ← h3, allRows_length]

theorem Used.key {c : Chunker} {rows : List Row} (h : c.Used rows) {i : Nat} {x : Cell} (hx : c.cells[i]? = some x) : ∃ n, x.key = c.keyGen n := by
  obtain ⟨bs, cur, d, h1, h2, h3⟩ := h
  rcases h1.at (List.getElem?_eq_some_iff.mp hx).1 with ⟨j, b, o, k1, k2, k3, e, s, k4⟩ | ⟨o, k1, k2, e, s, k3⟩
  · rw [k4] at hx; cases hx; exact ⟨_, rfl⟩
  · rw [k3] at hx; cases hx; exact ⟨c.drawn, rfl⟩

/-- The chunk of a cell: its rows, and the place of all cells of the chunk. -/
theorem Used.block {c : Chunker} {rows : List Row} (h : c.Used rows) {i : Nat} {x : Cell} (hx : c.cells[i]? = some x) {ch : ChunkData}
    (hch : x.chunk = some ch) : ∃ pre mid post, rows = pre ++ mid ++ post ∧ ch.key = x.key ∧ ch.Holds c.dtype c.shape (mid.map Row.tensor) ∧
      ch.tensors.length = 1 ∧
      ∀ (k : Nat) (y : Cell), c.cells[k]? = some y → y.key = x.key → k = pre.length + y.offset ∧ y.offset < mid.length ∧ y.chunk = some ch := by
  obtain ⟨bs, cur, d, h1, h2, h3⟩ := h
  rcases h1.at (List.getElem?_eq_some_iff.mp hx).1 with ⟨j, b, o, k1, k2, k3, e, s, k4⟩ | ⟨o, k1, k2, e, s, k3⟩
  · rw [k4] at hx
    cases hx
    simp only at hch
    have hg := h1.good j b ch k1 hch
    have hj := (List.getElem?_eq_some_iff.mp k1).1
    have hb := (List.getElem?_eq_some_iff.mp k1).2
    refine ⟨(bs.take j).flatMap Block.rows, b.rows, (bs.drop (j + 1)).flatMap Block.rows ++ cur, ?_, hg.keyEq, hg.holds, hg.one, ?_⟩
    · rw [← h3, allRows, ← List.append_assoc]
      congr 1
      conv => lhs; rw [← List.take_append_drop j bs, List.drop_eq_getElem_cons hj, hb]
      simp
    · intro k y hy hk
      have hpl : ((bs.take j).flatMap Block.rows).length = total (bs.take j) := by simp [total, List.length_flatMap]
      rcases h1.at (List.getElem?_eq_some_iff.mp hy).1 with ⟨j', b', o', m1, m2, m3, e', s', m4⟩ | ⟨o', m1, m2, e', s', m3⟩
      · rw [m4] at hy
        cases hy
        have := h1.keys _ _ hk
        subst this
        rw [k1] at m1
        cases m1
        exact ⟨by rw [hpl]; exact m3, m2, hch⟩
      · rw [m3] at hy
        cases hy
        have := h1.keys _ _ hk
        have := h1.drawn
        omega
  · rw [k3] at hx
    cases hx
    simp at hch

/-- After `Flush` held references are ready. -/
theorem Used.flush {c : Chunker} {rows : List Row} (h : c.Used rows) : c.flush.2 = .ok () ∧
    ∀ i, i < c.cells.length → Held c i → (c.flush.1.cellAt i).chunk ≠ none := by
  have hst := h.step (op := .flush) trivial
  obtain ⟨bs, cur, d, h1, h2, h3⟩ := h
  have key : ∃ bs' d', c.flush.2 = .ok () ∧ Inv c.flush.1 bs' [] d' := by
    by_cases hc : cur = []
    · subst hc
      have hb : c.buffer = [] := by rw [h1.buffer]; rfl
      have : c.flush = (c, .ok ()) := by unfold Chunker.flush; rw [if_pos hb]
      rw [this]
      exact ⟨bs, d, rfl, h1⟩
    · obtain ⟨ch, e, _, g⟩ := h1.flush hc
      exact ⟨_, _, by rw [e], g⟩
  obtain ⟨bs', d', k1, k2⟩ := key
  refine ⟨k1, fun i hi hh => ?_⟩
  have hm := hst.2.1
  have hh' : Held c.flush.1 i := hm.held rfl i hi hh
  rcases hh' with ha | ha
  · have hil : i < c.flush.1.cells.length := by
      have : c.cells.length ≤ c.flush.1.cells.length := hm.length
      omega
    rcases k2.at hil with ⟨j, b, o, m1, m2, m3, e, s, m4⟩ | ⟨o, m1, _⟩
    · rw [cellAt_of m4]
      simp only
      intro hn
      have hl := k2.lost j b m1 hn
      rw [k2.active_iff] at ha
      have hj := (List.getElem?_eq_some_iff.mp m1).1
      have hb := (List.getElem?_eq_some_iff.mp m1).2
      rw [List.take_succ_eq_append_getElem hj, total_append, hb] at hl
      simp only [total, List.map_cons, List.map_nil, List.sum_cons, List.sum_nil, Nat.add_zero] at hl
      simp only [total] at m3
      omega
    · simp at m1
  · exact ha

end Chunker
end Verif
