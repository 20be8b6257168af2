import Verif.Proofs.Chunker
namespace Verif
namespace Chunker

theorem run_append (c : Chunker) (a b : List Op) : c.run (a ++ b) = (c.run a).run b := by simp [run]

theorem run_cons (c : Chunker) (op : Op) (ops : List Op) : c.run (op :: ops) = ((c.step op).1).run ops := rfl

theorem appended_append : ∀ (c : Chunker) (a b : List Op), c.appended (a ++ b) = c.appended a ++ (c.run a).appended b
  | _, [], _ => rfl
  | c, op :: a, b => by
    simp only [List.cons_append, appended, appended_append _ a b, List.append_assoc]
    rfl

/-- The state after some calls. -/
theorem Started.run {c : Chunker} (h : c.Started) {ops : List Op} (hv : ∀ op ∈ ops, op.Valid) :
    ∃ bs cur d, Inv (c.run ops) bs cur d ∧ (cur.length : Int) < (c.run ops).opts.keep ∧ allRows bs cur = c.appended ops ∧
      (c.run ops).dtype = c.dtype ∧ (c.run ops).shape = c.shape := by
  obtain ⟨h1, h2⟩ := h.inv
  obtain ⟨bs, cur, d, g1, g2, g3, g4, g5, _⟩ := run_ok h1 h2 hv
  exact ⟨bs, cur, d, g1, g2, by simpa [allRows] using g3, g4, g5⟩

theorem Inv.active_iff {c : Chunker} {bs : List Block} {cur : List Row} {d : Nat} (h : Inv c bs cur d) (i : Nat) :
    i ∈ c.active ↔ d ≤ i ∧ i < c.cells.length := by
  rw [h.active, List.mem_range'_1]
  have := h.dle
  have := h.len
  omega

/-- A reference stays active for a while. -/
theorem stay_active {K i : Nat} : ∀ {ops : List Op} {c : Chunker} {bs : List Block} {cur : List Row} {d : Nat}, Inv c bs cur d →
    (cur.length : Int) < c.opts.keep → (∀ op ∈ ops, op.Valid) → (∀ op ∈ ops, op.isReset = false) →
    (∀ k, (K : Int) ≤ (c.run (ops.take k)).opts.keep) → i ∈ c.active →
    c.cells.length + (c.appended ops).length ≤ i + K → i ∈ (c.run ops).active
  | [], c, bs, cur, d, _, _, _, _, _, hi, _ => hi
  | op :: ops, c, bs, cur, d, h, hr, hv, hres, hK, hi, hn => by
    obtain ⟨bs1, cur1, d1, hs⟩ := step_ok h hr (hv op List.mem_cons_self)
    have hlen : (c.step op).1.cells.length = c.cells.length + (op.accepted (c.step op).2).length := by
      have := congrArg List.length hs.rows
      rw [List.length_append, allRows_length, allRows_length] at this
      rw [hs.inv.len, h.len]
      exact this
    simp only [appended, List.length_append] at hn
    rw [run_cons]
    have hK1 := hK 1
    simp only [List.take_succ_cons, List.take_zero] at hK1
    have hK1' : (K : Int) ≤ (c.step op).1.opts.keep := hK1
    refine stay_active (K := K) hs.inv hs.room (fun o ho => hv o (List.mem_cons_of_mem _ ho))
      (fun o ho => hres o (List.mem_cons_of_mem _ ho)) (fun k => ?_) ?_ (by omega)
    · have := hK (k + 1)
      rw [List.take_succ_cons] at this
      exact this
    · rw [hs.inv.active_iff]
      rw [h.active_iff] at hi
      have := hs.dropped (hres op List.mem_cons_self)
      omega

/-- A reference with data keeps it. -/
theorem stay_ready {i : Nat} {ops : List Op} {c : Chunker} {bs : List Block} {cur : List Row} {d : Nat} {r : Row} (h : Inv c bs cur d)
    (hr : (cur.length : Int) < c.opts.keep) (hv : ∀ op ∈ ops, op.Valid) (hres : ∀ op ∈ ops, op.isReset = false)
    (hi : (allRows bs cur)[i]? = some r) (ha : i ∈ c.active ∨ (c.cellAt i).chunk ≠ none) :
    i ∈ (c.run ops).active ∨ ((c.run ops).cellAt i).chunk ≠ none := by
  obtain ⟨bs', cur', d', g1, _, g3, _, _, new, g6, g7⟩ := run_ok h hr hv
  have hi' : (allRows bs' cur')[i]? = some r := by
    rw [g3, List.getElem?_append_left (List.getElem?_eq_some_iff.mp hi).1]
    exact hi
  rcases g1.locate hi' with ⟨j, b, o, h1, h2, h3, h4⟩ | ⟨o, h1, h2, h3⟩
  · right
    rw [cellAt_of h4]
    simp only
    by_cases hj : j < bs.length
    · intro hnone
      rw [g6, List.getElem?_append_left hj] at h1
      -- the block was lost before
      have htake : bs'.take j = bs.take j := by rw [g6, List.take_append_of_le_length (by omega)]
      rw [htake] at h3
      have hlost := h.lost j b h1 hnone
      have hb := (List.getElem?_eq_some_iff.mp h1).2
      have ho := (List.getElem?_eq_some_iff.mp h2).1
      have htot : total (bs.take (j + 1)) = total (bs.take j) + b.rows.length := by
        rw [List.take_succ_eq_append_getElem hj, total_append, hb]
        simp [total]
      have hle := total_take_le bs (j + 1)
      rcases h.locate hi with ⟨j2, b2, o2, k1, k2, k3, k4⟩ | ⟨o2, k1, k2, k3⟩
      · rw [h.active_iff, cellAt_of k4] at ha
        rcases ha with ha | ha
        · omega
        · obtain ⟨j3, b3, o3, m1, m2, m3, m4, m5⟩ := blockCells_at c.keyGen bs 0 i (by omega)
          -- both describe the cell `i`
          have hjj : j2 = j := by
            have hj2 := (List.getElem?_eq_some_iff.mp k1).1
            have hb2 := (List.getElem?_eq_some_iff.mp k1).2
            have ho2 := (List.getElem?_eq_some_iff.mp k2).1
            have htot2 : total (bs.take (j2 + 1)) = total (bs.take j2) + b2.rows.length := by
              rw [List.take_succ_eq_append_getElem hj2, total_append, hb2]
              simp [total]
            have mono : ∀ a b', a ≤ b' → total (bs.take a) ≤ total (bs.take b') := by
              intro a b' hab
              have := total_take_le (bs.take b') a
              rwa [List.take_take, Nat.min_eq_left hab] at this
            rcases Nat.lt_trichotomy j2 j with hlt | heq | hgt
            · have := mono (j2 + 1) j hlt
              omega
            · exact heq
            · have := mono (j + 1) j2 hgt
              omega
          subst hjj
          rw [h1] at k1
          cases k1
          exact ha hnone
      · omega
    · rw [g6, List.getElem?_append_right (by omega)] at h1
      exact g7 hres b (List.mem_of_getElem? h1)
  · left
    rw [g1.active_iff]
    have := g1.dle
    have := (List.getElem?_eq_some_iff.mp h3).1
    omega

theorem filter_blocks {gen : Nat → Key} (hinj : ∀ i j, gen i = gen j → i = j) : ∀ (bs : List Block) (k j : Nat) (b : Block),
    bs[j]? = some b → (blockCells gen k bs).filter (fun x => x.key = gen (k + j)) = mkCells (gen (k + j)) b.chunk b.rows
  | [], _, _, _, h => by simp at h
  | b0 :: bs, k, j, b, h => by
    rw [blockCells, List.filter_append]
    cases j with
    | zero =>
      simp only [List.getElem?_cons_zero, Option.some.injEq] at h
      subst h
      rw [List.filter_eq_self.mpr (fun x hx => by simp [(mem_mkCells hx).1]), List.filter_eq_nil_iff.mpr, List.append_nil]
      · rfl
      · intro x hx
        obtain ⟨i, b', h1, h2⟩ := mem_blockCells hx
        have := (mem_mkCells h2).1
        simp only [Nat.add_zero, decide_eq_true_eq]
        rw [this]
        intro he
        have := hinj _ _ he
        omega
    | succ j =>
      rw [List.filter_eq_nil_iff.mpr, List.nil_append]
      · have := filter_blocks hinj bs (k + 1) j b h
        rw [show k + (j + 1) = k + 1 + j by omega]
        exact this
      · intro x hx
        simp only [(mem_mkCells hx).1, decide_eq_true_eq]
        intro he
        have := hinj _ _ he
        omega

theorem Inv.cellsOf {c : Chunker} {bs : List Block} {cur : List Row} {d : Nat} (h : Inv c bs cur d) {j : Nat} {b : Block}
    {ch : ChunkData} (hj : bs[j]? = some b) (hk : ch.key = c.keyGen j) : c.cellsOf ch = mkCells (c.keyGen j) b.chunk b.rows := by
  unfold Chunker.cellsOf
  rw [h.cells, List.filter_append, hk]
  have := filter_blocks h.keys bs 0 j b hj
  rw [Nat.zero_add] at this
  rw [this, List.filter_eq_nil_iff.mpr, List.append_nil]
  intro x hx
  simp only [(mem_mkCells hx).1, decide_eq_true_eq]
  intro he
  have h1 := h.keys _ _ he
  have h2 := h.drawn
  have h3 := (List.getElem?_eq_some_iff.mp hj).1
  omega

/-- Bound on the length of the blocks. -/
theorem run_lens {B : Nat} : ∀ {ops : List Op} {c : Chunker} {bs : List Block} {cur : List Row} {d : Nat}, Inv c bs cur d →
    (cur.length : Int) < c.opts.keep → (∀ op ∈ ops, op.Valid) → (∀ k, (c.run (ops.take k)).opts.maxLen ≤ (B : Int)) →
    (∀ b ∈ bs, b.rows.length ≤ B) → cur.length < B →
    ∃ bs' cur' d', Inv (c.run ops) bs' cur' d' ∧ allRows bs' cur' = allRows bs cur ++ c.appended ops ∧ ∀ b ∈ bs', b.rows.length ≤ B
  | [], c, bs, cur, d, h, _, _, _, hb, _ => ⟨bs, cur, d, h, by simp [appended], hb⟩
  | op :: ops, c, bs, cur, d, h, hr, hv, hB, hb, hc => by
    obtain ⟨bs1, cur1, d1, hs⟩ := step_ok h hr (hv op List.mem_cons_self)
    obtain ⟨bs2, cur2, d2, h1, h2, h3⟩ := run_lens (B := B) hs.inv hs.room (fun o ho => hv o (List.mem_cons_of_mem _ ho))
      (fun k => by have := hB (k + 1); rw [List.take_succ_cons] at this; exact this)
      (fun b hb' => by
        rcases hs.lens b hb' with hb' | hb'
        · exact hb b hb'
        · omega)
      (by
        have := hB 1
        simp only [List.take_succ_cons, List.take_zero] at this
        have this' : (c.step op).1.opts.maxLen ≤ (B : Int) := this
        rcases hs.curLen with hl | hl <;> omega)
    exact ⟨bs2, cur2, d2, h1, by rw [h2, hs.rows]; simp [appended], h3⟩

/-! ### Cells are never changed except for the chunk -/

theorem notify_fixed (c : Chunker) (ch : ChunkData) (i : Nat) :
    (c.notify ch)[i]? = c.cells[i]? ∨ (c.notify ch)[i]? = c.cells[i]?.map (setChunk ch) := by
  unfold notify
  rw [notify_get (fun i => (c.cellAt i).key) ch i]
  split
  · exact .inr rfl
  · exact .inl rfl

/-- Key, offset, episode and step of a cell. -/
def ident (x : Cell) : Key × Nat × Key × Int := (x.key, x.offset, x.episode, x.step)

theorem flush_fixed (c : Chunker) (i : Nat) {x : Cell} (h : c.cells[i]? = some x) :
    ∃ x', c.flush.1.cells[i]? = some x' ∧ ident x' = ident x := by
  unfold Chunker.flush
  split
  · exact ⟨x, h, rfl⟩
  · split
    · exact ⟨x, h, rfl⟩
    · exact ⟨x, h, rfl⟩
    · split
      · exact ⟨x, h, rfl⟩
      · exact ⟨x, h, rfl⟩
      · split
        · exact ⟨x, h, rfl⟩
        · simp only
          rename_i data _ range _
          rcases notify_fixed c ⟨c.nextKey, range, [_], c.opts.delta⟩ i with hn | hn
          · exact ⟨x, by rw [hn, h], rfl⟩
          · exact ⟨setChunk _ x, by rw [hn, h]; rfl, rfl⟩

theorem step_fixed (c : Chunker) (op : Op) (i : Nat) {x : Cell} (h : c.cells[i]? = some x) :
    ∃ x', (c.step op).1.cells[i]? = some x' ∧ ident x' = ident x := by
  cases op with
  | append t e s =>
    have : ∃ x', (c.append t e s).1.cells[i]? = some x' ∧ ident x' = ident x := by
      unfold append
      split
      · exact ⟨x, h, rfl⟩
      · split
        · exact ⟨x, h, rfl⟩
        · split
          · exact ⟨x, h, rfl⟩
          · exact ⟨x, h, rfl⟩
          · exact ⟨x, h, rfl⟩
          · have hp : (c.pushRow t e s).cells[i]? = some x := by
              simp only [pushRow]
              rw [List.getElem?_append_left (List.getElem?_eq_some_iff.mp h).1]
              exact h
            have hf : ∃ x', (c.pushRow t e s).flushIfFull.1.cells[i]? = some x' ∧ ident x' = ident x := by
              unfold flushIfFull
              split
              · exact flush_fixed _ i hp
              · exact ⟨x, hp, rfl⟩
            split <;> rename_i heq <;> rw [heq] at hf <;> exact hf
    have he : (c.step (.append t e s)).1 = (c.append t e s).1 := by
      simp only [step]
      rcases c.append t e s with ⟨c', _ | _ | _⟩ <;> rfl
    rw [he]
    exact this
  | flush => exact flush_fixed c i h
  | reset => exact ⟨x, h, rfl⟩
  | configure o =>
    refine ⟨x, ?_, rfl⟩
    simp only [step, applyConfig]
    split
    · exact h
    · split <;> exact h
  | finalized refs =>
    refine ⟨x, ?_, rfl⟩
    simp only [step, itemFinalized]
    split
    · exact h
    · split <;> exact h

theorem madeOf {dt : DType} {sh : List Nat} {key : Key} {rows : List Row} {ch : ChunkData} (h : GoodChunk dt sh key rows ch) :
    ch.MadeOf dt sh rows := by
  obtain ⟨r0, rest, hrows⟩ := List.exists_cons_of_ne_nil h.ne
  obtain ⟨sp, h1, h2⟩ := rangeOf_rows (key := key) hrows h.ordered
  rw [h.range] at h1
  simp only [Option.some.injEq] at h1
  refine ⟨⟨r0, rows.getLast h.ne, _, by simp [hrows], List.getLast?_eq_some_getLast h.ne, h1, rfl, ?_, ?_, h2⟩, ?_, h.one, h.holds.1⟩
  · simp [List.getLast?_eq_some_getLast h.ne]
  · intro r hr
    simp only
    rw [hrows] at hr
    have ho := h.ordered
    rw [hrows] at ho
    rcases List.mem_cons.mp hr with rfl | hr
    · rfl
    · exact ((List.pairwise_cons.mp ho).1 r hr).1.symm
  · rw [List.pairwise_map]
    exact h.ordered.imp fun h => h.2

theorem take_flatMap : ∀ (bs : List Block) (j : Nat) (b : Block), bs[j]? = some b →
    ∃ pre post, bs.flatMap Block.rows = pre ++ b.rows ++ post
  | [], _, _, h => by simp at h
  | b0 :: bs, 0, b, h => ⟨[], bs.flatMap Block.rows, by simp at h; simp [h]⟩
  | b0 :: bs, j + 1, b, h => by
    obtain ⟨pre, post, h'⟩ := take_flatMap bs j b h
    exact ⟨b0.rows ++ pre, post, by simp [h']⟩

theorem flush_opts (c : Chunker) : c.flush.1.opts = c.opts := by
  unfold Chunker.flush
  split
  · rfl
  · split
    · rfl
    · rfl
    · split
      · rfl
      · rfl
      · split <;> rfl

theorem step_constant {B : Nat} {c : Chunker} (h : ConstantLe B c.opts) {op : Op} (hop : ∀ o, op = .configure o → ConstantLe B o) :
    ConstantLe B (c.step op).1.opts := by
  cases op with
  | append t e s =>
    have he : (c.step (.append t e s)).1 = (c.append t e s).1 := by
      simp only [step]
      rcases c.append t e s with ⟨c', _ | _ | _⟩ <;> rfl
    have : (c.append t e s).1.opts = c.opts := by
      unfold append
      split
      · rfl
      · split
        · rfl
        · split
          · rfl
          · rfl
          · rfl
          · have hf : (c.pushRow t e s).flushIfFull.1.opts = c.opts := by
              unfold flushIfFull
              split
              · rw [flush_opts]
                rfl
              · rfl
            split <;> rename_i heq <;> rw [heq] at hf <;> exact hf
    rw [he, this]
    exact h
  | flush => simp only [step]; rw [flush_opts]; exact h
  | reset => exact h
  | configure o =>
    simp only [step, applyConfig]
    split
    · exact h
    · split
      · exact hop o rfl
      · exact h
      · exact h
  | finalized refs =>
    simp only [step, itemFinalized]
    split
    · exact h
    · obtain ⟨m, k, d, ho, hm⟩ := h
      rw [ho]
      exact ⟨m, k, d, rfl, hm⟩

theorem run_constant {B : Nat} : ∀ {ops : List Op} {c : Chunker}, ConstantLe B c.opts → (∀ o, Op.configure o ∈ ops → ConstantLe B o) →
    ConstantLe B (c.run ops).opts
  | [], _, h, _ => h
  | op :: ops, c, h, ho => by
    rw [run_cons]
    exact run_constant (ops := ops) (step_constant h fun o he => ho o (by simp [← he])) fun o hm => ho o (List.mem_cons_of_mem _ hm)

end Chunker

namespace AutoTuned

theorem after_snoc : ∀ (items : List (List ChunkObs)) (a : AutoTuned) (refs : List ChunkObs),
    a.after (items ++ [refs]) = (a.after items).bind fun b => b.onItemFinalized refs
  | [], a, refs => by
    simp only [List.nil_append, after, Option.bind_some]
    cases a.onItemFinalized refs <;> rfl
  | i :: items, a, refs => by
    simp only [List.cons_append, after]
    cases a.onItemFinalized i with
    | none => rfl
    | some a' => exact after_snoc items a' refs

theorem after_wf : ∀ {items : List (List ChunkObs)} {a : AutoTuned}, a.WF → (∀ refs ∈ items, refs ≠ []) →
    ∃ a', a.after items = some a' ∧ a'.WF ∧ a'.keep = a.keep ∧ a'.delta = a.delta ∧ a'.weight = a.weight
  | [], a, h, _ => ⟨a, rfl, h, rfl, rfl, rfl⟩
  | refs :: items, a, h, hr => by
    obtain ⟨a1, h1, h2, h3, h4, h5, _⟩ := finalized_wf h (hr refs List.mem_cons_self)
    obtain ⟨a2, g1, g2, g3, g4, g5⟩ := after_wf (items := items) h2 fun r hm => hr r (List.mem_cons_of_mem _ hm)
    exact ⟨a2, by simp only [after, h1]; exact g1, g2, g3.trans h3, g4.trans h4, g5.trans h5⟩

end AutoTuned
end Verif
