import Verif.Proofs.SampleData
/-
C44: samples are put together again. C46: timesteps and batches.
-/
namespace Verif

/-- C44: the responses of the synchronous server. However large the chunks are and whatever the limit is, the client makes of the
entries exactly the sampled items, one after the other, with nothing left over: each sample is the one that a local sampler makes
of the item. -/
theorem C44_sync (size : Entry → Nat) (max : Nat) {samples : List SampledItem} (hv : ∀ s ∈ samples, s.Valid) :
    (collectAll (samples.flatMap (splitSync size max))).1 = [] ∧
    (collectAll (samples.flatMap (splitSync size max))).2.map asSampleGrpc = samples.map asSampleLocal := by
  have hc := split_carriesAll size max fun s hs => (hv s hs).ne
  have := collect_groups hc []
  rw [← List.flatMap_def] at this
  rw [collectAll, this]
  exact ⟨rfl, by rw [List.nil_append]; exact hc.samples hv⟩

/-- C44: the responses of the asynchronous server, after any calls of the sampling callback and of `OnWriteDone`. Whatever has been
written so far, the client makes of it the first of the sampled items and no other sample; and all of them once nothing is waiting
to be written. -/
theorem C44_async (bytes : ChunkData → Nat) (max : Nat) {evs : List Reactor.Event} (hv : ∀ s ∈ Reactor.samplesOf evs, s.Valid) :
    let r := Reactor.run bytes max ⟨[], [], 0⟩ evs
    (∃ k, (collectAll r.written.flatten).2.map asSampleGrpc = ((Reactor.samplesOf evs).map asSampleLocal).take k) ∧
    (r.queue = [] → (collectAll r.written.flatten).1 = [] ∧
      (collectAll r.written.flatten).2.map asSampleGrpc = (Reactor.samplesOf evs).map asSampleLocal) := by
  intro r
  have hinv : Reactor.Inv ⟨[], [], 0⟩ [] := ⟨by simp, [], .nil, rfl⟩
  obtain ⟨-, gs, hgs, hent⟩ := Reactor.inv_run (bytes := bytes) (max := max) evs hinv fun s hs => (hv s hs).ne
  rw [List.nil_append] at hgs
  have hall := collect_groups hgs []
  rw [← hent, List.foldl_append, List.nil_append] at hall
  constructor
  · obtain ⟨more, hmore⟩ := collect_prefix (Reactor.run bytes max ⟨[], [], 0⟩ evs).queue.tail.flatten
      ((Reactor.run bytes max ⟨[], [], 0⟩ evs).written.flatten.foldl collect ([], []))
    rw [hall] at hmore
    replace hmore : gs = _ := hmore
    refine ⟨(collectAll r.written.flatten).2.length, ?_⟩
    rw [← hgs.samples hv, ← List.map_take, hmore, show collectAll r.written.flatten = r.written.flatten.foldl collect ([], []) from rfl]
    rw [List.take_left]
  · intro hq
    rw [show (Reactor.run bytes max ⟨[], [], 0⟩ evs).queue = [] from hq] at hall
    rw [show collectAll r.written.flatten = ([], gs) from hall]
    exact ⟨rfl, hgs.samples hv⟩

/-- C44: the responses that wait do get written: after as many calls of `OnWriteDone` as there are responses in the queue, nothing is
waiting. -/
theorem C44_async_drains (bytes : ChunkData → Nat) (max : Nat) (evs : List Reactor.Event) :
    ∃ n, (Reactor.run bytes max ⟨[], [], 0⟩ (evs ++ List.replicate n .writeDone)).queue = [] := by
  have key : ∀ (n : Nat) (r : Reactor), r.queue.length = n → (Reactor.run bytes max r (List.replicate n .writeDone)).queue = [] := by
    intro n
    induction n with
    | zero => exact fun r h => List.length_eq_zero_iff.mp h
    | succ n ih =>
      intro r h
      rw [List.replicate_succ, Reactor.run, List.foldl_cons]
      apply ih
      rw [Reactor.step, if_neg (by intro h0; rw [h0] at h; simp at h), Reactor.writeDone_queue, List.length_tail, h, Nat.add_sub_cancel]
  refine ⟨(Reactor.run bytes max ⟨[], [], 0⟩ evs).queue.length, ?_⟩
  rw [Reactor.run, List.foldl_append]
  exact key _ _ rfl

/-- C44: what such a sample is: if the slices of the trajectory select the rows `cols` from the chunks, the data that `AsTrajectory`
returns are exactly these rows, column by column (the row itself for a squeezed column). -/
theorem C44_data {s : SampledItem} (hv : s.Valid) {cols : List RowColumn} (h : s.Shows cols) (hne : cols ≠ [])
    (hc : ∀ c ∈ cols, c.Valid ∧ c.chunks ≠ [])
    (hq : ∀ (i : Nat) (col : Column) (c : RowColumn), s.traj[i]? = some col → cols[i]? = some c → col.squeeze = true → c.rows.length = 1) :
    ∃ smp out, asSampleLocal s = .ok smp ∧ smp.info = s.info ∧ smp.asTrajectory = .ok out ∧ out.length = cols.length ∧
      ∀ (i : Nat) (col : Column) (c : RowColumn) (t : Tensor), s.traj[i]? = some col → cols[i]? = some c → out[i]? = some t →
        if col.squeeze then c.rows = [t] else t = Tensor.stack c.dtype c.shape c.rows := by
  obtain ⟨n, hn, -⟩ := RowColumn.ofColumns_eq (info := s.info) (squeeze := s.traj.map Column.squeeze) hne fun c hm => (hc c hm).2
  rw [← asSampleLocal_shows hv.nodup h] at hn
  obtain ⟨out, h1, h2, h3⟩ := RowColumn.squeeze_ok (qs := s.traj.map Column.squeeze) (cols := cols) (by rw [List.length_map]; exact h.1)
    (fun c hm => (hc c hm).1) (by
      intro i c hi hci
      rw [List.getElem?_map] at hi
      cases hcol : s.traj[i]? with
      | none => simp [hcol] at hi
      | some col => exact hq i col c hcol hci (by simpa [hcol] using hi))
  refine ⟨_, out, hn, rfl, ?_, h2, ?_⟩
  · simp only [Sample.asTrajectory, RowColumn.sampleAt, Bool.false_eq_true, if_false, RowColumn.unpackColumns_at fun c hm => (hc c hm).2]
    exact h1
  · intro i col c t hcol hci ht
    exact h3 i c col.squeeze t hci (by rw [List.getElem?_map, hcol]; rfl) ht

/-- C46: the batched data of a sample whose columns have the same number of rows are all rows. -/
theorem C46_batched {info : SampleInfo} {cols : List RowColumn} {squeeze : List Bool} (hne : cols ≠ []) (hc : ∀ c ∈ cols, c.chunks ≠ [])
    {N : Nat} (hN : ∀ c ∈ cols, c.rows.length = N) :
    ∃ smp, Sample.ofColumns info cols squeeze = .ok smp ∧ smp.isComposedOfTimesteps = some true ∧
      smp.asBatchedTimesteps = .ok (Int.ofNat N, cols.map fun c => Tensor.stack c.dtype c.shape c.rows) := by
  obtain ⟨n, hn, hn'⟩ := RowColumn.ofColumns_eq (info := info) (squeeze := squeeze) hne hc
  have hsame : ∀ c ∈ cols, ∀ c' ∈ cols, c.rows.length = c'.rows.length := fun c h c' h' => by rw [hN c h, hN c' h']
  have hcomp : (RowColumn.sampleAt info n squeeze false (cols.map fun c => (c, 0))).isComposedOfTimesteps = some true := by
    rw [Sample.isComposedOfTimesteps, RowColumn.sampleAt, RowColumn.composed_at]
    congr 1
    apply decide_eq_true
    intro p hp q hq
    obtain ⟨x, hx, rfl⟩ := List.mem_map.mp hp
    obtain ⟨y, hy, rfl⟩ := List.mem_map.mp hq
    exact hsame x hx y hy
  refine ⟨_, hn, hcomp, ?_⟩
  simp only [Sample.asBatchedTimesteps, hcomp]
  simp only [RowColumn.sampleAt, Bool.false_eq_true, if_false, RowColumn.unpackColumns_at hc]
  obtain ⟨c, rest, rfl⟩ := List.exists_cons_of_ne_nil hne
  rw [hn' hsame c List.mem_cons_self, hN c List.mem_cons_self]

/-- C46: if the columns are cut into chunks at the same places, the rows come one by one in order, exactly the last one is marked as
the end, and then the sample is at its end. Missing: columns that are cut at different places (`C46_exact`, `C46_differently_cut`). -/
theorem C46_partial {info : SampleInfo} {cols : List RowColumn} {squeeze : List Bool} (hne : cols ≠ [])
    (hc : ∀ c ∈ cols, c.Valid ∧ c.chunks ≠ []) {N : Nat} (hN : ∀ c ∈ cols, c.rows.length = N)
    (hcut : ∀ c ∈ cols, ∀ c' ∈ cols, c.lengths = c'.lengths) :
    ∃ smp out s', Sample.ofColumns info cols squeeze = .ok smp ∧ smp.deliverN N = .ok (out, s') ∧ s'.isEndOfSample = true ∧
      out.length = N ∧
      ∀ k data last, out[k]? = some (data, last) → data.map some = cols.map (fun c => c.rows[k]?) ∧ last = decide (k + 1 = N) := by
  obtain ⟨n, hn, -⟩ := RowColumn.ofColumns_eq (info := info) (squeeze := squeeze) hne fun c h => (hc c h).2
  obtain ⟨out, s', h1, h2, h3, h4⟩ := RowColumn.walk (info := info) (num := n) (squeeze := squeeze) N (called := false)
    (ps := cols.map fun c => (c, 0)) (by simpa using hne) (by
      intro p hp
      obtain ⟨c, hm, rfl⟩ := List.mem_map.mp hp
      exact RowColumn.ready_zero (hc c hm).1 (hc c hm).2) (by
      intro p hp q hq
      obtain ⟨x, hx, rfl⟩ := List.mem_map.mp hp
      obtain ⟨y, hy, rfl⟩ := List.mem_map.mp hq
      exact ⟨hcut x hx y hy, rfl⟩) (by
      intro p hp
      obtain ⟨x, hx, rfl⟩ := List.mem_map.mp hp
      simp only [RowColumn.left, List.drop_zero, hN x hx])
  refine ⟨_, out, s', hn, h1, h2, h3, ?_⟩
  intro k data last hk
  obtain ⟨h5, h6⟩ := h4 k data last hk
  refine ⟨?_, h6⟩
  rw [h5, List.map_map]
  exact List.map_congr_left fun c _ => by simp [RowColumn.left]

/-- C46: this condition cannot be weakened: if all `N` calls succeed, the columns are cut at the same places. -/
theorem C46_exact {info : SampleInfo} {cols : List RowColumn} {squeeze : List Bool} (hne : cols ≠ [])
    (hc : ∀ c ∈ cols, c.Valid ∧ c.chunks ≠ []) {N : Nat} (hN : ∀ c ∈ cols, c.rows.length = N) {smp : Sample}
    (hs : Sample.ofColumns info cols squeeze = .ok smp) {r : List (List Tensor × Bool) × Sample} (hr : smp.deliverN N = .ok r) :
    ∀ c ∈ cols, ∀ c' ∈ cols, c.lengths = c'.lengths := by
  obtain ⟨n, hn, -⟩ := RowColumn.ofColumns_eq (info := info) (squeeze := squeeze) hne fun c h => (hc c h).2
  rw [hn] at hs
  cases hs
  have := RowColumn.walk_cut (info := info) (num := n) (squeeze := squeeze) N (called := false)
    (ps := cols.map fun c => (c, 0)) (by simpa using hne) (by
      intro p hp
      obtain ⟨c, hm, rfl⟩ := List.mem_map.mp hp
      exact RowColumn.ready_zero (hc c hm).1 (hc c hm).2) (by
      intro p hp q hq
      obtain ⟨x, hx, rfl⟩ := List.mem_map.mp hp
      obtain ⟨y, hy, rfl⟩ := List.mem_map.mp hq
      rfl) (by
      intro p hp
      obtain ⟨x, hx, rfl⟩ := List.mem_map.mp hp
      simp only [RowColumn.left, List.drop_zero, hN x hx]) r hr
  intro c h c' h'
  exact this (c, 0) (List.mem_map.mpr ⟨c, h, rfl⟩) (c', 0) (List.mem_map.mpr ⟨c', h', rfl⟩)

namespace SampleDemo

def row (x : Nat) : Tensor := ⟨.int32, [2], [x, x + 1]⟩
def colA : RowColumn := ⟨.int32, [2], [[row 1, row 2], [row 3, row 4]]⟩
def colB : RowColumn := ⟨.int32, [2], [[row 5, row 6, row 7, row 8]]⟩
def colC : RowColumn := ⟨.int32, [2], [[row 5, row 6], [row 7, row 8]]⟩
def info : SampleInfo := ⟨7, 1 / 2, 10, .val 1, false⟩

theorem valid (c : RowColumn) (h : c ∈ [colA, colB, colC]) : c.Valid ∧ c.chunks ≠ [] := by
  simp only [List.mem_cons, List.not_mem_nil, or_false] at h
  have hrow : ∀ x, x < 100 → Tensor.Is .int32 [2] (row x) := by
    intro x hx
    refine ⟨⟨rfl, ?_⟩, rfl, rfl⟩
    intro w hw y hy
    simp only [row, DType.bits, Option.some.injEq] at hw
    subst hw
    simp only [row, List.mem_cons, List.not_mem_nil, or_false] at hy
    rcases hy with rfl | rfl <;> omega
  rcases h with rfl | rfl | rfl <;> refine ⟨⟨?_, by decide⟩, by decide⟩ <;> intro t ht <;>
    simp only [RowColumn.rows, colA, colB, colC, List.flatten_cons, List.flatten_nil, List.append_nil, List.cons_append, List.nil_append,
      List.mem_cons, List.not_mem_nil, or_false] at ht <;>
    rcases ht with rfl | rfl | rfl | rfl <;> exact hrow _ (by omega)

/-- The hypotheses of C46 are met by a sample with two columns of two chunks. -/
example := C46_partial (info := info) (cols := [colA, colC]) (squeeze := [false, false]) (by simp)
  (fun c h => valid c (by revert h; simp; rintro (rfl | rfl) <;> simp)) (N := 4) (by decide) (by decide)

/-- What the calls return. -/
example : ∃ smp s', Sample.ofColumns info [colA, colC] [false, false] = .ok smp ∧ smp.deliverN 4 =
    .ok ([([row 1, row 5], false), ([row 2, row 6], false), ([row 3, row 7], false), ([row 4, row 8], true)], s') :=
  ⟨_, _, rfl, rfl⟩

def ch1 : ChunkData := ⟨1, none, [Tensor.stack .int32 [2] [row 0, row 1, row 2]], false⟩
def ch2 : ChunkData := ⟨2, none, [Tensor.stack .int32 [2] [row 3, row 4, row 5]], false⟩
def ch3 : ChunkData := ⟨3, none, [Tensor.stack .int32 [2] [row 5, row 6, row 7, row 8]], false⟩

/-- A sampled item: chunks of three rows, from which rows 1 to 4 are used in one column, and one chunk in the other. -/
def item : SampledItem := ⟨info, [⟨[⟨1, 1, 2, 0⟩, ⟨2, 0, 2, 0⟩], false⟩, ⟨[⟨3, 0, 4, 0⟩], false⟩, ⟨[⟨1, 0, 1, 0⟩], true⟩], [ch1, ch2, ch3]⟩

theorem item_valid : item.Valid := ⟨by decide, by decide, by decide⟩

/-- C44 is about such items, and the responses are really split: three entries for the first sample. -/
example := C44_sync (fun e => e.data.length) 1 (samples := [item, item]) (by simp [item_valid])
example : ([item, item].flatMap (splitSync (fun e => e.data.length) 1)).length = 6 := by decide
example : ∃ smp, asSampleLocal item = .ok smp ∧ smp.asTrajectory =
    .ok [Tensor.stack .int32 [2] [row 1, row 2, row 3, row 4], Tensor.stack .int32 [2] [row 5, row 6, row 7, row 8], row 0] := ⟨_, rfl, rfl⟩

def colD : RowColumn := ⟨.int32, [2], [[row 0]]⟩

theorem row_is (x : Nat) (hx : x < 100) : Tensor.Is .int32 [2] (row x) := by
  refine ⟨⟨rfl, ?_⟩, rfl, rfl⟩
  intro w hw y hy
  simp only [row, DType.bits, Option.some.injEq] at hw
  subst hw
  simp only [row, List.mem_cons, List.not_mem_nil, or_false] at hy
  rcases hy with rfl | rfl <;> omega

theorem rows_are {xs : List Nat} (h : ∀ x ∈ xs, x < 100) : ∀ t ∈ xs.map row, Tensor.Is .int32 [2] t := by
  intro t ht
  obtain ⟨x, hx, rfl⟩ := List.mem_map.mp ht
  exact row_is x (h x hx)

theorem item_shows : item.Shows [colA, colB, colD] := by
  have h1 : ∀ t ∈ [0, 1, 2].map row, Tensor.Is .int32 [2] t := rows_are (by decide)
  have h2 : ∀ t ∈ [3, 4, 5].map row, Tensor.Is .int32 [2] t := rows_are (by decide)
  have h3 : ∀ t ∈ [5, 6, 7, 8].map row, Tensor.Is .int32 [2] t := rows_are (by decide)
  refine ⟨rfl, ?_⟩
  intro i col rc hi hrc
  match i with
  | 0 =>
    cases hi; cases hrc
    refine ⟨rfl, ?_⟩
    intro j sl rows hj hrows
    match j with
    | 0 => cases hj; cases hrows; exact ⟨ch1, _, 1, 2, by simp [item], rfl, rfl, h1, rfl, rfl, by decide, rfl⟩
    | 1 => cases hj; cases hrows; exact ⟨ch2, _, 0, 2, by simp [item], rfl, rfl, h2, rfl, rfl, by decide, rfl⟩
    | j + 2 => simp at hj
  | 1 =>
    cases hi; cases hrc
    refine ⟨rfl, ?_⟩
    intro j sl rows hj hrows
    match j with
    | 0 => cases hj; cases hrows; exact ⟨ch3, _, 0, 4, by simp [item], rfl, rfl, h3, rfl, rfl, by decide, rfl⟩
    | j + 1 => simp at hj
  | 2 =>
    cases hi; cases hrc
    refine ⟨rfl, ?_⟩
    intro j sl rows hj hrows
    match j with
    | 0 => cases hj; cases hrows; exact ⟨ch1, _, 0, 1, by simp [item], rfl, rfl, h1, rfl, rfl, by decide, rfl⟩
    | j + 1 => simp at hj
  | i + 3 => simp [item] at hi

/-- The hypotheses of `C44_data` are met by the item. -/
example := C44_data item_valid item_shows (by simp) (by
    intro c h
    simp only [List.mem_cons, List.not_mem_nil, or_false] at h
    rcases h with rfl | rfl | rfl
    · exact valid _ (by simp)
    · exact valid _ (by simp)
    · exact ⟨⟨rows_are (xs := [0]) (by decide), by decide⟩, by decide⟩) (by
    intro i col c hi hc hs
    match i with
    | 0 => cases hi; simp at hs
    | 1 => cases hi; simp at hs
    | 2 => cases hc; rfl
    | i + 3 => simp [item] at hi)

def evs : List Reactor.Event := [.batch [item], .batch [item, item], .writeDone, .batch [item], .writeDone, .writeDone]
example := C44_async (fun _ => 3) 5 (evs := evs) (by simp [evs, Reactor.samplesOf, item_valid])
example : (Reactor.run (fun _ => 3) 5 ⟨[], [], 0⟩ evs).written.length = 4 := by decide
example : (Reactor.run (fun _ => 3) 5 ⟨[], [], 0⟩ evs).queue.length = 3 := by decide

end SampleDemo

/-- C46 is false as stated: a sample is composed of timesteps and has batched data, its columns are cut into chunks of 2 and 2 and
of 4 rows, and the third call of `GetNextTimestep` fails with `InvalidArgument` although two rows are left. -/
theorem C46_differently_cut : ∃ (smp s1 s2 : Sample) (r1 r2 : List Tensor) (b : Int × List Tensor),
    Sample.ofColumns SampleDemo.info [SampleDemo.colA, SampleDemo.colB] [false, false] = .ok smp ∧
    smp.isComposedOfTimesteps = some true ∧ smp.asBatchedTimesteps = .ok b ∧ b.1 = 4 ∧
    smp.deliver = .ok (r1, false, s1) ∧ s1.deliver = .ok (r2, false, s2) ∧ s2.deliver = .err .invalidArgument :=
  ⟨_, _, _, _, _, _, rfl, rfl, rfl, rfl, rfl, rfl, rfl⟩

end Verif
