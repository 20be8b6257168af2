import Verif.Proofs.Sample
import Verif.Proofs.SampleIter
/-
Lemmas for C44 and C46: the data of a sample.
-/
namespace Verif

theorem unpackSlice_selects {s : SampledItem} (hn : (s.chunks.map ChunkData.key).Nodup) {d : DType} {shape : List Nat} {sl : Slice}
    {rows : List Tensor} (h : sl.Selects s.chunks d shape rows) :
    ∃ c, (chunkMap s.chunks).get? sl.chunk = some c ∧ unpackSlice c sl = .ok (Tensor.stack d shape rows) := by
  obtain ⟨c, all, off, len, hc, hk, hu, his, ho, hl, hb, rfl⟩ := h
  refine ⟨c, ?_, ?_⟩
  · rw [chunkMap_get hn]
    obtain ⟨x, hx⟩ : ∃ x, s.chunks.find? (fun c => c.key = sl.chunk) = some x := by
      cases hf : s.chunks.find? (fun c => c.key = sl.chunk) with
      | some x => exact ⟨x, rfl⟩
      | none =>
        rw [List.find?_eq_none] at hf
        exact absurd hk (by simpa using hf c hc)
    have hx1 := List.mem_of_find?_eq_some hx
    have hx2 := List.find?_some hx
    rw [hx]
    simp only [decide_eq_true_eq] at hx2
    obtain ⟨i, hi, rfl⟩ := List.mem_iff_getElem.mp hx1
    obtain ⟨j, hj, rfl⟩ := List.mem_iff_getElem.mp hc
    have hi' := hn.idxOf_getElem i (by simpa using hi)
    have hj' := hn.idxOf_getElem j (by simpa using hj)
    simp only [List.getElem_map, hx2] at hi'
    simp only [List.getElem_map, hk] at hj'
    rw [hi'] at hj'
    subst hj'
    rfl
  · simp only [unpackSlice, unpackChunkColumnAndSlice, hu, ho, hl]
    have hshape : (Tensor.stack d shape all).shape = all.length :: shape := rfl
    simp only [hshape, Int.ofNat_eq_natCast]
    rw [if_neg (by omega), if_neg (by omega)]
    have : ((off : Int) + (len : Int)).toNat = off + len := by omega
    rw [this, Int.toNat_natCast, Tensor.slice_stack his (by omega) hb]
    congr 3
    omega

theorem unpackSlices_selects {s : SampledItem} (hn : (s.chunks.map ChunkData.key).Nodup) {d : DType} {shape : List Nat} :
    ∀ {sls : List Slice} {chs : List (List Tensor)}, sls.length = chs.length →
    (∀ (j : Nat) (sl : Slice) (rows : List Tensor), sls[j]? = some sl → chs[j]? = some rows → sl.Selects s.chunks d shape rows) →
    unpackSlices (chunkMap s.chunks) sls = .ok (chs.map (Tensor.stack d shape))
  | [], chs, hl, _ => by
    have : chs = [] := List.length_eq_zero_iff.mp hl.symm
    subst this
    rfl
  | sl :: sls, [], hl, _ => by simp at hl
  | sl :: sls, rows :: chs, hl, h => by
    obtain ⟨c, h1, h2⟩ := unpackSlice_selects hn (h 0 sl rows rfl rfl)
    have ih := unpackSlices_selects hn (sls := sls) (chs := chs) (by simpa using hl) fun j => h (j + 1)
    simp only [unpackSlices, h1, h2, ih, List.map_cons]

theorem unpackTraj_shows {s : SampledItem} (hn : (s.chunks.map ChunkData.key).Nodup) :
    ∀ {t : FlatTraj} {cols : List RowColumn}, t.length = cols.length →
    (∀ (i : Nat) (col : Column) (rc : RowColumn), t[i]? = some col → cols[i]? = some rc →
      col.slices.length = rc.chunks.length ∧ ∀ (j : Nat) (sl : Slice) (rows : List Tensor), col.slices[j]? = some sl → rc.chunks[j]? = some rows →
        sl.Selects s.chunks rc.dtype rc.shape rows) →
    unpackTraj (chunkMap s.chunks) t = .ok (cols.map RowColumn.tensors)
  | [], cols, hl, _ => by
    have : cols = [] := List.length_eq_zero_iff.mp hl.symm
    subst this
    rfl
  | col :: t, [], hl, _ => by simp at hl
  | col :: t, rc :: cols, hl, h => by
    obtain ⟨h1, h2⟩ := h 0 col rc rfl rfl
    have ih := unpackTraj_shows hn (t := t) (cols := cols) (by simpa using hl) fun i => h (i + 1)
    simp only [unpackTraj, unpackSlices_selects hn h1 h2, ih, List.map_cons, RowColumn.tensors]

theorem asSampleLocal_shows {s : SampledItem} (hn : (s.chunks.map ChunkData.key).Nodup) {cols : List RowColumn} (h : s.Shows cols) :
    asSampleLocal s = Sample.ofColumns s.info cols (s.traj.map Column.squeeze) := by
  simp only [asSampleLocal, unpackTraj_shows hn h.1 h.2, Sample.ofColumns]

namespace RowColumn

theorem at_zero (c : RowColumn) : at' (c, 0) = c.tensors.map fun t => ⟨t, 0⟩ := by
  unfold at' tensors
  cases c.chunks with
  | nil => rfl
  | cons ch rest => simp

theorem ready_zero {c : RowColumn} (h : c.Valid) (hne : c.chunks ≠ []) : Ready (c, 0) := by
  obtain ⟨ch, rest, hch⟩ := List.exists_cons_of_ne_nil hne
  exact ⟨h, ch, rest, hch, List.length_pos_iff.mpr (h.chunks ch (by rw [hch]; simp))⟩

/-- The sample that is made of the columns. -/
theorem ofColumns_eq {info : SampleInfo} {cols : List RowColumn} {squeeze : List Bool} (hne : cols ≠ []) (hc : ∀ c ∈ cols, c.chunks ≠ []) :
    ∃ n, Sample.ofColumns info cols squeeze = .ok (sampleAt info n squeeze false (cols.map fun c => (c, 0))) ∧
      ((∀ c ∈ cols, ∀ c' ∈ cols, c.rows.length = c'.rows.length) → ∀ c ∈ cols, n = Int.ofNat c.rows.length) := by
  obtain ⟨c, rest, rfl⟩ := List.exists_cons_of_ne_nil hne
  obtain ⟨ch, chs, hch⟩ := List.exists_cons_of_ne_nil (hc c List.mem_cons_self)
  obtain ⟨t, ts, ht⟩ : ∃ t ts, c.tensors = t :: ts := ⟨_, _, by rw [tensors, hch, List.map_cons]⟩
  have hcols : (c.tensors :: rest.map tensors).map (fun ts => ts.map fun t => (⟨t, 0⟩ : ColChunk)) =
      ((c :: rest).map fun c => (c, 0)).map at' := by
    simp only [List.map_cons, List.map_map, at_zero, List.cons.injEq, true_and]
    exact List.map_congr_left fun x _ => by rw [Function.comp_apply, Function.comp_apply, at_zero]
  have hlen : columnLength (c.tensors.map fun t => ⟨t, 0⟩) = some c.rows.length := by
    rw [← at_zero, columnLength_at]
  have hcomp := composed_at ((c :: rest).map fun c => (c, 0))
  rw [← hcols] at hcomp
  simp only [Sample.ofColumns, List.map_cons, ht]
  rw [ht] at hcols hlen hcomp
  simp only [Sample.new, Sample.isComposedOfTimesteps, hcomp, hlen]
  by_cases hall : ∀ p ∈ (c :: rest).map (fun c => (c, 0)), ∀ q ∈ (c :: rest).map (fun c => (c, 0)), p.1.rows.length = q.1.rows.length
  · rw [decide_eq_true hall]
    refine ⟨_, by rw [hcols]; rfl, ?_⟩
    intro h x hx
    rw [h x hx c List.mem_cons_self]
    rfl
  · rw [decide_eq_false hall]
    refine ⟨_, by rw [hcols]; rfl, ?_⟩
    intro h
    refine absurd ?_ hall
    intro p hp q hq
    obtain ⟨x, hx, rfl⟩ := List.mem_map.mp hp
    obtain ⟨y, hy, rfl⟩ := List.mem_map.mp hq
    exact h x hx y hy

theorem unpackColumn_at {c : RowColumn} (hne : c.chunks ≠ []) : Sample.unpackColumn (at' (c, 0)) = .ok (Tensor.stack c.dtype c.shape c.rows) := by
  rw [at_zero, tensors]
  have h := Tensor.concat_stacks (d := c.dtype) (s := c.shape) hne
  cases hch : c.chunks with
  | nil => exact absurd hch hne
  | cons ch rest =>
    cases rest with
    | nil => simp [Sample.unpackColumn, rows, hch]
    | cons ch' rest =>
      rw [hch] at h
      simp only [Sample.unpackColumn, List.map_cons, List.map_map]
      simp only [List.map_cons] at h
      rw [rows, hch, ← h]
      rfl

theorem unpackColumns_at : ∀ {cols : List RowColumn}, (∀ c ∈ cols, c.chunks ≠ []) →
    Sample.unpackColumns ((cols.map fun c => (c, 0)).map at') = .ok (cols.map fun c => Tensor.stack c.dtype c.shape c.rows)
  | [], _ => rfl
  | c :: cols, h => by
    have ih := unpackColumns_at (cols := cols) fun x hx => h x (List.mem_cons_of_mem _ hx)
    simp only [List.map_cons, Sample.unpackColumns, unpackColumn_at (h c List.mem_cons_self)]
    simp only [ih]

theorem squeeze_ok : ∀ {qs : List Bool} {cols : List RowColumn}, qs.length = cols.length → (∀ c ∈ cols, c.Valid) →
    (∀ (i : Nat) (c : RowColumn), qs[i]? = some true → cols[i]? = some c → c.rows.length = 1) →
    ∃ out, Sample.squeezeColumns qs (cols.map fun c => Tensor.stack c.dtype c.shape c.rows) = .ok out ∧ out.length = cols.length ∧
      ∀ (i : Nat) (c : RowColumn) (q : Bool) (t : Tensor), cols[i]? = some c → qs[i]? = some q → out[i]? = some t →
        if q then c.rows = [t] else t = Tensor.stack c.dtype c.shape c.rows
  | [], cols, hl, _, _ => by
    have : cols = [] := List.length_eq_zero_iff.mp hl.symm
    subst this
    exact ⟨[], rfl, rfl, by simp⟩
  | q :: qs, [], hl, _, _ => by simp at hl
  | q :: qs, c :: cols, hl, hv, h => by
    obtain ⟨out, h1, h2, h3⟩ := squeeze_ok (qs := qs) (cols := cols) (by simpa using hl) (fun x hx => hv x (List.mem_cons_of_mem _ hx))
      fun i => h (i + 1)
    obtain ⟨t, ht1, ht2⟩ : ∃ t, (if q then Sample.squeezeColumn (Tensor.stack c.dtype c.shape c.rows)
        else .ok (Tensor.stack c.dtype c.shape c.rows)) = .ok t ∧ if q then c.rows = [t] else t = Tensor.stack c.dtype c.shape c.rows := by
      cases q with
      | false => exact ⟨_, rfl, rfl⟩
      | true =>
        have hone := h 0 c rfl rfl
        have hd : (Tensor.stack c.dtype c.shape c.rows).dim0 = some c.rows.length := rfl
        simp only [if_true, Sample.squeezeColumn, hd, hone]
        have hb : 0 < c.rows.length := by omega
        rw [Tensor.subSlice_stack (hv c List.mem_cons_self).rows hb]
        refine ⟨c.rows[0], by simp, ?_⟩
        obtain ⟨x, hx⟩ := List.length_eq_one_iff.mp hone
        simp [hx]
    refine ⟨t :: out, by simp only [List.map_cons, Sample.squeezeColumns, ht1, h1], by simp [h2], ?_⟩
    intro i c' q' t' hc hq ho
    cases i with
    | zero =>
      simp only [List.getElem?_cons_zero, Option.some.injEq] at hc hq ho
      subst hc hq ho
      exact ht2
    | succ i => exact h3 i c' q' t' hc hq ho

end RowColumn
end Verif
