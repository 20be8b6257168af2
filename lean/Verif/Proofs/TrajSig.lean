import Verif.Proofs.TrajMerge
import Verif.Spec.TrajSig
import Verif.Props.C61_C70_OutputSpec
namespace Verif

/-- A row whose data is not given up has the type and shape of the column. -/
theorem Chunker.Used.typed {c : Chunker} {rows : List Chunker.Row} (h : c.Used rows) {i : Nat} (hh : Chunker.Held c i) {row : Chunker.Row}
    (hr : rows[i]? = some row) : Tensor.Is c.dtype c.shape row.tensor := by
  obtain ⟨bs, cur, d, h1, h2, h3⟩ := h
  subst h3
  rcases h1.locate hr with ⟨j, b, o, k1, k2, k3, k4⟩ | ⟨o, k1, k2, k3⟩
  · cases hb : b.chunk with
    | some ch =>
      exact (h1.good j b ch k1 hb).holds.2 _ (List.mem_map_of_mem (List.mem_of_getElem? k2))
    | none =>
      exfalso
      have hl := h1.lost j b k1 hb
      have ho := (List.getElem?_eq_some_iff.mp k2).1
      have ht : Chunker.total (bs.take (j + 1)) = Chunker.total (bs.take j) + b.rows.length := by
        rw [List.take_add_one, k1]
        simp [Chunker.total]
      rcases hh with hh | hh
      · rw [h1.active, List.mem_range'_1] at hh
        omega
      · apply hh
        simp [Chunker.cellAt, k4, hb]
  · exact h1.tensors _ (List.mem_of_getElem? k1)

namespace TrajWriter
open Chunker (Row)

theorem merge_facts (cells : List Cell) : ((mergeAdjacent cells).map Slice.length).sum = (cells.length : Int) ∧
    (mergeAdjacent cells).head?.map Slice.chunk = cells.head?.map Cell.key := by
  have key : ∀ (cells : List Cell) (acc : List Slice), ((cells.foldl mergeStep acc).map Slice.length).sum = (acc.map Slice.length).sum + (cells.length : Int) ∧
      (acc ≠ [] → (cells.foldl mergeStep acc).head?.map Slice.chunk = acc.head?.map Slice.chunk) := by
    intro cells
    induction cells with
    | nil => intro acc; simp
    | cons c cells ih =>
      intro acc
      obtain ⟨i1, i2⟩ := ih (mergeStep acc c)
      have hstep : ((mergeStep acc c).map Slice.length).sum = (acc.map Slice.length).sum + 1 ∧ mergeStep acc c ≠ [] ∧
          (acc ≠ [] → (mergeStep acc c).head?.map Slice.chunk = acc.head?.map Slice.chunk) := by
        unfold mergeStep
        rcases List.eq_nil_or_concat acc with rfl | ⟨acc', s, rfl⟩
        · simp
        · simp only [List.concat_eq_append, List.getLast?_append, List.getLast?_singleton, Option.some_or, List.dropLast_concat]
          split
          · refine ⟨by simp; omega, by simp, fun _ => ?_⟩
            cases acc' <;> simp
          · refine ⟨by simp; omega, by simp, fun _ => ?_⟩
            cases acc' <;> simp
      simp only [List.foldl_cons, List.length_cons]
      refine ⟨by rw [i1, hstep.1]; omega, fun hne => ?_⟩
      rw [i2 hstep.2.1, hstep.2.2 hne]
  refine ⟨by simpa [mergeAdjacent] using (key cells []).1, ?_⟩
  cases cells with
  | nil => rfl
  | cons c cells =>
    have : mergeStep [] c = [⟨c.key, c.offset, 1, 0⟩] := rfl
    unfold mergeAdjacent
    rw [List.foldl_cons, this, (key cells _).2 (by simp)]
    rfl

theorem mapM_some {α β : Type} {f : α → Option β} {g : α → β} : ∀ {l : List α}, (∀ x ∈ l, f x = some (g x)) → l.mapM f = some (l.map g)
  | [], _ => rfl
  | x :: l, h => by
    rw [List.mapM_cons, h x (by simp), mapM_some fun y hy => h y (by simp [hy])]
    rfl

/-- References with the same chunk key belong to the same column. -/
theorem Base.sameCol {w : TrajWriter} {rows : Nat → List Row} (h : w.Base rows) {r s : Ref} (hr : (w.cell? r).isSome) (hs : (w.cell? s).isSome)
    (hk : w.keyOf r = w.keyOf s) : r.col = s.col := by
  have look : ∀ r : Ref, (w.cell? r).isSome → ∃ n, w.keyOf r = w.colGen r.col n := by
    intro r hr
    obtain ⟨x, hx⟩ := Option.isSome_iff_exists.mp hr
    have hx' := hx
    unfold cell? at hx
    cases hc : w.chunkers.get? r.col with
    | none => simp [hc] at hx
    | some c =>
      rw [hc] at hx
      obtain ⟨u1, u2⟩ := h.cols.used _ c hc
      obtain ⟨n, hn⟩ := u1.key hx
      exact ⟨n, by simp [keyOf, hx', hn, u2]⟩
  obtain ⟨n, hn⟩ := look r hr
  obtain ⟨m, hm⟩ := look s hs
  exact (h.inj _ _ _ _ (by rw [← hn, ← hm]; exact hk)).1

/-- The spec that `CreateItem` finds for a column is that of its rows. -/
theorem Base.columnSpec {w : TrajWriter} {rows : Nat → List Row} (h : w.Base rows) {refs : List Ref} (hrefs : ∀ r ∈ refs, (w.cell? r).isSome)
    {col : TrajCol} (hsub : ∀ r ∈ col.refs, r ∈ refs) {r0 : Ref} (h0 : col.refs.head? = some r0) {d : DType} {sh : List Nat}
    (hsp : w.specOf r0 = some (d, sh)) :
    w.columnSpec refs (w.toColumn col) = some ⟨d, .ofShape (if col.squeeze then sh else col.refs.length :: sh)⟩ := by
  obtain ⟨rest, hc⟩ : ∃ rest, col.refs = r0 :: rest := by
    cases hcr : col.refs with
    | nil => simp [hcr] at h0
    | cons a l => rw [hcr] at h0; simp at h0; exact ⟨l, by rw [h0]⟩
  have hm0 : r0 ∈ refs := hsub r0 (by rw [hc]; simp)
  obtain ⟨x0, hx0⟩ := Option.isSome_iff_exists.mp (hrefs r0 hm0)
  have hcells : (col.refs.filterMap w.cell?).length = col.refs.length := by
    have : ∀ l : List Ref, (∀ r ∈ l, (w.cell? r).isSome) → (l.filterMap w.cell?).length = l.length := by
      intro l
      induction l with
      | nil => intro _; rfl
      | cons a l ih =>
        intro hl
        obtain ⟨x, hx⟩ := Option.isSome_iff_exists.mp (hl a (by simp))
        rw [List.filterMap_cons_some hx, List.length_cons, List.length_cons, ih fun r hr => hl r (by simp [hr])]
    exact this _ fun r hr => hrefs r (hsub r hr)
  obtain ⟨m1, m2⟩ := merge_facts (col.refs.filterMap w.cell?)
  rw [hcells] at m1
  have hhead : (mergeAdjacent (col.refs.filterMap w.cell?)).head?.map Slice.chunk = some (w.keyOf r0) := by
    rw [m2, hc, List.filterMap_cons_some hx0]
    simp [keyOf, hx0]
  unfold TrajWriter.columnSpec toColumn
  cases hsl : mergeAdjacent (col.refs.filterMap w.cell?) with
  | nil => simp [hsl] at hhead
  | cons s sl =>
    rw [hsl] at hhead
    simp only [List.head?_cons, Option.map_some, Option.some.injEq] at hhead
    simp only
    have hfind : ∃ r, refs.find? (fun r => decide (w.keyOf r = s.chunk)) = some r := by
      cases hf : refs.find? (fun r => decide (w.keyOf r = s.chunk)) with
      | some r => exact ⟨r, rfl⟩
      | none => exact absurd (List.find?_eq_none.mp hf r0 hm0) (by simp [hhead])
    obtain ⟨r, hf⟩ := hfind
    rw [hf]
    simp only
    have hk : w.keyOf r = s.chunk := by simpa using List.find?_some hf
    have hcol := h.sameCol (hrefs r (List.mem_of_find?_eq_some hf)) (hrefs r0 hm0) (hk.trans hhead)
    have hsp' : w.specOf r = some (d, sh) := by rw [← hsp]; simp [specOf, hcol]
    rw [hsp']
    simp only [Option.map_some, Option.some.injEq, TensorSpec.mk.injEq, true_and]
    have hlen : Column.length ⟨s :: sl, col.squeeze⟩ = (col.refs.length : Int) := by
      rw [← hsl]; exact m1
    rw [hlen]
    split
    · rfl
    · simp only [PShape.insertDim0, PShape.ofShape, Option.map_some, List.map_cons]
      rw [if_neg (by omega), Int.toNat_natCast]

theorem createItem_eq {W : TrajWriter} (hu : W.unrecoverable = none) (t : String) (p : Pri) {cols : List TrajCol}
    (hne : ¬ (cols.all fun c => c.refs.isEmpty) = true) : W.createItem t p cols =
      match W.validateColumns cols with
      | .err e => (W, .err e)
      | .died => (W, .died)
      | .ok () =>
        match W.validateItem (W.makeItem t p cols) with
        | .err e => ({ W with drawn := W.drawn + 1 }, .err e)
        | .died => ({ W with drawn := W.drawn + 1 }, .died)
        | .ok () => ({ W with
            drawn := W.drawn + 1
            queue := W.queue ++ [W.makeItem t p cols] }, .ok (W.makeItem t p cols).key) := by
  unfold createItem
  rw [if_neg hne]
  split
  · rename_i e he
    rw [hu] at he
    cases he
  · rfl

theorem validateColumn_good {W : TrajWriter} {col : TrajCol} (hne : col.refs ≠ []) :
    (W.validateColumn col = .ok () ↔ (∀ r ∈ col.refs, W.alive r = true) ∧ (col.squeeze = true → col.refs.length = 1) ∧
      ∀ r ∈ col.refs, ∀ s ∈ col.refs, W.specOf r = W.specOf s) ∧
    (W.validateColumn col ≠ .ok () → W.validateColumn col = .err .invalidArgument) := by
  constructor
  · constructor
    · intro h
      obtain ⟨h1, h2, _, h4⟩ := validateColumn_iff h
      exact ⟨h1, h2, h4⟩
    · rintro ⟨h1, h2, h3⟩
      unfold validateColumn
      rw [if_neg (by simp only [List.any_eq_true, Bool.not_eq_true', not_exists, not_and]; intro r hr; simp [h1 r hr]),
        if_neg (fun ⟨a, b⟩ => b (h2 a))]
      split
      · rename_i he; exact absurd he hne
      · rename_i r rest he
        rw [if_neg]
        simp only [List.any_eq_true, decide_eq_true_eq, not_exists, not_and]
        intro s hs hd
        exact hd (h3 s (by rw [he]; simp [hs]) r (by rw [he]; simp))
  · unfold validateColumn
    split
    · exact fun _ => rfl
    · split
      · exact fun _ => rfl
      · split
        · rename_i he; exact absurd he hne
        · split
          · exact fun _ => rfl
          · exact fun h => absurd rfl h

theorem validateColumns_good {W : TrajWriter} : ∀ {cols : List TrajCol}, (∀ col ∈ cols, col.refs ≠ []) →
    (W.validateColumns cols = .ok () ↔ ∀ col ∈ cols, W.validateColumn col = .ok ()) ∧
    (W.validateColumns cols ≠ .ok () → W.validateColumns cols = .err .invalidArgument)
  | [], _ => by simp [validateColumns]
  | col :: cols, h => by
    obtain ⟨i1, i2⟩ := validateColumns_good (W := W) (cols := cols) fun c hc => h c (by simp [hc])
    have hc := (validateColumn_good (W := W) (h col (by simp))).2
    unfold validateColumns
    by_cases h1 : W.validateColumn col = .ok ()
    · simp only [h1]
      refine ⟨by rw [i1]; simp [h1], i2⟩
    · rw [hc h1]
      simp [hc h1]

/-! ### The signatures stay -/

theorem addChunkers_sig : ∀ (data : List (Option Tensor)) (w : TrajWriter) (i : Nat), (w.addChunkers i data).1.sig = w.sig
  | [], _, _ => rfl
  | none :: data, w, i => by unfold addChunkers; exact addChunkers_sig data w (i + 1)
  | some t :: data, w, i => by
    unfold addChunkers
    split
    · exact addChunkers_sig data w (i + 1)
    · split
      · exact addChunkers_sig data _ (i + 1)
      · rfl
      · rfl

theorem appendAll_sig : ∀ (data : List (Option Tensor)) (w : TrajWriter) (i : Nat), (w.appendAll i data).1.sig = w.sig
  | [], _, _ => rfl
  | none :: data, w, i => by
    have := appendAll_sig data w (i + 1)
    unfold appendAll
    split <;> (rename_i h; rw [h] at this; exact this)
  | some t :: data, w, i => by
    unfold appendAll
    split
    · rfl
    · split
      · rfl
      · rfl
      · rename_i c' id _
        have := appendAll_sig data { w with chunkers := w.chunkers.insert i c' } (i + 1)
        split <;> (rename_i h; rw [h] at this; exact this)

theorem forceRefs_sig : ∀ (refs : List Ref) (w : TrajWriter), (w.forceRefs refs).1.sig = w.sig
  | [], _ => rfl
  | r :: rest, w => by
    unfold forceRefs
    split
    · exact forceRefs_sig rest w
    · split
      · rfl
      · split
        · exact forceRefs_sig rest _
        · rfl
        · rfl

theorem handle_sig (w : TrajWriter) (e : Event) : (w.handle e).1.sig = w.sig := by
  cases e with
  | append data inc =>
    simp only [handle, append]
    have h1 := addChunkers_sig data w 0
    split
    · rfl
    · split
      · rename_i h; rw [h] at h1; exact h1
      · rename_i h; rw [h] at h1; exact h1
      · rename_i w1 h
        rw [h] at h1
        have h2 := appendAll_sig data w1 0
        split <;> (rename_i g; rw [g] at h2; exact h2.trans h1)
  | createItem t p cols =>
    simp only [handle]
    rcases createItem_cases w t p cols with ⟨r, h, _⟩ | ⟨r, h, _⟩ | ⟨_, _, _, h⟩ <;> rw [h]
  | flushBegin k => exact forceRefs_sig _ w
  | flushEnd k => simp only [handle]; split <;> rfl
  | episodeBegin =>
    simp only [handle]
    split
    · rfl
    · exact forceRefs_sig _ w
  | episodeEnd clear =>
    simp only [handle]
    split
    · rfl
    · simp only [endEpisode]
      split <;> rfl
    · rfl
  | configure col o =>
    simp only [handle, configure]
    split <;> try rfl
    split <;> rfl
  | close => rfl
  | worker inp => exact (workerStep_frame w inp).2.2.2.2.1
  | confirm keys => rfl

theorem run_sig (w : TrajWriter) (evs : List Event) : (w.run evs).sig = w.sig := by
  induction evs generalizing w with
  | nil => rfl
  | cons e evs ih => rw [run_cons, ih, handle_sig]

end TrajWriter
end Verif
