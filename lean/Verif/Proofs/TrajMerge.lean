import Verif.Proofs.TrajRun
import Verif.Props.C44_C46_Sample
/-
The slices of a column whose references are contiguous.
-/
namespace Verif
namespace TrajWriter
open Chunker (Row Used Moves Held ident)

/-- The offset of a reference. -/
def offOf (w : TrajWriter) (r : Ref) : Nat :=
  match w.cell? r with
  | some cell => cell.offset
  | none => 0

/-- Steps that follow each other in one chunk. -/
def Group (w : TrajWriter) (g : List Ref) : Prop :=
  ∃ r n, g = (List.range (n + 1)).map (fun j => (⟨r.col, r.id + j⟩ : Ref)) ∧ ∀ x ∈ g, w.keyOf x = w.keyOf r

/-- The slice for a group. -/
def slice (w : TrajWriter) (g : List Ref) : Slice :=
  match g with
  | [] => ⟨0, 0, 0, 0⟩
  | r :: _ => ⟨w.keyOf r, w.offOf r, g.length, 0⟩

theorem Group.head {w : TrajWriter} {g : List Ref} (h : w.Group g) : ∃ r rest, g = r :: rest ∧ (∀ x ∈ g, w.keyOf x = w.keyOf r) ∧
    ∀ (j : Nat) (x : Ref), g[j]? = some x → x = ⟨r.col, r.id + j⟩ := by
  obtain ⟨r, n, h1, h2⟩ := h
  refine ⟨r, (List.range n).map (fun j => ⟨r.col, r.id + (j + 1)⟩), ?_, h2, fun j x hj => ?_⟩
  · rw [h1, List.range_succ_eq_map]
    simp
  · rw [h1, List.getElem?_map] at hj
    cases hr : (List.range (n + 1))[j]? with
    | none => simp [hr] at hj
    | some y =>
      rw [hr] at hj
      simp only [Option.map_some, Option.some.injEq] at hj
      have := (List.getElem?_eq_some_iff.mp hr).2
      simp only [List.getElem_range] at this
      rw [← hj, this]

/-- A way to check `Contiguous`. -/
theorem contiguous_of {w : TrajWriter} {refs : List Ref} (h : ∀ i, i < refs.length → ∀ r ∈ refs[i]?, ∀ s ∈ refs[i + 1]?, w.keyOf r = w.keyOf s →
    s = ⟨r.col, r.id + 1⟩) : w.Contiguous refs := by
  rintro a r s b rfl hk
  exact h a.length (by simp) r (by simp) s (by simp) hk

theorem merge_go {w : TrajWriter} : ∀ {refs : List Ref} {groups : List (List Ref)}, (∀ g ∈ groups, w.Group g) →
    w.Contiguous (groups.flatten ++ refs) → (∀ r ∈ refs, (w.cell? r).isSome) →
    ∃ groups' : List (List Ref), (∀ g ∈ groups', w.Group g) ∧ groups'.flatten = groups.flatten ++ refs ∧
      (refs.filterMap w.cell?).foldl mergeStep (groups.map w.slice) = groups'.map w.slice
  | [], groups, hg, _, _ => ⟨groups, hg, by simp, rfl⟩
  | r :: refs, groups, hg, hc, hs => by
    obtain ⟨x, hx⟩ := Option.isSome_iff_exists.mp (hs r List.mem_cons_self)
    have hk : x.key = w.keyOf r := by simp [keyOf, hx]
    have ho : x.offset = w.offOf r := by simp [offOf, hx]
    have hone : w.Group [r] := ⟨r, 0, by simp, by simp⟩
    have hslice : w.slice [r] = ⟨x.key, x.offset, 1, 0⟩ := by simp [slice, hk, ho]
    simp only [List.filterMap_cons, hx, List.foldl_cons]
    have hnew : ∀ groups1 : List (List Ref), (∀ g ∈ groups1, w.Group g) → groups1.flatten = groups.flatten ++ [r] →
        mergeStep (groups.map w.slice) x = groups1.map w.slice →
        ∃ groups' : List (List Ref), (∀ g ∈ groups', w.Group g) ∧ groups'.flatten = groups.flatten ++ r :: refs ∧
          (refs.filterMap w.cell?).foldl mergeStep (mergeStep (groups.map w.slice) x) = groups'.map w.slice := by
      intro groups1 k1 k2 k3
      obtain ⟨g', a1, a2, a3⟩ := merge_go (refs := refs) k1 (by rw [k2]; simpa using hc) fun y hy => hs y (List.mem_cons_of_mem _ hy)
      exact ⟨g', a1, by rw [a2, k2]; simp, by rw [k3]; exact a3⟩
    have happ : ∀ g ∈ groups ++ [[r]], w.Group g := by
      intro g hgm
      rcases List.mem_append.mp hgm with hgm | hgm
      · exact hg g hgm
      · simp only [List.mem_singleton] at hgm
        subst hgm
        exact hone
    rcases List.eq_nil_or_concat groups with rfl | ⟨gs, g, rfl⟩
    · exact hnew [[r]] (by simpa using happ) (by simp) (by simp [mergeStep, hslice])
    · have hgg : w.Group g := hg g (by simp)
      obtain ⟨h0, rest, e1, e2, e3⟩ := hgg.head
      have hlast : (((gs ++ [g])).map w.slice).getLast? = some (w.slice g) := by simp
      have hsl : w.slice g = ⟨w.keyOf h0, w.offOf h0, g.length, 0⟩ := by rw [e1]; rfl
      simp only [List.concat_eq_append] at *
      by_cases hkey : w.keyOf h0 = x.key
      · obtain ⟨ini, l, hl⟩ : ∃ ini l, g = ini ++ [l] := by
          rcases List.eq_nil_or_concat g with rfl | ⟨a, b, rfl⟩
          · cases e1
          · exact ⟨a, b, by simp⟩
        have hlk : w.keyOf l = w.keyOf h0 := e2 l (by rw [hl]; simp)
        have hli : l = ⟨h0.col, h0.id + ini.length⟩ := e3 ini.length l (by rw [hl]; simp)
        have hr : r = ⟨l.col, l.id + 1⟩ := hc (gs.flatten ++ ini) l r refs (by simp [hl]) (by rw [hlk, hkey, hk])
        have hgr : w.Group (g ++ [r]) := by
          obtain ⟨r0, n, f1, f2⟩ := hgg
          have hh : r0 = h0 := by
            have := congrArg List.head? f1
            rw [e1, List.range_succ_eq_map] at this
            simpa using this.symm
          subst hh
          have hn : ini.length = n := by
            have := congrArg List.length f1
            rw [hl] at this
            simpa using this
          refine ⟨r0, n + 1, ?_, fun y hy => ?_⟩
          · rw [List.range_succ, List.map_append, ← f1]
            simp [hr, hli, hn, Nat.add_assoc]
          · rcases List.mem_append.mp hy with hy | hy
            · exact f2 y hy
            · simp only [List.mem_singleton] at hy
              subst hy
              rw [← hk, hkey]
        refine hnew (gs ++ [g ++ [r]]) (fun y hy => ?_) (by simp) ?_
        · rcases List.mem_append.mp hy with hy | hy
          · exact hg y (List.mem_append_left _ hy)
          · simp only [List.mem_singleton] at hy
            subst hy
            exact hgr
        · unfold mergeStep
          rw [hlast]
          simp only [hsl, hkey, ne_eq, not_true_eq_false, if_false]
          have : w.slice (g ++ [r]) = ⟨x.key, w.offOf h0, g.length + 1, 0⟩ := by
            rw [e1]
            simp [slice, hkey]
          simp [this]
      · refine hnew (gs ++ [g] ++ [[r]]) happ (by simp) ?_
        unfold mergeStep
        rw [hlast]
        simp only [hsl, hkey, ne_eq, not_false_eq_true, if_true]
        simp [hslice]

/-- The slices of a column. -/
theorem merge_groups {w : TrajWriter} {refs : List Ref} (hc : w.Contiguous refs) (hs : ∀ r ∈ refs, (w.cell? r).isSome) :
    ∃ groups : List (List Ref), (∀ g ∈ groups, w.Group g) ∧ groups.flatten = refs ∧ mergeAdjacent (refs.filterMap w.cell?) = groups.map w.slice := by
  obtain ⟨g, h1, h2, h3⟩ := merge_go (refs := refs) (groups := []) (by simp) (by simpa using hc) hs
  exact ⟨g, h1, by simpa using h2, h3⟩

/-- The rows that are named by references. -/
theorem Inv.runNames {w : TrajWriter} {rows : Nat → List Row} {cr P : List WItem} {cf : List Key} (h : w.Inv rows cr cf P) {evs : List Event}
    (hv : ∀ e ∈ evs, e.Valid) : ∃ rows' P', (w.run evs).Inv rows' (cr ++ w.added evs) (cf ++ confirmed evs) P' ∧ Grows rows rows' ∧
      MMoves w.chunkers (w.run evs).chunkers true ∧ ∀ r t, w.Names evs r t → ∃ row, (rows' r.col)[r.id]? = some row ∧ row.tensor = t := by
  induction evs generalizing w rows cr P cf with
  | nil => exact ⟨rows, P, by simpa [added, confirmed, TrajWriter.run] using h, Grows.refl _, MMoves.refl _ _, fun r t hn => by
      obtain ⟨pre, _, _, _, _, he, _⟩ := hn
      simp at he⟩
  | cons e evs ih =>
    obtain ⟨rows1, P1, h1, h2, h3, h4⟩ := h.handle (hv e List.mem_cons_self)
    obtain ⟨rows2, P2, g1, g2, g3, g4⟩ := ih h1 fun x hx => hv x (List.mem_cons_of_mem _ hx)
    refine ⟨rows2, P2, ?_, h2.trans g2, h3.trans' g3, fun r t hn => ?_⟩
    · rw [run_cons, confirmed_cons]
      simp only [added]
      rw [← List.append_assoc, ← List.append_assoc]
      exact g1
    · obtain ⟨pre, data, inc, post, refs, he, hr, hd, hrf⟩ := hn
      cases pre with
      | nil =>
        simp only [List.nil_append, List.cons.injEq] at he
        obtain ⟨t', k1, k2, k3⟩ := h4 data inc refs he.1 (by rw [he.1]; exact hr) r.col r hrf
        rw [hd] at k1
        cases k1
        obtain ⟨tl, htl⟩ := g2 r.col
        exact ⟨_, by rw [← htl, List.getElem?_append_left (List.getElem?_eq_some_iff.mp k3).1]; exact k3, rfl⟩
      | cons e' pre =>
        simp only [List.cons_append, List.cons.injEq] at he
        obtain ⟨rfl, rfl⟩ := he
        exact g4 r t ⟨pre, data, inc, post, refs, rfl, hr, hd, hrf⟩

/-- The item that is made by a `CreateItem` is the one with its key. -/
theorem made {w : TrajWriter} (hs : w.Started) {pre post : List Event} {t : String} {p : Pri} {cols : List TrajCol}
    (hv : ∀ e ∈ pre ++ .createItem t p cols :: post, e.Valid) {k : Key} (hr : w.replyAt pre (.createItem t p cols) = .ok (.item k)) {it : WItem}
    (hi : it ∈ w.added (pre ++ .createItem t p cols :: post)) (hk : it.key = k) :
    it = (w.run pre).makeItem t p cols ∧ (w.run pre).validateColumns cols = .ok () ∧ cols ≠ [] := by
  obtain ⟨rows, P, h⟩ := hs.run hv
  have hm : (w.run pre).makeItem t p cols ∈ w.added (pre ++ .createItem t p cols :: post) := by
    rw [added_append]
    refine List.mem_append_right _ ?_
    simp only [added]
    refine List.mem_append_left _ ?_
    unfold replyAt at hr
    rw [hr]
    exact List.mem_singleton.mpr rfl
  have hne : cols ≠ [] := by
    rintro rfl
    simp [replyAt, TrajWriter.handle, createItem, Reply.of] at hr
  unfold replyAt TrajWriter.handle at hr
  simp only at hr
  rcases createItem_cases (w.run pre) t p cols with ⟨r, he, hn⟩ | ⟨r, he, hn⟩ | ⟨hvc, _, _, he⟩
  · rw [he] at hr
    cases r with
    | ok k' => exact absurd rfl (hn k')
    | err e => simp [Reply.of] at hr
    | died => simp [Reply.of] at hr
  · rw [he] at hr
    cases r with
    | ok k' => exact absurd rfl (hn k')
    | err e => simp [Reply.of] at hr
    | died => simp [Reply.of] at hr
  · rw [he] at hr
    simp only [Reply.of, Res.ok.injEq, Reply.item.injEq] at hr
    refine ⟨?_, hvc, hne⟩
    have hnd := h.q.nodup
    obtain ⟨i, hi'⟩ := List.getElem?_of_mem hi
    obtain ⟨j, hj'⟩ := List.getElem?_of_mem hm
    have h1 : ((w.added (pre ++ .createItem t p cols :: post)).map WItem.key)[i]? = some k := by rw [List.getElem?_map, hi']; simp [hk]
    have h2 : ((w.added (pre ++ .createItem t p cols :: post)).map WItem.key)[j]? = some k := by
      rw [List.getElem?_map, hj']
      simp only [Option.map_some, Option.some.injEq]
      exact hr
    have hij : i = j := by
      have hlt := (List.getElem?_eq_some_iff.mp h1).1
      exact (List.getElem?_inj hlt hnd).mp (h1.trans h2.symm)
    rw [hij, hj'] at hi'
    exact (Option.some.inj hi').symm

/-- A group selects its rows from a chunk. -/
theorem Group.selects {w W : TrajWriter} {b : Bool} (hm : MMoves w.chunkers W.chunkers b) {rows : Nat → List Row} (hb : W.Base rows) {g : List Ref}
    (hg : w.Group g) (hs : ∀ r ∈ g, (w.cell? r).isSome) {chunks : List ChunkData} (hkn : ∀ ch ∈ chunks, W.Known ch)
    (hk : ∀ r ∈ g, w.keyOf r ∈ chunks.map ChunkData.key) {tensor : Ref → Tensor}
    (ht : ∀ r ∈ g, ∃ row, (rows r.col)[r.id]? = some row ∧ row.tensor = tensor r) {d : DType} {sh : List Nat}
    (hsp : ∀ r ∈ g, w.specOf r = some (d, sh)) :
    (w.slice g).Selects chunks d sh (g.map tensor) ∧ ∀ r ∈ g, Tensor.Is d sh (tensor r) := by
  obtain ⟨r, rest, e1, e2, e3⟩ := hg.head
  have hrg : r ∈ g := by rw [e1]; simp
  obtain ⟨ch, hch, hck⟩ := List.mem_map.mp (hk r hrg)
  obtain ⟨r', hr'⟩ := hkn ch hch
  -- the cells in the later state
  have hcell : ∀ x ∈ g, ∃ c y, W.chunkers.get? x.col = some c ∧ c.cells[x.id]? = some y ∧ y.key = w.keyOf x ∧ y.offset = w.offOf x ∧
      c.dtype = d ∧ c.shape = sh := by
    intro x hx
    obtain ⟨y0, hy0⟩ := Option.isSome_iff_exists.mp (hs x hx)
    have hsx := hsp x hx
    unfold cell? at hy0
    cases hc0 : w.chunkers.get? x.col with
    | none => simp [hc0] at hy0
    | some c0 =>
      have hy0' := hy0
      rw [hc0] at hy0'
      simp only [Option.bind_some] at hy0'
      obtain ⟨c, hc, hmv⟩ := hm _ c0 hc0
      obtain ⟨y, hy, hid, _⟩ := hmv.cells _ y0 hy0'
      simp only [ident, Prod.mk.injEq] at hid
      simp only [specOf, hc0, Option.map_some, Option.some.injEq, Prod.mk.injEq] at hsx
      have hcw : w.cell? x = some y0 := by unfold cell?; exact hy0
      exact ⟨c, y, hc, hy, by simp [keyOf, hcw, hid.1], by simp [offOf, hcw, hid.2.1], by rw [hmv.dtype, hsx.1], by rw [hmv.shape, hsx.2]⟩
  obtain ⟨c, y, hc, hy, hyk, hyo, hdt, hshp⟩ := hcell r hrg
  have hWr : W.chunkOf r = some ch := by
    have hkk : W.keyOf r = W.keyOf r' := by
      rw [← hb.chunk hr', hck, keyOf_moves hm (hs r hrg)]
    exact (hb.same hr' (cells_moves hm (hs r hrg)) hkk).2
  have hychunk : y.chunk = some ch := by
    unfold chunkOf cell? at hWr
    rw [hc] at hWr
    simpa [hy] using hWr
  obtain ⟨pre, mid, post, b1, b2, b3, _, b5⟩ := (hb.cols.used _ c hc).1.block hy hychunk
  have hpos := b5 r.id y hy rfl
  -- the places of the members
  have hmem : ∀ (j : Nat) (x : Ref), g[j]? = some x → ∃ row, mid[y.offset + j]? = some row ∧ row.tensor = tensor x := by
    intro j x hj
    have hxg : x ∈ g := List.mem_of_getElem? hj
    have hx := e3 j x hj
    obtain ⟨c', z, k1, k2, k3, k4, _⟩ := hcell x hxg
    have hcol : x.col = r.col := by rw [hx]
    rw [hcol, hc] at k1
    cases k1
    obtain ⟨p1, p2, _⟩ := b5 x.id z k2 (by rw [k3, hyk, e2 x hxg])
    obtain ⟨row, q1, q2⟩ := ht x hxg
    have hid : x.id = r.id + j := by rw [hx]
    have hzo : z.offset = y.offset + j := by omega
    rw [hcol, b1, List.append_assoc, List.getElem?_append_right (by omega), show x.id - pre.length = z.offset by omega,
      List.getElem?_append_left p2, hzo] at q1
    exact ⟨row, q1, q2⟩
  have hmidmap : (mid.map Row.tensor).drop y.offset = (mid.drop y.offset).map Row.tensor := by rw [List.map_drop]
  have hglen : y.offset + g.length ≤ mid.length := by
    have hl : 0 < g.length := List.length_pos_of_mem hrg
    obtain ⟨row, q, _⟩ := hmem (g.length - 1) (g[g.length - 1]'(by omega)) (List.getElem?_eq_getElem _)
    have := (List.getElem?_eq_some_iff.mp q).1
    omega
  have hgmap : g.map tensor = ((mid.map Row.tensor).drop y.offset).take g.length := by
    apply List.ext_getElem?
    intro j
    by_cases hj : j < g.length
    · obtain ⟨row, q1, q2⟩ := hmem j (g[j]) (List.getElem?_eq_getElem hj)
      rw [List.getElem?_take_of_lt hj, List.getElem?_drop, List.getElem?_map, List.getElem?_map, q1, List.getElem?_eq_getElem hj]
      simp [q2]
    · rw [List.getElem?_eq_none (by simpa using Nat.le_of_not_lt hj), List.getElem?_eq_none]
      simp only [List.length_take]
      omega
  refine ⟨⟨ch, mid.map Row.tensor, y.offset, g.length, hch, ?_, ?_, ?_, ?_, ?_, by simpa using hglen, hgmap⟩, fun x hx => ?_⟩
  · rw [e1]; simp only [slice]; exact hck
  · rw [e1]; simp only [slice]; rw [← hdt, ← hshp]; exact b3.1
  · rw [← hdt, ← hshp]; exact b3.2
  · rw [e1]; simp only [slice]; rw [hyo]; rfl
  · rw [e1]; simp only [slice]; rfl
  · obtain ⟨j, hj⟩ := List.getElem?_of_mem hx
    obtain ⟨row, q1, q2⟩ := hmem j x hj
    rw [← q2, ← hdt, ← hshp]
    exact b3.2 _ (List.mem_map_of_mem (List.mem_of_getElem? q1))

end TrajWriter
end Verif
