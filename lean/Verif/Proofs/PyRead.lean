import Verif.Proofs.PyRun
/-
Neighbours in the history that share a chunk follow each other in the chunk.
-/
namespace Verif
namespace Chunker

theorem Ordered.next {rows : List Row} (h : Ordered rows) {o o' : Nat} {a b : Row} (ha : rows[o]? = some a) (hb : rows[o']? = some b)
    (hs : a.episode = b.episode → b.step = a.step + 1) : o' = o + 1 := by
  have hlt := (List.getElem?_eq_some_iff.mp ha).1
  have hlt' := (List.getElem?_eq_some_iff.mp hb).1
  have hpw := List.pairwise_iff_getElem.mp h
  have ea : rows[o] = a := (List.getElem?_eq_some_iff.mp ha).2
  have eb : rows[o'] = b := (List.getElem?_eq_some_iff.mp hb).2
  rcases Nat.lt_trichotomy o o' with hh | hh | hh
  · have h1 := hpw o o' hlt hlt' hh
    rw [ea, eb] at h1
    have h2 := hs h1.1
    by_cases hm : o + 1 = o'
    · exact hm.symm
    · have g1 := hpw o (o + 1) hlt (by omega) (by omega)
      have g2 := hpw (o + 1) o' (by omega) hlt' (by omega)
      rw [ea] at g1
      rw [eb] at g2
      omega
  · subst hh
    rw [ha] at hb
    cases hb
    have := hs rfl
    omega
  · have h1 := hpw o' o hlt' hlt hh
    rw [ea, eb] at h1
    have := hs h1.1.symm
    omega

/-- Cells of the same chunk whose steps follow each other. -/
theorem Used.successor {c : Chunker} {rows : List Row} (h : c.Used rows) {i j : Nat} {x y : Cell} (hx : c.cells[i]? = some x)
    (hy : c.cells[j]? = some y) (hk : x.key = y.key) (hh : Held c i) {a b : Row} (ha : rows[i]? = some a) (hb : rows[j]? = some b)
    (hs : a.episode = b.episode → b.step = a.step + 1) : j = i + 1 := by
  obtain ⟨bs, cur, d, h1, _, rfl⟩ := h
  have hnk : c.nextKey = c.keyGen bs.length := by rw [h1.drawn]; rfl
  rcases h1.locate ha with ⟨m, bl, o, p1, p2, p3, p4⟩ | ⟨o, p1, p2, p3⟩ <;>
  rcases h1.locate hb with ⟨m', bl', o', q1, q2, q3, q4⟩ | ⟨o', q1, q2, q3⟩
  · rw [p4] at hx
    rw [q4] at hy
    cases hx
    cases hy
    have := h1.keys _ _ hk
    subst this
    rw [p1] at q1
    cases q1
    have hord : Ordered bl.rows := by
      cases hc : bl.chunk with
      | some ch => exact (h1.good m bl ch p1 hc).ordered
      | none =>
        exfalso
        rcases hh with hh | hh
        · rw [h1.active, List.mem_range'_1] at hh
          have hl := h1.lost m bl p1 hc
          have hm := (List.getElem?_eq_some_iff.mp p1).1
          rw [List.take_succ_eq_append_getElem hm, total_append, (List.getElem?_eq_some_iff.mp p1).2] at hl
          have ho := (List.getElem?_eq_some_iff.mp p2).1
          simp only [total, List.map_cons, List.map_nil, List.sum_cons, List.sum_nil] at hl p3
          omega
        · refine hh ?_
          rw [cellAt, List.getD_eq_getElem?_getD, p4, hc]
          rfl
    have := hord.next p2 q2 hs
    omega
  · rw [p4] at hx
    rw [q3] at hy
    cases hx
    cases hy
    simp only [hnk] at hk
    have := h1.keys _ _ hk
    have := (List.getElem?_eq_some_iff.mp p1).1
    omega
  · rw [p3] at hx
    rw [q4] at hy
    cases hx
    cases hy
    simp only [hnk] at hk
    have := h1.keys _ _ hk
    have := (List.getElem?_eq_some_iff.mp q1).1
    omega
  · have := h1.ordered.next p1 q1 hs
    omega

end Chunker

namespace TrajWriter
open Chunker (Row Used Held)

/-- The rows that are named by references, with the step. -/
theorem Inv.runNamesAt {w : TrajWriter} {rows : Nat → List Row} {cr P : List WItem} {cf : List Key} (h : w.Inv rows cr cf P) {evs : List Event}
    (hv : ∀ e ∈ evs, e.Valid) : ∃ rows' P', (w.run evs).Inv rows' (cr ++ w.added evs) (cf ++ confirmed evs) P' ∧ Grows rows rows' ∧
      ∀ r row, w.NamesAt evs r row → (rows' r.col)[r.id]? = some row := by
  induction evs generalizing w rows cr P cf with
  | nil => exact ⟨rows, P, by simpa [added, confirmed, TrajWriter.run] using h, Grows.refl _, fun r t hn => by
      obtain ⟨pre, _, _, _, _, he, _⟩ := hn
      simp at he⟩
  | cons e evs ih =>
    obtain ⟨rows1, P1, h1, h2, h3, h4⟩ := h.handle (hv e List.mem_cons_self)
    obtain ⟨rows2, P2, g1, g2, g4⟩ := ih h1 fun x hx => hv x (List.mem_cons_of_mem _ hx)
    refine ⟨rows2, P2, ?_, h2.trans g2, fun r row hn => ?_⟩
    · rw [run_cons, confirmed_cons]
      simp only [added]
      rw [← List.append_assoc, ← List.append_assoc]
      exact g1
    · obtain ⟨pre, data, inc, post, refs, he, hr, hd, hrf, hep, hsp⟩ := hn
      cases pre with
      | nil =>
        simp only [List.nil_append, List.cons.injEq] at he
        obtain ⟨t', k1, k2, k3⟩ := h4 data inc refs he.1 (by rw [he.1]; exact hr) r.col r hrf
        rw [hd] at k1
        cases k1
        obtain ⟨tl, htl⟩ := g2 r.col
        rw [← htl, List.getElem?_append_left (List.getElem?_eq_some_iff.mp k3).1, k3]
        obtain ⟨a, b, c⟩ := row
        simp only at hep hsp
        rw [← hep, ← hsp]
        rfl
      | cons e' pre =>
        simp only [List.cons_append, List.cons.injEq] at he
        obtain ⟨rfl, rfl⟩ := he
        exact g4 r row ⟨pre, data, inc, post, refs, rfl, hr, hd, hrf, hep, hsp⟩

end TrajWriter

namespace PyWriter
open TrajWriter (NamesAt HeldRef)
open Chunker (Row)

/-- Neighbours in the history. -/
theorem Inv.successor {w0 : TrajWriter} (hst : w0.Started) {W : PyPath → ChunkerOpts} {f : Key → Int} {s : PyWriter} {J : Journal}
    {cols : List PyPath} (h : Inv w0 W f s J cols) {i n : Nat} {c : ColHist} {r r' : Ref} (hc : s.history[i]? = some c)
    (hr : c.refs[n]? = some (some r)) (hr' : c.refs[n + 1]? = some (some r')) (hh : HeldRef s.w.chunkers r) (hh' : HeldRef s.w.chunkers r')
    (hk : s.w.keyOf r = s.w.keyOf r') : r' = ⟨r.col, r.id + 1⟩ := by
  have hi : i < cols.length := by rw [← h.hist]; exact (List.getElem?_eq_some_iff.mp hc).1
  have hl := h.len c (List.mem_of_getElem? hc)
  have hn := (List.getElem?_eq_some_iff.mp hr).1
  have hn' := (List.getElem?_eq_some_iff.mp hr').1
  have e1 := h.entries i _ c n _ (some r) (List.getElem?_eq_getElem hi) hc (List.getElem?_eq_getElem (by omega)) hr
  have e2 := h.entries i _ c (n + 1) _ (some r') (List.getElem?_eq_getElem hi) hc (List.getElem?_eq_getElem (by omega)) hr'
  have get : ∀ m o (x : Ref), Entry w0 f s.calls i m o (some x) → ∃ row : Row, w0.NamesAt s.calls x row ∧ x.col = i ∧ row.step = m + f row.episode := by
    intro m o x he
    cases o with
    | none => exact absurd he (by simp [Entry])
    | some t =>
      obtain ⟨row, g1, _, g3, g4⟩ := he
      exact ⟨row, g1, g3, g4⟩
  obtain ⟨a, a1, a2, a3⟩ := get _ _ _ e1
  obtain ⟨b, b1, b2, b3⟩ := get _ _ _ e2
  obtain ⟨rows, P, hI, _, hrow⟩ := hst.inv.runNamesAt h.valid
  rw [← h.runs] at hI
  have ra := hrow r a a1
  have rb := hrow r' b b1
  obtain ⟨ch, m1, m2, m3⟩ := hh
  obtain ⟨ch', n1, n2, _⟩ := hh'
  have hcol : r'.col = r.col := by rw [a2, b2]
  rw [hcol] at rb n1
  rw [m1] at n1
  cases n1
  have hu := (hI.base.cols.used _ _ m1).1
  have hkey : (ch.cells[r.id]'m2).key = (ch.cells[r'.id]'n2).key := by
    simpa [TrajWriter.keyOf, TrajWriter.cell?, hcol, m1, m2, n2] using hk
  have := hu.successor (List.getElem?_eq_getElem m2) (List.getElem?_eq_getElem n2) hkey m3 ra rb (by
    intro he
    rw [b3, a3, he]
    omega)
  obtain ⟨rc, rid⟩ := r'
  simp only at this hcol
  rw [this, hcol]

/-! ### Slices -/

theorem sliceEnd_bound (n dflt : Nat) (o : Option Int) (h : dflt ≤ n) : sliceEnd n false dflt o = (bound n dflt o : Nat) ∧ bound n dflt o ≤ n := by
  cases o with
  | none => exact ⟨rfl, h⟩
  | some i =>
    simp only [sliceEnd, bound, Bool.false_eq_true, if_false]
    by_cases hi : i < 0
    · simp only [hi, if_true]
      split
      · constructor <;> omega
      · constructor <;> omega
    · simp only [hi, if_false]
      split
      · constructor <;> omega
      · constructor <;> omega

/-- The positions of a slice. -/
theorem slicePositions_one (n : Nat) (start stop : Option Int) :
    slicePositions n start stop 1 = List.range' (bound n 0 start) (bound n n stop - bound n 0 start) := by
  obtain ⟨h1, h2⟩ := sliceEnd_bound n 0 start (by omega)
  obtain ⟨h3, h4⟩ := sliceEnd_bound n n stop (by omega)
  simp only [slicePositions, Int.reduceLT, if_true]
  have h1' : sliceEnd n false 0 start = (bound n 0 start : Nat) := h1
  rw [h1', h3]
  split
  · rename_i hlt
    apply List.ext_getElem?
    intro k
    rw [List.getElem?_map, Int.ediv_one]
    by_cases hk : k < bound n n stop - bound n 0 start
    · rw [List.getElem?_range (by omega), List.getElem?_range' hk]
      simp only [Option.map_some, Option.some.injEq]
      omega
    · rw [List.getElem?_eq_none (by simp; omega), List.getElem?_eq_none (by simp; omega)]
      rfl
  · rename_i hlt
    rw [show bound n n stop - bound n 0 start = 0 by omega]
    rfl

theorem slice_get {α : Type} (l : List α) (start stop : Option Int) :
    (slicePositions l.length start stop 1).filterMap (fun i => l[i]?) = pySlice l start stop := by
  rw [slicePositions_one]
  obtain ⟨_, h4⟩ := sliceEnd_bound l.length l.length stop (by omega)
  apply List.ext_getElem?
  intro k
  rw [filterMap_some_getElem, pySlice, List.getElem?_drop, List.getElem?_take]
  · by_cases hk : k < bound l.length l.length stop - bound l.length 0 start
    · rw [List.getElem?_range' hk, if_pos (by omega)]
      simp
    · rw [List.getElem?_eq_none (by simp; omega), if_neg (by omega)]
      rfl
  · intro a ha
    rw [List.mem_range'_1] at ha
    rw [List.getElem?_eq_getElem (by omega)]
    rfl

/-! ### The calls of the C++ writer -/

theorem addPaths_calls : ∀ (ps : List PyPath) (s : PyWriter), s.calls <+: (s.addPaths ps).1.calls
  | [], s => List.prefix_refl _
  | p :: ps, s => by
    unfold addPaths
    cases s.index.get? p with
    | some i => exact addPaths_calls ps s
    | none =>
      simp only
      cases hc : s.config.get? p with
      | none => exact addPaths_calls ps { s with index := s.index.insert p s.index.size }
      | some o =>
        simp only
        have hp : s.calls <+: (({ s with index := s.index.insert p s.index.size } : PyWriter).cpp (.configure s.index.size o)).1.calls :=
          List.prefix_append _ _
        rcases hx : ({ s with index := s.index.insert p s.index.size } : PyWriter).cpp (.configure s.index.size o) with ⟨s', _ | _ | _⟩ <;> rw [hx] at hp
        · exact hp.trans (addPaths_calls ps s')
        · exact hp
        · exact hp

theorem update_calls (s : PyWriter) (new : PTree Unit) : s.calls <+: (s.updateStructure new).1.calls := by
  have := addPaths_calls (new.flattenWithPath.map Prod.fst) s
  unfold updateStructure
  simp only
  rcases hx : s.addPaths (new.flattenWithPath.map Prod.fst) with ⟨s', _ | _ | _⟩ <;> rw [hx] at this <;> exact this

theorem appendFlat_calls (s : PyWriter) (data : List (Option Tensor)) (b : Bool) : s.calls <+: (s.appendFlat data b).1.calls := by
  unfold appendFlat
  split
  · exact List.prefix_refl _
  · have hp : s.calls <+: (s.cpp (.append data !b)).1.calls := List.prefix_append _ _
    rcases hx : s.cpp (.append data !b) with ⟨s', (_ | _ | _ | _) | _ | _⟩ <;> rw [hx] at hp
    · exact hp
    · simp only
      split <;> exact hp
    · exact hp
    · exact hp
    · exact hp
    · exact hp

theorem appendKnown_calls (s : PyWriter) (data : PTree (Option Tensor)) (b : Bool) : s.calls <+: (s.appendKnown data b).1.calls := by
  unfold appendKnown
  split
  · exact appendFlat_calls _ _ _
  · split
    · exact List.prefix_refl _
    · rename_i u _
      have := update_calls s u
      rcases hx : s.updateStructure u with ⟨s', _ | _ | _⟩ <;> rw [hx] at this
      · simp only
        split
        · exact this
        · exact this.trans (appendFlat_calls _ _ _)
      · exact this
      · exact this

theorem append_calls (s : PyWriter) (data : PTree (Option Tensor)) (b : Bool) : s.calls <+: (s.append data b).1.calls := by
  unfold append
  split
  · exact appendKnown_calls _ _ _
  · exact appendKnown_calls _ _ _
  · have := update_calls s (data.map fun _ => ())
    rcases hx : s.updateStructure (data.map fun _ => ()) with ⟨s', _ | _ | _⟩ <;> rw [hx] at this
    · exact this.trans (appendKnown_calls _ _ _)
    · exact this
    · exact this

theorem pass_calls (s : PyWriter) (e : TrajWriter.Event) : s.calls <+: (s.pass e).1.calls := List.prefix_append _ _

theorem handle_calls (s : PyWriter) (e : Event) : s.calls <+: (s.handle e).1.calls := by
  cases e with
  | append data b =>
    have := append_calls s data b
    simp only [handle]
    rcases hx : s.append data b with ⟨s', _ | _ | _⟩ <;> rw [hx] at this <;> exact this
  | configure path keep m =>
    have : s.calls <+: (s.configure path keep m).1.calls := by
      unfold configure
      split
      · exact List.prefix_refl _
      split
      · exact List.prefix_refl _
      split
      · rename_i i _
        have hp : s.calls <+: (s.cpp (.configure i (chunkerOptions keep m))).1.calls := List.prefix_append _ _
        rcases hx : s.cpp (.configure i (chunkerOptions keep m)) with ⟨s', _ | _ | _⟩ <;> rw [hx] at hp <;> exact hp
      · exact List.prefix_refl _
    simp only [handle]
    rcases hx : s.configure path keep m with ⟨s', _ | _ | _⟩ <;> rw [hx] at this <;> exact this
  | createItem t p cols => exact pass_calls _ _
  | flushBegin k =>
    simp only [handle]
    split
    · exact List.prefix_refl _
    · exact pass_calls _ _
  | flushEnd k b => exact pass_calls _ _
  | episodeBegin => exact pass_calls _ _
  | episodeEnd clear b =>
    have := pass_calls s (.episodeEnd clear)
    simp only [handle]
    rcases hx : s.pass (.episodeEnd clear) with ⟨s', (_ | _ | _) | _ | _⟩ <;> rw [hx] at this <;> cases clear <;> exact this
  | close => exact pass_calls _ _
  | worker inp => exact pass_calls _ _
  | confirm keys => exact pass_calls _ _

theorem run_calls : ∀ (evs : List Event) (s : PyWriter), s.calls <+: (s.run evs).calls
  | [], s => List.prefix_refl _
  | e :: evs, s => (handle_calls s e).trans (run_calls evs (s.handle e).1)

theorem pyRun_append (s : PyWriter) (a b : List Event) : s.run (a ++ b) = (s.run a).run b := by simp [run, List.foldl_append]

end PyWriter
end Verif
