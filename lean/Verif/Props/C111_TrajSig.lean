import Verif.Proofs.TrajSig
import Verif.Props.TrajDemo
/-
C111: what `CreateItem` of the trajectory writer accepts.
-/
namespace Verif
namespace TrajWriter
open Chunker (Row)

/-- **C111 (partial).** After any calls, `CreateItem` for columns that are not empty returns OK if and only if all references are still alive, every
squeezed column has one reference, the tensors of a column have the same type and shape, and the columns agree with the signature of the
table. Otherwise the error is `InvalidArgument` and, apart from a key that is used up, nothing changes. What is missing: a trajectory of which only
some columns are empty is not refused, see `C111_empty_column_false`. -/
theorem C111_partial {w : TrajWriter} (hs : w.Started) {pre : List Event} (hv : ∀ e ∈ pre, e.Valid) (hu : (w.run pre).unrecoverable = none)
    {t : String} {p : Pri} {cols : List TrajCol} (hc : cols ≠ []) (hne : ∀ col ∈ cols, col.refs ≠ []) {values : List (List Tensor)}
    (hg : w.Given pre cols values) :
    ((∃ k, w.replyAt pre (.createItem t p cols) = .ok (.item k)) ↔
      (∀ col ∈ cols, ∀ r ∈ col.refs, (w.run pre).alive r = true) ∧ (∀ col ∈ cols, col.squeeze = true → col.refs.length = 1) ∧
      (∀ ts ∈ values, ∀ x ∈ ts, ∀ y ∈ ts, x.dtype = y.dtype ∧ x.shape = y.shape) ∧ FitsTable w.sig t cols values) ∧
    ((∀ k, w.replyAt pre (.createItem t p cols) ≠ .ok (.item k)) → w.replyAt pre (.createItem t p cols) = .err .invalidArgument ∧
      ∃ n, w.run (pre ++ [.createItem t p cols]) = { w.run pre with drawn := n }) := by
  obtain ⟨rows, P, hI, _, _, hnm⟩ := hs.inv.runNames (evs := pre) hv
  have hsig := run_sig w pre
  have hrun : w.run (pre ++ [.createItem t p cols]) = ((w.run pre).createItem t p cols).1 := by
    rw [run_append]; rfl
  rw [hrun]
  simp only [replyAt, handle]
  rw [← hsig]
  generalize w.run pre = W at *
  -- what is known about a reference that is alive
  have typed : ∀ (i : Nat) (col : TrajCol) (ts : List Tensor), cols[i]? = some col → values[i]? = some ts →
      ∀ (j : Nat) (r : Ref) (x : Tensor), col.refs[j]? = some r → ts[j]? = some x → W.alive r = true →
        W.specOf r = some (x.dtype, x.shape) := by
    intro i col ts hi hts j r x hr hx ha
    obtain ⟨c, c1, c2, c3⟩ := alive_held hI.base hI.q ha
    obtain ⟨row, q1, q2⟩ := hnm r x ((hg.2 i col ts hi hts).2 j r x hr hx)
    have := ((hI.base.cols.used _ c c1).1).typed c3 q1
    rw [q2] at this
    simp [specOf, c1, this.2.1, this.2.2]
  have valueOf : ∀ (i : Nat) (col : TrajCol), cols[i]? = some col → ∃ ts, values[i]? = some ts ∧ ts.length = col.refs.length := by
    intro i col hi
    have := (List.getElem?_eq_some_iff.mp hi).1
    refine ⟨values[i]'(by rw [hg.1]; omega), List.getElem?_eq_getElem _, ?_⟩
    exact (hg.2 i col _ hi (List.getElem?_eq_getElem _)).1
  have colOf : ∀ (i : Nat) (ts : List Tensor), values[i]? = some ts → ∃ col, cols[i]? = some col := by
    intro i ts hi
    have := (List.getElem?_eq_some_iff.mp hi).1
    exact ⟨cols[i]'(by rw [← hg.1]; omega), List.getElem?_eq_getElem _⟩
  -- the columns
  have hcols : (W.validateColumns cols = .ok () ↔ (∀ col ∈ cols, ∀ r ∈ col.refs, W.alive r = true) ∧
      (∀ col ∈ cols, col.squeeze = true → col.refs.length = 1) ∧
      (∀ ts ∈ values, ∀ x ∈ ts, ∀ y ∈ ts, x.dtype = y.dtype ∧ x.shape = y.shape)) ∧
      (W.validateColumns cols ≠ .ok () → W.validateColumns cols = .err .invalidArgument) := by
    obtain ⟨v1, v2⟩ := validateColumns_good (W := W) hne
    refine ⟨?_, v2⟩
    rw [v1]
    constructor
    · intro hall
      have hg' := fun col hcol => (validateColumn_good (W := W) (hne col hcol)).1.mp (hall col hcol)
      refine ⟨fun col hcol => (hg' col hcol).1, fun col hcol => (hg' col hcol).2.1, ?_⟩
      intro ts hts x hx y hy
      obtain ⟨i, hi⟩ := List.getElem?_of_mem hts
      obtain ⟨col, hcol⟩ := colOf i ts hi
      obtain ⟨a1, _, a3⟩ := hg' col (List.mem_of_getElem? hcol)
      have look : ∀ z ∈ ts, ∃ r ∈ col.refs, W.specOf r = some (z.dtype, z.shape) := by
        intro z hz
        obtain ⟨j, hj⟩ := List.getElem?_of_mem hz
        have hjl := (List.getElem?_eq_some_iff.mp hj).1
        have hlen := (hg.2 i col ts hcol hi).1
        have hr : col.refs[j]? = some (col.refs[j]'(by omega)) := List.getElem?_eq_getElem _
        exact ⟨_, List.mem_of_getElem? hr, typed i col ts hcol hi j _ z hr hj (a1 _ (List.mem_of_getElem? hr))⟩
      obtain ⟨r, hr, e1⟩ := look x hx
      obtain ⟨s, hs', e2⟩ := look y hy
      have := a3 r hr s hs'
      rw [e1, e2] at this
      simpa using this
    · rintro ⟨a1, a2, a3⟩ col hcol
      refine (validateColumn_good (W := W) (hne col hcol)).1.mpr ⟨a1 col hcol, a2 col hcol, ?_⟩
      obtain ⟨i, hi⟩ := List.getElem?_of_mem hcol
      obtain ⟨ts, hts, hlen⟩ := valueOf i col hi
      have look : ∀ r ∈ col.refs, ∃ z ∈ ts, W.specOf r = some (z.dtype, z.shape) := by
        intro r hr
        obtain ⟨j, hj⟩ := List.getElem?_of_mem hr
        have hjl := (List.getElem?_eq_some_iff.mp hj).1
        have hz : ts[j]? = some (ts[j]'(by omega)) := List.getElem?_eq_getElem _
        exact ⟨_, List.mem_of_getElem? hz, typed i col ts hi hts j r _ hj hz (a1 col hcol r hr)⟩
      intro r hr s hs'
      obtain ⟨x, hx, e1⟩ := look r hr
      obtain ⟨y, hy, e2⟩ := look s hs'
      have := a3 ts (List.mem_of_getElem? hts) x hx y hy
      rw [e1, e2, this.1, this.2]
  -- the signature
  have hitem : W.validateColumns cols = .ok () → (W.validateItem (W.makeItem t p cols) = .ok () ↔ FitsTable W.sig t cols values) ∧
      (W.validateItem (W.makeItem t p cols) ≠ .ok () → W.validateItem (W.makeItem t p cols) = .err .invalidArgument) := by
    intro hok
    obtain ⟨a1, a2, a3⟩ := hcols.1.mp hok
    let g : TrajCol → TensorSpec := fun col =>
      let sp := (col.refs.head?.bind W.specOf).getD (.int32, [])
      ⟨sp.1, .ofShape (if col.squeeze then sp.2 else col.refs.length :: sp.2)⟩
    have hgot : (W.makeItem t p cols).traj.mapM (W.columnSpec (W.makeItem t p cols).refs) = some (cols.map g) := by
      have hcell : ∀ r ∈ cols.flatMap TrajCol.refs, (W.cell? r).isSome := by
        intro r hr
        obtain ⟨col, h1, h2⟩ := List.mem_flatMap.mp hr
        exact (alive_held hI.base hI.q (a1 col h1 r h2)).cell
      have hone : ∀ col ∈ cols, W.columnSpec (cols.flatMap TrajCol.refs) (W.toColumn col) = some (g col) := by
        intro col hcol
        obtain ⟨r0, rest, hr0⟩ := List.exists_cons_of_ne_nil (hne col hcol)
        obtain ⟨c, c1, _⟩ := alive_held hI.base hI.q (a1 col hcol r0 (by rw [hr0]; simp))
        have hsp : W.specOf r0 = some (c.dtype, c.shape) := by simp [specOf, c1]
        rw [hI.base.columnSpec hcell (fun r hr => List.mem_flatMap.mpr ⟨col, hcol, hr⟩) (by rw [hr0]; rfl) hsp]
        simp only [g, hr0, List.head?_cons, Option.bind_some, hsp, Option.getD_some]
      show (cols.map W.toColumn).mapM _ = _
      rw [List.mapM_map]
      exact mapM_some hone
    have hgx : ∀ (i : Nat) (col : TrajCol) (ts : List Tensor) (x : Tensor), cols[i]? = some col → values[i]? = some ts → x ∈ ts →
        g col = ⟨x.dtype, .ofShape (if col.squeeze then x.shape else ts.length :: x.shape)⟩ := by
      intro i col ts x hi hts hx
      have hcol := List.mem_of_getElem? hi
      obtain ⟨r0, rest, hr0⟩ := List.exists_cons_of_ne_nil (hne col hcol)
      have hlen := (hg.2 i col ts hi hts).1
      have h0 : ts[0]? = some (ts[0]'(by rw [hlen, hr0]; simp)) := List.getElem?_eq_getElem _
      have hsp := typed i col ts hi hts 0 r0 _ (by rw [hr0]; rfl) h0 (a1 col hcol r0 (by rw [hr0]; simp))
      have hsame := a3 ts (List.mem_of_getElem? hts) _ (List.mem_of_getElem? h0) x hx
      rw [hsame.1, hsame.2] at hsp
      simp only [g, hr0, List.head?_cons, Option.bind_some, hsp, Option.getD_some]
      rw [hlen, hr0]
    unfold validateItem FitsTable
    cases hw : W.sig with
    | none => simp
    | some m =>
      simp only [Option.some.injEq, forall_eq']
      rw [hgot, show (W.makeItem t p cols).table = t from rfl]
      cases hm : m.get? t with
      | none => simp
      | some sig =>
        cases sig with
        | none => simp
        | some specs =>
          simp only [Option.some.injEq, exists_eq_left', forall_eq', List.length_map]
          by_cases hl : specs.length = cols.length
          · rw [if_neg (by simpa using hl)]
            have hz : ((specs.zip (cols.map g)).all fun p => p.1.accepts p.2) = true ↔
                ∀ (i : Nat) (want : TensorSpec) (col : TrajCol) (ts : List Tensor) (x : Tensor), specs[i]? = some want → cols[i]? = some col →
                  values[i]? = some ts → x ∈ ts → want.Allows x.dtype (if col.squeeze then x.shape else ts.length :: x.shape) := by
              rw [List.all_eq_true]
              constructor
              · intro hall i want col ts x h1 h2 h3 h4
                have hmem : (want, g col) ∈ specs.zip (cols.map g) := by
                  refine List.mem_of_getElem? (i := i) ?_
                  rw [List.getElem?_zip_eq_some]
                  exact ⟨h1, by rw [List.getElem?_map, h2]; rfl⟩
                have := hall _ hmem
                simp only [hgx i col ts x h2 h3 h4] at this
                exact accepts_iff.mp this
              · rintro hall ⟨want, got⟩ hmem
                obtain ⟨i, hi⟩ := List.getElem?_of_mem hmem
                rw [List.getElem?_zip_eq_some] at hi
                obtain ⟨h1, h2⟩ := hi
                rw [List.getElem?_map] at h2
                cases hcol : cols[i]? with
                | none => simp [hcol] at h2
                | some col =>
                  rw [hcol] at h2
                  simp only [Option.map_some, Option.some.injEq] at h2
                  obtain ⟨ts, hts, hlen⟩ := valueOf i col hcol
                  have hpos : 0 < ts.length := by
                    rw [hlen]
                    exact List.length_pos_iff.mpr (hne col (List.mem_of_getElem? hcol))
                  have hx : ts[0] ∈ ts := List.getElem_mem hpos
                  rw [← h2, hgx i col ts _ hcol hts hx]
                  exact accepts_iff.mpr (hall i want col ts _ h1 hcol hts hx)
            by_cases ha : ((specs.zip (cols.map g)).all fun p => p.1.accepts p.2) = true
            · rw [if_pos ha]
              exact ⟨⟨fun _ => ⟨hl, hz.mp ha⟩, fun _ => rfl⟩, fun h => absurd rfl h⟩
            · rw [if_neg ha]
              exact ⟨⟨fun h => by simp at h, fun h => absurd (hz.mpr h.2) ha⟩, fun _ => rfl⟩
          · rw [if_pos hl]
            exact ⟨⟨fun h => by simp at h, fun h => absurd h.1 hl⟩, fun _ => rfl⟩
  rw [createItem_eq hu t p (by
    intro hall
    rw [List.all_eq_true] at hall
    obtain ⟨c, cs, rfl⟩ := List.exists_cons_of_ne_nil hc
    have := hall c (by simp)
    exact hne c (by simp) (by simpa using this))]
  by_cases h1 : W.validateColumns cols = .ok ()
  · obtain ⟨h2, h3⟩ := hitem h1
    obtain ⟨g1, g2, g3⟩ := hcols.1.mp h1
    rw [h1]
    simp only
    by_cases h4 : W.validateItem (W.makeItem t p cols) = .ok ()
    · rw [h4]
      exact ⟨⟨fun _ => ⟨g1, g2, g3, h2.mp h4⟩, fun _ => ⟨_, rfl⟩⟩, fun hno => absurd rfl (hno _)⟩
    · rw [h3 h4]
      refine ⟨⟨fun ⟨k, hk⟩ => by simp [Reply.of] at hk, fun hall => absurd (h2.mpr hall.2.2.2) h4⟩, fun _ => ⟨rfl, _, rfl⟩⟩
  · rw [hcols.2 h1]
    simp only
    refine ⟨⟨fun ⟨k, hk⟩ => by simp [Reply.of] at hk, fun hall => absurd (hcols.1.mpr ⟨hall.1, hall.2.1, hall.2.2.1⟩) h1⟩,
      fun _ => ⟨rfl, W.drawn, rfl⟩⟩

namespace SigDemo
open TrajDemo (writer row)

/-- A table for sequences of any length of vectors with one element, and one without a signature. -/
def sigs : AMap String (Option (List TensorSpec)) := AMap.insert (AMap.insert .empty "vectors" (some [⟨.int32, some [none, some 1]⟩])) "any" none

/-- A writer that knows of these. -/
def signed : TrajWriter := { writer (.constant 2 4 false) with sig := some sigs }

theorem signed_started : signed.Started where
  new := by
    have hv : signed.opts.validate = .ok () := by decide
    unfold TrajWriter.new
    rw [hv]
    rfl
  gen := fun _ _ h => h
  colGen := (TrajDemo.started (o := .constant 2 4 false) (by decide)).colGen

/-- Two steps. -/
def steps : List Event := [.append [some (row 5)] true, .append [some (row 6)] true]

/-- Both of them. -/
def both : List TrajCol := [⟨[⟨0, 0⟩, ⟨0, 1⟩], false⟩]

/-- The first one, without the dimension. -/
def squeezed : List TrajCol := [⟨[⟨0, 0⟩], true⟩]

theorem steps_valid : ∀ e ∈ steps, e.Valid := by
  intro e he
  simp only [steps, List.mem_cons, List.not_mem_nil, or_false] at he
  rcases he with rfl | rfl <;> simp only [Event.Valid, List.mem_cons, List.not_mem_nil, or_false, Option.some.injEq, forall_eq]
  all_goals exact ⟨rfl, by simp [row, DType.bits]⟩

theorem steps_names (j : Nat) (hj : j < 2) : signed.Names steps ⟨0, j⟩ (row (j + 5)) := by
  match j, hj with
  | 0, _ => exact ⟨steps.take 0, _, _, steps.drop 1, [some ⟨0, 0⟩], rfl, by decide +kernel, rfl, rfl⟩
  | 1, _ => exact ⟨steps.take 1, _, _, steps.drop 2, [some ⟨0, 1⟩], rfl, by decide +kernel, rfl, rfl⟩
  | j + 2, hj => omega

/-- The hypotheses hold for both steps. -/
theorem both_given : signed.Given steps both [[row 5, row 6]] := by
  refine ⟨rfl, fun i col ts hc ht => ?_⟩
  match i, hc, ht with
  | 0, hc, ht =>
    simp only [both, List.getElem?_cons_zero, Option.some.injEq] at hc ht
    subst hc ht
    refine ⟨rfl, fun j r x hr hx => ?_⟩
    match j, hr, hx with
    | 0, hr, hx =>
      simp only [List.getElem?_cons_zero, Option.some.injEq] at hr hx
      subst hr hx
      exact steps_names 0 (by omega)
    | 1, hr, hx =>
      simp only [List.getElem?_cons_succ, List.getElem?_cons_zero, Option.some.injEq] at hr hx
      subst hr hx
      exact steps_names 1 (by omega)
    | j + 2, hr, _ => simp at hr
  | i + 1, hc, _ => simp [both] at hc

/-- Both steps together are accepted, one without the dimension is not; an unknown table is refused, one without a signature takes anything. -/
example : signed.replyAt steps (.createItem "vectors" (.val 1) both) = .ok (.item 1) ∧
    signed.replyAt steps (.createItem "vectors" (.val 1) squeezed) = .err .invalidArgument ∧
    signed.replyAt steps (.createItem "vectors" (.val 1) (both ++ both)) = .err .invalidArgument ∧
    signed.replyAt steps (.createItem "unknown" (.val 1) both) = .err .invalidArgument ∧
    signed.replyAt steps (.createItem "any" (.val 1) (squeezed ++ both)) = .ok (.item 1) := by decide +kernel

/-- Why the columns must not be empty: a trajectory without any reference is refused, but if only one of its columns is empty
`TrajectoryColumn::Validate` reads `locked_refs[0]`, which does not exist. -/
theorem C111_empty_column_false : signed.replyAt steps (.createItem "any" (.val 1) [⟨[], false⟩]) = .err .invalidArgument ∧
    signed.replyAt steps (.createItem "any" (.val 1) (both ++ [⟨[], false⟩])) = .died := by decide +kernel

end SigDemo
end TrajWriter
end Verif
