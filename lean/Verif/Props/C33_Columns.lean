import Verif.Proofs.TrajMerge
import Verif.Props.C38_C40_TrajStreams
/-
C33: is the data read back for a column of an item the referenced steps?
-/
namespace Verif
namespace TrajWriter

/-- C33 for contiguous references: let `CreateItem` make an item of columns in which neighbours from the same chunk are steps that follow
each other, let `values` be the tensors that the references of the columns were returned for, and let the item reach a server on some stream. Then
the sample of the item can be unpacked and its columns are the tensors in the given order (a squeezed column is its only tensor). -/
theorem C33_contiguous_partial {w : TrajWriter} (hs : w.Started) {pre post : List Event} {t : String} {p : Pri} {cols : List TrajCol}
    (hv : ∀ e ∈ pre ++ .createItem t p cols :: post, e.Valid) {k : Key} (hr : w.replyAt pre (.createItem t p cols) = .ok (.item k))
    (hc : ∀ col ∈ cols, (w.run pre).Contiguous col.refs) {values : List (List Tensor)} (hl : values.length = cols.length)
    (hn : ∀ (i : Nat) (col : TrajCol) (ts : List Tensor), cols[i]? = some col → values[i]? = some ts → ts.length = col.refs.length ∧
      ∀ (j : Nat) (r : Ref) (x : Tensor), col.refs[j]? = some r → ts[j]? = some x → w.Names pre r x)
    {s : List Msg} (hm : s ∈ (w.run (pre ++ .createItem t p cols :: post)).streams) {srv : Server} {cache : Cache}
    {ins : List (WItem × List ChunkData)} (hsv : serveAll srv .empty s = .ok (cache, ins)) {it : WItem} {chunks : List ChunkData}
    (hi : (it, chunks) ∈ ins) (hk : it.key = k) (info : SampleInfo) :
    it.table = t ∧ it.priority = p ∧ ∃ smp out, asSampleLocal ⟨info, it.traj, chunks⟩ = .ok smp ∧ smp.asTrajectory = .ok out ∧
      out.length = cols.length ∧ ∀ (i : Nat) (col : TrajCol) (ts : List Tensor) (x : Tensor), cols[i]? = some col → values[i]? = some ts →
        out[i]? = some x → if col.squeeze then ts = [x] else ∃ d sh, (∀ y ∈ ts, Tensor.Is d sh y) ∧ x = Tensor.stack d sh ts := by
  obtain ⟨rows0, P0, hpre⟩ := hs.run (evs := pre) fun e he => hv e (List.mem_append_left _ he)
  obtain ⟨rows, P, hI, _, hmv, hnm⟩ := hpre.runNames (evs := .createItem t p cols :: post) fun e he => hv e (List.mem_append_right _ he)
  rw [← run_append] at hI hmv
  -- names from before
  obtain ⟨rowsA, PA, hIA, _, _, hnmA⟩ := hs.inv.runNames (evs := pre ++ .createItem t p cols :: post) hv
  have hnames : ∀ r x, w.Names pre r x → ∃ row, (rowsA r.col)[r.id]? = some row ∧ row.tensor = x := by
    intro r x hx
    obtain ⟨a, data, inc, b, refs, he, h1, h2, h3⟩ := hx
    exact hnmA r x ⟨a, data, inc, b ++ .createItem t p cols :: post, refs, by simp [he], h1, h2, h3⟩
  have hbase := hIA.base
  have hitem : it ∈ w.added (pre ++ .createItem t p cols :: post) := by
    obtain ⟨rw', Pw, hw⟩ := hs.run hv
    have h1 : it ∈ itemsOf s := by rw [← serveAll_items hsv]; exact List.mem_map.mpr ⟨_, hi, rfl⟩
    obtain ⟨a, b, hab⟩ := hw.infix hm
    rw [← hab]
    simp [h1]
  obtain ⟨hmk, hvc, hne⟩ := made hs hv hr hitem hk
  subst hmk
  refine ⟨rfl, rfl, ?_⟩
  obtain ⟨hkeys, hknown⟩ : chunks.map ChunkData.key = getChunkKeys ((w.run pre).makeItem t p cols).traj ∧
      ∀ ch ∈ chunks, (w.run (pre ++ .createItem t p cols :: post)).Known ch := by
    obtain ⟨c', i', h1, h2⟩ := hIA.served hm srv
    rw [hsv] at h1
    simp only [Res.ok.injEq, Prod.mk.injEq] at h1
    rw [← h1.2] at h2
    exact h2 _ hi
  -- the columns
  have hcol : ∀ (i : Nat) (col : TrajCol), cols[i]? = some col → ∃ rc : RowColumn, rc.Valid ∧ rc.chunks ≠ [] ∧
      (∀ ts, values[i]? = some ts → rc.rows = ts) ∧ ((w.run pre).toColumn col).slices.length = rc.chunks.length ∧
      ∀ (j : Nat) (sl : Slice) (rs : List Tensor), ((w.run pre).toColumn col).slices[j]? = some sl → rc.chunks[j]? = some rs →
        sl.Selects chunks rc.dtype rc.shape rs := by
    intro i col hi
    have hmem := List.mem_of_getElem? hi
    obtain ⟨v1, v2, v3, v4⟩ := validateColumn_iff (validateColumns_alive hvc col hmem)
    have hheld : ∀ r ∈ col.refs, HeldRef (w.run pre).chunkers r := fun r hr => alive_held hpre.base hpre.q (v1 r hr)
    have hcells : ∀ r ∈ col.refs, ((w.run pre).cell? r).isSome := fun r hr => (hheld r hr).cell
    obtain ⟨groups, g1, g2, g3⟩ := merge_groups (hc col hmem) hcells
    obtain ⟨ts, hts⟩ : ∃ ts, values[i]? = some ts := by
      have := (List.getElem?_eq_some_iff.mp hi).1
      exact ⟨values[i]'(by omega), List.getElem?_eq_getElem _⟩
    obtain ⟨hlen, hnm'⟩ := hn i col ts hi hts
    let tensor : Ref → Tensor := fun r => (((rowsA r.col)[r.id]?).map Chunker.Row.tensor).getD ⟨.int32, [], []⟩
    have htn : ∀ r ∈ col.refs, ∃ row, (rowsA r.col)[r.id]? = some row ∧ row.tensor = tensor r := by
      intro r hr
      obtain ⟨j, hj⟩ := List.getElem?_of_mem hr
      have hjl := (List.getElem?_eq_some_iff.mp hj).1
      obtain ⟨row, q1, q2⟩ := hnames r _ (hnm' j r (ts[j]'(by omega)) hj (List.getElem?_eq_getElem _))
      exact ⟨row, q1, by simp [tensor, q1]⟩
    have htsmap : ts = col.refs.map tensor := by
      apply List.ext_getElem?
      intro j
      by_cases hj : j < ts.length
      · obtain ⟨row, q1, q2⟩ := hnames (col.refs[j]'(by omega)) _ (hnm' j _ ts[j] (List.getElem?_eq_getElem (by omega)) (List.getElem?_eq_getElem hj))
        rw [List.getElem?_map, List.getElem?_eq_getElem hj, List.getElem?_eq_getElem (show j < col.refs.length by omega)]
        simp [tensor, q1, q2]
      · rw [List.getElem?_eq_none (by omega), List.getElem?_eq_none (by simp; omega)]
    obtain ⟨r0, rest, hr0⟩ := List.exists_cons_of_ne_nil v3
    obtain ⟨c0, hc0, _⟩ := hheld r0 (by rw [hr0]; simp)
    have hspec : ∀ r ∈ col.refs, (w.run pre).specOf r = some (c0.dtype, c0.shape) := by
      intro r hr
      rw [v4 r hr r0 (by rw [hr0]; simp)]
      simp [specOf, hc0]
    have hsub : ∀ g ∈ groups, ∀ r ∈ g, r ∈ col.refs := fun g hg r hr => by rw [← g2]; exact List.mem_flatten.mpr ⟨g, hg, hr⟩
    have hsel : ∀ g ∈ groups, ((w.run pre).slice g).Selects chunks c0.dtype c0.shape (g.map tensor) ∧ ∀ r ∈ g, Tensor.Is c0.dtype c0.shape (tensor r) := by
      intro g hg
      refine (g1 g hg).selects hmv hbase (fun r hr => hcells r (hsub g hg r hr)) hknown (fun r hr => ?_) (fun r hr => htn r (hsub g hg r hr))
        fun r hr => hspec r (hsub g hg r hr)
      rw [hkeys]
      refine ((C30_chunk_keys _).2.1 _).mpr ⟨(w.run pre).toColumn col, List.mem_map_of_mem hmem, (w.run pre).slice g, ?_, ?_⟩
      · show (w.run pre).slice g ∈ mergeAdjacent (col.refs.filterMap (w.run pre).cell?)
        rw [g3]
        exact List.mem_map_of_mem hg
      · obtain ⟨h0, rest', e1, e2, _⟩ := (g1 g hg).head
        rw [e2 r hr, e1]
        rfl
    refine ⟨⟨c0.dtype, c0.shape, groups.map (List.map tensor)⟩, ⟨?_, ?_⟩, ?_, ?_, ?_, ?_⟩
    · intro y hy
      simp only [RowColumn.rows, ← List.map_flatten] at hy
      obtain ⟨r, hr, rfl⟩ := List.mem_map.mp hy
      obtain ⟨g, hg, hrg⟩ := List.mem_flatten.mp hr
      exact (hsel g hg).2 r hrg
    · intro ch hch
      obtain ⟨g, hg, rfl⟩ := List.mem_map.mp hch
      obtain ⟨h0, rest', e1, _⟩ := (g1 g hg).head
      rw [e1]
      simp
    · intro hnil
      simp only [List.map_eq_nil_iff] at hnil
      rw [hnil] at g2
      exact v3 (by rw [← g2]; rfl)
    · intro ts' hts'
      rw [hts] at hts'
      cases hts'
      simp only [RowColumn.rows, ← List.map_flatten, g2, htsmap]
    · show (mergeAdjacent (col.refs.filterMap (w.run pre).cell?)).length = _
      rw [g3]
      simp
    · intro j sl rs hj1 hj2
      have hj1' : (mergeAdjacent (col.refs.filterMap (w.run pre).cell?))[j]? = some sl := hj1
      rw [g3, List.getElem?_map] at hj1'
      simp only [List.getElem?_map] at hj2
      cases hg : groups[j]? with
      | none => simp [hg] at hj2
      | some g =>
        rw [hg] at hj1' hj2
        simp only [Option.map_some, Option.some.injEq] at hj1' hj2
        subst hj1' hj2
        exact (hsel g (List.mem_of_getElem? hg)).1
  -- choose the columns
  obtain ⟨rcs, hrl, hrc⟩ : ∃ rcs : List RowColumn, rcs.length = cols.length ∧ ∀ (i : Nat) (col : TrajCol) (rc : RowColumn), cols[i]? = some col →
      rcs[i]? = some rc → rc.Valid ∧ rc.chunks ≠ [] ∧ (∀ ts, values[i]? = some ts → rc.rows = ts) ∧
        ((w.run pre).toColumn col).slices.length = rc.chunks.length ∧
        ∀ (j : Nat) (sl : Slice) (rs : List Tensor), ((w.run pre).toColumn col).slices[j]? = some sl → rc.chunks[j]? = some rs →
          sl.Selects chunks rc.dtype rc.shape rs := by
    have hall : ∀ i : Nat, ∃ rc : RowColumn, ∀ col, cols[i]? = some col → rc.Valid ∧ rc.chunks ≠ [] ∧ (∀ ts, values[i]? = some ts → rc.rows = ts) ∧
        ((w.run pre).toColumn col).slices.length = rc.chunks.length ∧
        ∀ (j : Nat) (sl : Slice) (rs : List Tensor), ((w.run pre).toColumn col).slices[j]? = some sl → rc.chunks[j]? = some rs →
          sl.Selects chunks rc.dtype rc.shape rs := by
      intro i
      cases hci : cols[i]? with
      | none => exact ⟨⟨.int32, [], []⟩, by simp⟩
      | some col =>
        obtain ⟨rc, h⟩ := hcol i col hci
        exact ⟨rc, fun col' hc' => by cases hc'; exact h⟩
    refine ⟨(List.range cols.length).map fun i => Classical.choose (hall i), by simp, fun i col rc h1 h2 => ?_⟩
    have hlt := (List.getElem?_eq_some_iff.mp h1).1
    have hrci : rc = Classical.choose (hall i) := by
      rw [List.getElem?_map, List.getElem?_range hlt] at h2
      simpa using h2.symm
    rw [hrci]
    exact Classical.choose_spec (hall i) col h1
  have hget : ∀ (i : Nat) (rc : RowColumn), rcs[i]? = some rc → ∃ col, cols[i]? = some col := by
    intro i rc h1
    have := (List.getElem?_eq_some_iff.mp h1).1
    exact ⟨cols[i]'(by omega), List.getElem?_eq_getElem _⟩
  have htraj : ∀ (i : Nat) (c : Column), ((w.run pre).makeItem t p cols).traj[i]? = some c → ∃ col, cols[i]? = some col ∧ c = (w.run pre).toColumn col := by
    intro i c h1
    simp only [makeItem, List.getElem?_map] at h1
    cases hc : cols[i]? with
    | none => simp [hc] at h1
    | some col => exact ⟨col, rfl, by simpa [hc] using h1.symm⟩
  have hvalid : SampledItem.Valid ⟨info, ((w.run pre).makeItem t p cols).traj, chunks⟩ := by
    refine ⟨?_, ?_, ?_⟩
    · intro hnil
      simp only at hnil
      subst hnil
      obtain ⟨col, cs, rfl⟩ := List.exists_cons_of_ne_nil hne
      obtain ⟨rc, _, q2, _, q4, q5⟩ := hcol 0 col rfl
      obtain ⟨rs, rest, hrs⟩ := List.exists_cons_of_ne_nil q2
      have h0 : 0 < ((w.run pre).toColumn col).slices.length := by rw [q4, hrs]; simp
      obtain ⟨ch, _, _, _, hmem, _⟩ := q5 0 _ rs (List.getElem?_eq_getElem h0) (by rw [hrs]; rfl)
      cases hmem
    · simp only
      rw [hkeys]
      exact (C30_chunk_keys _).1
    · intro col hcm sl hsl
      simp only at hcm ⊢
      rw [hkeys]
      exact ((C30_chunk_keys _).2.1 _).mpr ⟨col, hcm, sl, hsl, rfl⟩
  have hshows : SampledItem.Shows ⟨info, ((w.run pre).makeItem t p cols).traj, chunks⟩ rcs := by
    refine ⟨by simp [makeItem, hrl], fun i c rc h1 h2 => ?_⟩
    obtain ⟨col, k1, rfl⟩ := htraj i c h1
    obtain ⟨_, _, _, q4, q5⟩ := hrc i col rc k1 h2
    exact ⟨q4, q5⟩
  obtain ⟨smp, out, o1, _, o3, o4, o5⟩ := C44_data hvalid hshows (by
      intro h
      rw [h] at hrl
      exact hne (List.eq_nil_of_length_eq_zero hrl.symm))
    (fun rc hrcm => by
      obtain ⟨i, hi'⟩ := List.getElem?_of_mem hrcm
      obtain ⟨col, hcoli⟩ := hget i rc hi'
      exact ⟨(hrc i col rc hcoli hi').1, (hrc i col rc hcoli hi').2.1⟩)
    (fun i c rc h1 h2 hsq => by
      obtain ⟨col, k1, rfl⟩ := htraj i c h1
      obtain ⟨_, v2, _, _⟩ := validateColumn_iff (validateColumns_alive hvc col (List.mem_of_getElem? k1))
      obtain ⟨_, _, q3, _, _⟩ := hrc i col rc k1 h2
      have hlt := (List.getElem?_eq_some_iff.mp k1).1
      have hvi : values[i]? = some (values[i]'(by omega)) := List.getElem?_eq_getElem _
      rw [q3 _ hvi, (hn i col _ k1 hvi).1]
      exact v2 hsq)
  refine ⟨smp, out, o1, o3, o4.trans hrl, fun i col ts x h1 h2 h3 => ?_⟩
  have hlt := (List.getElem?_eq_some_iff.mp h1).1
  have hri : rcs[i]? = some (rcs[i]'(by omega)) := List.getElem?_eq_getElem _
  obtain ⟨q1, _, q3, _, _⟩ := hrc i col _ h1 hri
  have := o5 i ((w.run pre).toColumn col) _ x (by simp [makeItem, h1]) hri h3
  simp only [q3 ts h2] at this
  have hsq : ((w.run pre).toColumn col).squeeze = col.squeeze := rfl
  rw [hsq] at this
  cases hb : col.squeeze with
  | true => rw [hb] at this; simpa using this
  | false =>
    rw [hb] at this
    simp only [Bool.false_eq_true, if_false] at this ⊢
    exact ⟨_, _, by rw [← q3 ts h2]; exact q1.rows, this⟩

/-! ### Examples -/
namespace TrajDemo

/-- Two columns of which the second one is cut into chunks of one step. -/
def abc : List Event :=
  [.configure 1 (.constant 1 4 false), .append [some (row 5), some (row 15)] true, .append [some (row 6), some (row 16)] true,
   .append [some (row 7), some (row 17)] true]

/-- The item with the columns `cols` after `abc`, and how it is read back from the stream that the worker writes. -/
def readBack (cols : List TrajCol) : Res (List Tensor) :=
  match serveAll .async .empty (((writer (.constant 3 4 false)).run (abc ++ .createItem "t" (.val 1) cols :: steps 40 good)).msgs) with
  | .ok (_, (it, chunks) :: _) =>
    match asSampleLocal ⟨⟨1, 1, 1, .val 1, false⟩, it.traj, chunks⟩ with
    | .ok smp => smp.asTrajectory
    | .err e => .err e
    | .died => .died
  | _ => .died

/-- Steps 1 and 2 of the first column, and of the second one, where each step has its own chunk, the steps 2, 0, 0; the last column is squeezed. -/
def fine : List TrajCol := [⟨[⟨0, 1⟩, ⟨0, 2⟩], false⟩, ⟨[⟨1, 2⟩, ⟨1, 0⟩, ⟨0, 0⟩], false⟩, ⟨[⟨0, 1⟩], true⟩]

example : readBack fine = .ok [Tensor.stack .int32 [1] [row 6, row 7], Tensor.stack .int32 [1] [row 17, row 15, row 5], row 6] := by decide +kernel

theorem abc_valid : ∀ e ∈ abc ++ .createItem "t" (.val 1) fine :: steps 40 good, e.Valid := by
  intro e he
  rcases List.mem_append.mp he with he | he
  · simp only [abc, List.mem_cons, List.not_mem_nil, or_false] at he
    rcases he with rfl | rfl | rfl | rfl <;> simp only [Event.Valid, List.mem_cons, List.not_mem_nil, or_false, Option.some.injEq, forall_eq_or_imp, forall_eq]
    all_goals exact ⟨row_wf _ (by decide), row_wf _ (by decide)⟩
  · rcases List.mem_cons.mp he with rfl | he
    · trivial
    · rw [List.eq_of_mem_replicate he]
      trivial

/-- The references name the tensors. -/
theorem abc_names (i j : Nat) (hi : i < 2) (hj : j < 3) : (writer (.constant 3 4 false)).Names abc ⟨i, j⟩ (row (10 * i + j + 5)) := by
  match i, j, hi, hj with
  | 0, 0, _, _ => exact ⟨abc.take 1, _, _, abc.drop 2, [some ⟨0, 0⟩, some ⟨1, 0⟩], rfl, by decide +kernel, rfl, rfl⟩
  | 0, 1, _, _ => exact ⟨abc.take 2, _, _, abc.drop 3, [some ⟨0, 1⟩, some ⟨1, 1⟩], rfl, by decide +kernel, rfl, rfl⟩
  | 0, 2, _, _ => exact ⟨abc.take 3, _, _, abc.drop 4, [some ⟨0, 2⟩, some ⟨1, 2⟩], rfl, by decide +kernel, rfl, rfl⟩
  | 1, 0, _, _ => exact ⟨abc.take 1, _, _, abc.drop 2, [some ⟨0, 0⟩, some ⟨1, 0⟩], rfl, by decide +kernel, rfl, rfl⟩
  | 1, 1, _, _ => exact ⟨abc.take 2, _, _, abc.drop 3, [some ⟨0, 1⟩, some ⟨1, 1⟩], rfl, by decide +kernel, rfl, rfl⟩
  | 1, 2, _, _ => exact ⟨abc.take 3, _, _, abc.drop 4, [some ⟨0, 2⟩, some ⟨1, 2⟩], rfl, by decide +kernel, rfl, rfl⟩
  | i + 2, _, hi, _ => omega
  | _, j + 3, _, hj => omega

/-- The hypotheses of `C33_contiguous_partial` about the columns are met by `fine`. -/
example : ((writer (.constant 3 4 false)).replyAt abc (.createItem "t" (.val 1) fine) = .ok (.item 1)) ∧
    ∀ col ∈ fine, ((writer (.constant 3 4 false)).run abc).Contiguous col.refs :=
  ⟨by decide +kernel, fun col hc => contiguous_of (by
    revert col
    decide +kernel)⟩

/-- C33 fails for gaps: of the steps 0 and 2 of one chunk the steps 0 and 1 are read back. The references are those that `Append`
returned for the tensors `row 5` and `row 7` (`abc_names`). -/
theorem C33_gap : (writer (.constant 3 4 false)).Started ∧
    (writer (.constant 3 4 false)).replyAt abc (.createItem "t" (.val 1) [⟨[⟨0, 0⟩, ⟨0, 2⟩], false⟩]) = .ok (.item 1) ∧
    readBack [⟨[⟨0, 0⟩, ⟨0, 2⟩], false⟩] = .ok [Tensor.stack .int32 [1] [row 5, row 6]] ∧
    Tensor.stack .int32 [1] [row 5, row 6] ≠ Tensor.stack .int32 [1] [row 5, row 7] :=
  ⟨started (by decide), by decide +kernel, by decide +kernel, by decide⟩

/-- C33 fails for another order: of the steps 1 and 0 of one chunk the steps 1 and 2 are read back, and an item with the steps 2 and 1
cannot be read back at all. Both items are accepted by the writer and the server. -/
theorem C33_order : (writer (.constant 3 4 false)).replyAt abc (.createItem "t" (.val 1) [⟨[⟨0, 1⟩, ⟨0, 0⟩], false⟩]) = .ok (.item 1) ∧
    readBack [⟨[⟨0, 1⟩, ⟨0, 0⟩], false⟩] = .ok [Tensor.stack .int32 [1] [row 6, row 7]] ∧
    (writer (.constant 3 4 false)).replyAt abc (.createItem "t" (.val 1) [⟨[⟨0, 2⟩, ⟨0, 1⟩], false⟩]) = .ok (.item 1) ∧
    readBack [⟨[⟨0, 2⟩, ⟨0, 1⟩], false⟩] = .err .invalidArgument := by decide +kernel

end TrajDemo
end TrajWriter
end Verif
