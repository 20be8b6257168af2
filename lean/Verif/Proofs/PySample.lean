import Verif.Spec.PySample
import Verif.Proofs.PyUnion
import Verif.Props.C44_C46_Sample
namespace Verif

theorem notOne_nil : notOne [] = true := rfl

theorem notOne_cons (a : Nat) (l : List Nat) : notOne (a :: l) = false ↔ ∀ x ∈ l, x = a := by
  simp only [notOne, List.eraseDups_cons, List.length_cons]
  constructor
  · intro h x hx
    simp only [bne_eq_false_iff_eq, Nat.add_eq_right, List.length_eq_zero_iff] at h
    by_cases hxa : x = a
    · exact hxa
    · have hm : x ∈ l.filter fun b => !b == a := List.mem_filter.mpr ⟨hx, by simpa using hxa⟩
      cases hf : l.filter fun b => !b == a with
      | nil => rw [hf] at hm; simp at hm
      | cons y ys => rw [hf, List.eraseDups_cons] at h; cases h
  · intro h
    have : l.filter (fun b => !b == a) = [] := by
      rw [List.filter_eq_nil_iff]
      intro x hx
      simp [h x hx]
    rw [this]
    rfl

theorem notOne_true_iff {l : List Nat} (hne : l ≠ []) : notOne l = true ↔ ∃ a ∈ l, ∃ b ∈ l, a ≠ b := by
  cases l with
  | nil => exact absurd rfl hne
  | cons a l =>
    rw [← Bool.not_eq_false, notOne_cons]
    constructor
    · intro h
      obtain ⟨x, hx⟩ := Classical.not_forall.mp h
      obtain ⟨h1, h2⟩ := Classical.not_imp.mp hx
      exact ⟨x, List.mem_cons_of_mem _ h1, a, List.mem_cons_self, h2⟩
    · rintro ⟨x, hx, y, hy, hxy⟩ h
      have : ∀ z ∈ a :: l, z = a := by
        intro z hz
        rcases List.mem_cons.mp hz with rfl | hz
        · rfl
        · exact h z hz
      exact hxy ((this x hx).trans (this y hy).symm)

theorem pyLens_none : ∀ {ts : List Tensor}, pyLens ts = none ↔ ∃ t ∈ ts, t.shape = []
  | [] => by simp [pyLens]
  | t :: ts => by
    have ih := pyLens_none (ts := ts)
    simp only [pyLens, Tensor.pyLen]
    cases hs : t.shape with
    | nil => simp [hs]
    | cons n s =>
      cases hl : pyLens ts with
      | none => simp only [List.head?_cons, true_iff]; obtain ⟨u, hu, h⟩ := ih.mp hl; exact ⟨u, List.mem_cons_of_mem _ hu, h⟩
      | some ns =>
        simp only [List.head?_cons, reduceCtorEq, false_iff]
        rintro ⟨u, hu, h⟩
        rcases List.mem_cons.mp hu with rfl | hu
        · rw [hs] at h; cases h
        · have := ih.mpr ⟨u, hu, h⟩
          rw [hl] at this
          cases this

theorem pyLens_some : ∀ {ts : List Tensor} {ns : List Nat}, pyLens ts = some ns → ns.map some = ts.map Tensor.pyLen
  | [], ns, h => by cases h; rfl
  | t :: ts, ns, h => by
    simp only [pyLens] at h
    split at h
    · rename_i n ns' h1 h2
      cases h
      rw [List.map_cons, List.map_cons, h1, pyLens_some h2]
    · cases h

theorem pyRow_some : ∀ {ts : List Tensor} {k : Nat}, (∀ t ∈ ts, ∃ r, t.subSlice k = .ok r) →
    ∃ row, pyRow k ts = some row ∧ row.map Res.ok = ts.map (·.subSlice k)
  | [], k, _ => ⟨[], rfl, rfl⟩
  | t :: ts, k, h => by
    obtain ⟨row, h1, h2⟩ := pyRow_some (ts := ts) (k := k) fun u hu => h u (List.mem_cons_of_mem _ hu)
    obtain ⟨r, hr⟩ := h t List.mem_cons_self
    exact ⟨r :: row, by simp only [pyRow, hr, h1], by simp only [List.map_cons, hr, h2]⟩

theorem pySteps_ok {α : Type} {sig : Option (PTree α)} {info : PyInfo} {data : List Tensor} : ∀ {n i : Nat},
    (∀ k, i ≤ k → k < i + n → ∃ row d, pyRow k data = some row ∧ unflattenData sig row = some d) →
    ∃ l, pySteps sig info data i n = .ok l ∧ l.length = n ∧ ∀ (j : Nat) (s : ReplaySample), l[j]? = some s →
      s.info = info ∧ ∃ row, pyRow (i + j) data = some row ∧ unflattenData sig row = some s.data
  | 0, i, _ => ⟨[], rfl, rfl, by simp⟩
  | n + 1, i, h => by
    obtain ⟨row, d, h1, h2⟩ := h i (Nat.le_refl _) (by omega)
    obtain ⟨l, h3, h4, h5⟩ := pySteps_ok (n := n) (i := i + 1) (info := info) fun k hk hk' => h k (by omega) (by omega)
    refine ⟨⟨info, d⟩ :: l, by simp only [pySteps, h1, h2, h3], by simp [h4], fun j s hj => ?_⟩
    cases j with
    | zero => cases hj; exact ⟨rfl, row, h1, h2⟩
    | succ j =>
      obtain ⟨g1, g2⟩ := h5 j s (by simpa using hj)
      exact ⟨g1, by rw [show i + (j + 1) = i + 1 + j by omega]; exact g2⟩

/-- The columns as arrays. -/
def arraysOf (cols : List RowColumn) : List Tensor := cols.map fun c => Tensor.stack c.dtype c.shape c.rows

theorem pyRow_arrays {cols : List RowColumn} (hv : ∀ c ∈ cols, c.Valid) {k : Nat} (hk : ∀ c ∈ cols, k < c.rows.length) :
    ∃ row, pyRow k (arraysOf cols) = some row ∧ RowsAt cols k row := by
  have hsub : ∀ c (hc : c ∈ cols), (Tensor.stack c.dtype c.shape c.rows).subSlice k = .ok (c.rows[k]'(hk c hc)) :=
    fun c hc => Tensor.subSlice_stack (hv c hc).rows (hk c hc)
  obtain ⟨row, h1, h2⟩ := pyRow_some (ts := arraysOf cols) (k := k) (by
    intro t ht
    obtain ⟨c, hc, rfl⟩ := List.mem_map.mp ht
    exact ⟨_, hsub c hc⟩)
  refine ⟨row, h1, ?_⟩
  rw [RowsAt]
  apply List.ext_getElem?
  intro i
  have hi := congrArg (fun l => l[i]?) h2
  simp only [arraysOf, List.getElem?_map, Option.map_map] at hi ⊢
  cases hc : cols[i]? with
  | none =>
    rw [hc] at hi
    cases hr : row[i]? with
    | none => rfl
    | some r => rw [hr] at hi; cases hi
  | some c =>
    rw [hc] at hi
    have hcm := List.mem_of_getElem? hc
    simp only [Option.map_some, Function.comp_apply, hsub c hcm] at hi
    cases hr : row[i]? with
    | none => rw [hr] at hi; cases hi
    | some r =>
      rw [hr] at hi
      simp only [Option.map_some, Option.some.injEq, Res.ok.injEq] at hi
      simp only [Option.map_some, List.getElem?_eq_getElem (hk c hcm), hi]

theorem pyLens_arrays : ∀ (cols : List RowColumn), pyLens (arraysOf cols) = some (cols.map fun c => c.rows.length)
  | [] => rfl
  | c :: cols => by
    have ih := pyLens_arrays cols
    simp only [arraysOf, List.map_cons, pyLens, Tensor.pyLen, Tensor.stack, List.head?_cons] at ih ⊢
    rw [ih]

/-- What the sampler returns for an item without squeezed columns. -/
theorem SampledItem.Has.fetch {s : SampledItem} {cols : List RowColumn} (h : s.Has cols) :
    ∃ smp out, asSampleLocal s = .ok smp ∧ smp.fetch = .ok (s.info.py, out) ∧ out.length = cols.length ∧
      ∀ (i : Nat) (col : Column) (c : RowColumn) (t : Tensor), s.traj[i]? = some col → cols[i]? = some c → out[i]? = some t →
        if col.squeeze then c.rows = [t] else t = Tensor.stack c.dtype c.shape c.rows := by
  obtain ⟨smp, out, h1, h2, h3, h4, h5⟩ := C44_data h.valid h.shows h.ne h.columns h.squeezed
  exact ⟨smp, out, h1, by rw [Sample.fetch, h3, h2]; rfl, h4, h5⟩

theorem SampledItem.Has.fetch_plain {s : SampledItem} {cols : List RowColumn} (h : s.Has cols) (hq : ∀ col ∈ s.traj, col.squeeze = false) :
    ∃ smp, asSampleLocal s = .ok smp ∧ smp.fetch = .ok (s.info.py, arraysOf cols) := by
  obtain ⟨smp, out, h1, h2, h3, h4⟩ := h.fetch
  have : out = arraysOf cols := by
    apply List.ext_getElem?
    intro i
    rw [arraysOf, List.getElem?_map]
    cases hc : cols[i]? with
    | none =>
      have : cols.length ≤ i := List.getElem?_eq_none_iff.mp hc
      rw [Option.map_none, List.getElem?_eq_none_iff]
      omega
    | some c =>
      have hlt := (List.getElem?_eq_some_iff.mp hc).1
      have hl1 : i < out.length := by omega
      have hl2 : i < s.traj.length := by rw [h.shows.1]; exact hlt
      have := h4 i s.traj[i] c out[i] (List.getElem?_eq_getElem hl2) hc (List.getElem?_eq_getElem hl1)
      rw [hq _ (List.getElem_mem hl2)] at this
      rw [List.getElem?_eq_getElem hl1]
      simpa using this
  subst this
  exact ⟨smp, h1, h2⟩

theorem sampleItem_steps {α : Type} {sig : Option (PTree α)} {info : PyInfo} {data : List Tensor} {n : Nat} (hne : data ≠ [])
    (hl : ∀ t ∈ data, t.shape.head? = some n) {l : List ReplaySample} (h : pySteps sig info data 0 n = .ok l) :
    sampleItem true sig (info, data) = .ok (.steps l) := by
  cases hp : pyLens data with
  | none =>
    obtain ⟨t, ht, h0⟩ := pyLens_none.mp hp
    have := hl t ht
    rw [h0] at this
    cases this
  | some lens =>
    have hm := pyLens_some hp
    have hall : ∀ m ∈ lens, m = n := by
      intro m hm'
      have : some m ∈ data.map Tensor.pyLen := by rw [← hm]; exact List.mem_map_of_mem hm'
      obtain ⟨t, ht, h1⟩ := List.mem_map.mp this
      rw [Tensor.pyLen, hl t ht] at h1
      exact (Option.some.inj h1).symm
    cases lens with
    | nil =>
      cases data with
      | nil => exact absurd rfl hne
      | cons t ts => cases hm
    | cons a lens =>
      have ha : a = n := hall a List.mem_cons_self
      have : notOne (a :: lens) = false := (notOne_cons a lens).mpr fun x hx => by rw [hall x (List.mem_cons_of_mem _ hx), ha]
      simp only [sampleItem, if_true, hp, this, Bool.false_eq_true, if_false, List.headD_cons]
      rw [ha, h]

theorem sampleItem_wrong {α : Type} {sig : Option (PTree α)} {info : PyInfo} {cols : List RowColumn}
    (h : ∃ c ∈ cols, ∃ c' ∈ cols, c.rows.length ≠ c'.rows.length) : sampleItem true sig (info, arraysOf cols) = .raised .valueError := by
  obtain ⟨c, hc, c', hc', hne⟩ := h
  have : notOne (cols.map fun c => c.rows.length) = true := by
    rw [notOne_true_iff (by rintro h0; rw [List.map_eq_nil_iff] at h0; rw [h0] at hc; simp at hc)]
    exact ⟨_, List.mem_map_of_mem hc, _, List.mem_map_of_mem hc', hne⟩
  simp only [sampleItem, if_true, pyLens_arrays, this]

namespace PTree

mutual

theorem fill_len {α β : Type} : ∀ {t : PTree α} {bs : List β} {r : PTree β × List β}, t.fill bs = some r → bs.length = t.leaves.length + r.2.length
  | .leaf _, [], r, h => by rw [fill] at h; cases h
  | .leaf _, b :: bs, r, h => by
    rw [fill] at h
    cases h
    simp only [leaves, List.length_cons, List.length_nil]
    omega
  | .dict fs, bs, r, h => by
    rw [fill, Option.map_eq_some_iff] at h
    obtain ⟨x, hx, rfl⟩ := h
    rw [leaves]
    exact fillFields_len hx
  | .seq ts, bs, r, h => by
    rw [fill, Option.map_eq_some_iff] at h
    obtain ⟨x, hx, rfl⟩ := h
    rw [leaves]
    exact fillElems_len hx

theorem fillFields_len {α β : Type} : ∀ {fs : List (String × PTree α)} {bs : List β} {r : List (String × PTree β) × List β},
    fillFields fs bs = some r → bs.length = (leavesFields fs).length + r.2.length
  | [], bs, r, h => by rw [fillFields] at h; cases h; simp [leavesFields]
  | (k, t) :: fs, bs, r, h => by
    rw [fillFields] at h
    split at h
    · cases h
    · rename_i t' bs' ht
      rw [Option.map_eq_some_iff] at h
      obtain ⟨x, hx, rfl⟩ := h
      have h1 := fill_len ht
      have h2 := fillFields_len hx
      simp only [leavesFields, under, List.length_append, List.length_map] at h1 h2 ⊢
      omega

theorem fillElems_len {α β : Type} : ∀ {ts : List (PTree α)} {i : Nat} {bs : List β} {r : List (PTree β) × List β},
    fillElems ts bs = some r → bs.length = (leavesElems i ts).length + r.2.length
  | [], i, bs, r, h => by rw [fillElems] at h; cases h; simp [leavesElems]
  | t :: ts, i, bs, r, h => by
    rw [fillElems] at h
    split at h
    · cases h
    · rename_i t' bs' ht
      rw [Option.map_eq_some_iff] at h
      obtain ⟨x, hx, rfl⟩ := h
      have h1 := fill_len ht
      have h2 := fillElems_len (i := i + 1) hx
      simp only [leavesElems, under, List.length_append, List.length_map] at h1 h2 ⊢
      omega

end

end PTree

theorem PTree.unflatten_none {α β : Type} {s : PTree α} {flat : List β} (hl : flat.length ≠ s.flattenWithPath.length) : s.unflattenAs flat = none := by
  by_cases h : s.flattenWithPath.length ≤ flat.length
  · obtain ⟨t, h1, _⟩ := PTree.fill_ok (t := s.sorted) (bs := flat) h
    rw [PTree.unflattenAs, h1]
    have : flat.drop s.sorted.leaves.length ≠ [] := by
      intro h0
      rw [List.drop_eq_nil_iff] at h0
      have : s.sorted.leaves.length = s.flattenWithPath.length := rfl
      omega
    cases hd : flat.drop s.sorted.leaves.length with
    | nil => exact absurd hd this
    | cons a l => rfl
  · cases hu : s.unflattenAs flat with
    | none => rfl
    | some t =>
      exfalso
      rw [PTree.unflattenAs] at hu
      split at hu
      · rename_i t' hf
        have := PTree.fill_len hf
        simp only [List.length_nil, Nat.add_zero] at this
        exact h (Nat.le_of_eq this.symm)
      · cases hu

end Verif
