import Verif.Model.PyTree
namespace Verif
namespace PTree

theorem mem_under {α : Type} {x : PyStep} {l : List (PyPath × α)} {p : PyPath} {a : α} :
    (p, a) ∈ under x l ↔ ∃ q, p = x :: q ∧ (q, a) ∈ l := by
  unfold under
  rw [List.mem_map]
  constructor
  · rintro ⟨⟨q, b⟩, h1, h2⟩
    simp only [Prod.mk.injEq] at h2
    exact ⟨q, h2.1.symm, h2.2 ▸ h1⟩
  · rintro ⟨q, rfl, h⟩
    exact ⟨(q, a), h, rfl⟩

/-! ### Leaves and access -/

theorem atField_none {α : Type} : ∀ {fs : List (String × PTree α)} {k : String} {p : PyPath}, k ∉ fs.map Prod.fst → atField fs k p = none
  | [], _, _, _ => by simp [atField]
  | (k', t) :: fs, k, p, h => by
    simp only [List.map_cons, List.mem_cons, not_or] at h
    rw [atField, if_neg (fun e => h.1 e.symm)]
    exact atField_none h.2

theorem leavesFields_key {α : Type} : ∀ {fs : List (String × PTree α)} {p : PyPath} {a : α}, (p, a) ∈ leavesFields fs →
    ∃ k q, p = .key k :: q ∧ k ∈ fs.map Prod.fst
  | [], _, _, h => by simp [leavesFields] at h
  | (k, t) :: fs, p, a, h => by
    rw [leavesFields, List.mem_append] at h
    rcases h with h | h
    · obtain ⟨q, h1, _⟩ := mem_under.mp h
      exact ⟨k, q, h1, by simp⟩
    · obtain ⟨k', q, h1, h2⟩ := leavesFields_key h
      exact ⟨k', q, h1, by simp only [List.map_cons, List.mem_cons]; exact .inr h2⟩

theorem leavesElems_pos {α : Type} : ∀ {ts : List (PTree α)} {i : Nat} {p : PyPath} {a : α}, (p, a) ∈ leavesElems i ts →
    ∃ j q, p = .pos j :: q ∧ i ≤ j
  | [], _, _, _, h => by simp [leavesElems] at h
  | t :: ts, i, p, a, h => by
    rw [leavesElems, List.mem_append] at h
    rcases h with h | h
    · obtain ⟨q, h1, _⟩ := mem_under.mp h
      exact ⟨i, q, h1, Nat.le_refl _⟩
    · obtain ⟨j, q, h1, h2⟩ := leavesElems_pos h
      exact ⟨j, q, h1, by omega⟩

mutual

theorem mem_leaves {α : Type} : ∀ {t : PTree α}, t.WF → ∀ {p : PyPath} {a : α}, (p, a) ∈ t.leaves ↔ t.at? p = some a
  | .leaf b, _, p, a => by
    cases p with
    | nil => simp [leaves, at?, eq_comm]
    | cons x p => simp [leaves, at?]
  | .dict fs, h, p, a => by
    rw [WF] at h
    rw [leaves]
    cases p with
    | nil =>
      simp only [at?]
      constructor
      · intro hm
        obtain ⟨_, _, h1, _⟩ := leavesFields_key hm
        cases h1
      · intro hm; cases hm
    | cons x p =>
      cases x with
      | key k => rw [at?]; exact mem_leavesFields h.1 h.2
      | pos i =>
        simp only [at?]
        constructor
        · intro hm
          obtain ⟨_, _, h1, _⟩ := leavesFields_key hm
          cases h1
        · intro hm; cases hm
  | .seq ts, h, p, a => by
    rw [WF] at h
    rw [leaves]
    cases p with
    | nil =>
      simp only [at?]
      constructor
      · intro hm
        obtain ⟨_, _, h1, _⟩ := leavesElems_pos hm
        cases h1
      · intro hm; cases hm
    | cons x p =>
      cases x with
      | pos i =>
        rw [at?]
        have := mem_leavesElems h (i := 0) (j := i) (p := p) (a := a)
        simpa using this
      | key k =>
        simp only [at?]
        constructor
        · intro hm
          obtain ⟨_, _, h1, _⟩ := leavesElems_pos hm
          cases h1
        · intro hm; cases hm

theorem mem_leavesFields {α : Type} : ∀ {fs : List (String × PTree α)}, (fs.map Prod.fst).Nodup → WFFields fs →
    ∀ {k : String} {p : PyPath} {a : α}, (.key k :: p, a) ∈ leavesFields fs ↔ atField fs k p = some a
  | [], _, _, k, p, a => by simp [leavesFields, atField]
  | (k', t) :: fs, hn, hw, k, p, a => by
    rw [WFFields] at hw
    simp only [List.map_cons, List.nodup_cons] at hn
    rw [leavesFields, List.mem_append, mem_under, atField]
    by_cases hk : k' = k
    · subst hk
      rw [if_pos rfl, ← mem_leaves hw.1]
      constructor
      · rintro (⟨q, h1, h2⟩ | h)
        · simp only [List.cons.injEq, true_and] at h1
          rw [h1]; exact h2
        · obtain ⟨k2, q, h1, h2⟩ := leavesFields_key h
          simp only [List.cons.injEq, PyStep.key.injEq] at h1
          rw [← h1.1] at h2
          exact absurd h2 hn.1
      · intro h; exact .inl ⟨p, rfl, h⟩
    · rw [if_neg hk, ← mem_leavesFields hn.2 hw.2]
      constructor
      · rintro (⟨q, h1, _⟩ | h)
        · simp only [List.cons.injEq, PyStep.key.injEq] at h1
          exact absurd h1.1.symm hk
        · exact h
      · exact .inr

theorem mem_leavesElems {α : Type} : ∀ {ts : List (PTree α)}, WFElems ts →
    ∀ {i j : Nat} {p : PyPath} {a : α}, (.pos (i + j) :: p, a) ∈ leavesElems i ts ↔ atElem ts j p = some a
  | [], _, i, j, p, a => by simp [leavesElems, atElem]
  | t :: ts, hw, i, j, p, a => by
    rw [WFElems] at hw
    rw [leavesElems, List.mem_append, mem_under]
    cases j with
    | zero =>
      rw [atElem, ← mem_leaves hw.1]
      constructor
      · rintro (⟨q, h1, h2⟩ | h)
        · simp only [Nat.add_zero, List.cons.injEq, true_and] at h1
          rw [h1]; exact h2
        · obtain ⟨k2, q, h1, h2⟩ := leavesElems_pos h
          simp only [List.cons.injEq, PyStep.pos.injEq] at h1
          omega
      · intro h; exact .inl ⟨p, rfl, h⟩
    | succ j =>
      rw [atElem, ← mem_leavesElems hw.2 (i := i + 1), show i + 1 + j = i + (j + 1) by omega]
      constructor
      · rintro (⟨q, h1, _⟩ | h)
        · simp only [List.cons.injEq, PyStep.pos.injEq] at h1
          omega
        · exact h
      · exact .inr

end

theorem under_paths {α : Type} (x : PyStep) (l : List (PyPath × α)) : (under x l).map Prod.fst = (l.map Prod.fst).map (x :: ·) := by
  simp [under, List.map_map, Function.comp_def]

theorem nodup_map_cons (x : PyStep) {l : List PyPath} (h : l.Nodup) : (l.map (x :: ·)).Nodup := by
  induction l with
  | nil => simp
  | cons a l ih =>
    simp only [List.nodup_cons] at h
    simp only [List.map_cons, List.nodup_cons, List.mem_map, List.cons.injEq, true_and]
    exact ⟨fun ⟨b, h1, h2⟩ => h.1 (h2 ▸ h1), ih h.2⟩

mutual

theorem leaves_nodup {α : Type} : ∀ {t : PTree α}, t.WF → (t.leaves.map Prod.fst).Nodup
  | .leaf b, _ => by simp [leaves]
  | .dict fs, h => by rw [WF] at h; rw [leaves]; exact leavesFields_nodup h.1 h.2
  | .seq ts, h => by rw [WF] at h; rw [leaves]; exact leavesElems_nodup h

theorem leavesFields_nodup {α : Type} : ∀ {fs : List (String × PTree α)}, (fs.map Prod.fst).Nodup → WFFields fs →
    ((leavesFields fs).map Prod.fst).Nodup
  | [], _, _ => by simp [leavesFields]
  | (k, t) :: fs, hn, hw => by
    rw [WFFields] at hw
    simp only [List.map_cons, List.nodup_cons] at hn
    rw [leavesFields, List.map_append, under_paths, List.nodup_append]
    refine ⟨nodup_map_cons _ (leaves_nodup hw.1), leavesFields_nodup hn.2 hw.2, ?_⟩
    intro a ha b hb hab
    subst hab
    obtain ⟨q, _, rfl⟩ := List.mem_map.mp ha
    obtain ⟨⟨q2, v⟩, h1, h2⟩ := List.mem_map.mp hb
    simp only at h2
    subst h2
    obtain ⟨k2, q, h1, h2⟩ := leavesFields_key h1
    simp only [List.cons.injEq, PyStep.key.injEq] at h1
    rw [← h1.1] at h2
    exact hn.1 h2

theorem leavesElems_nodup {α : Type} : ∀ {ts : List (PTree α)} {i : Nat}, WFElems ts → ((leavesElems i ts).map Prod.fst).Nodup
  | [], _, _ => by simp [leavesElems]
  | t :: ts, i, hw => by
    rw [WFElems] at hw
    rw [leavesElems, List.map_append, under_paths, List.nodup_append]
    refine ⟨nodup_map_cons _ (leaves_nodup hw.1), leavesElems_nodup hw.2, ?_⟩
    intro a ha b hb hab
    subst hab
    obtain ⟨q, _, rfl⟩ := List.mem_map.mp ha
    obtain ⟨⟨q2, v⟩, h1, h2⟩ := List.mem_map.mp hb
    simp only at h2
    subst h2
    obtain ⟨k2, q, h1, h2⟩ := leavesElems_pos h1
    simp only [List.cons.injEq, PyStep.pos.injEq] at h1
    omega

end

/-! ### Sorting -/

theorem insertEntry_perm {β : Type} (e : String × β) : ∀ l : List (String × β), (insertEntry e l).Perm (e :: l)
  | [] => List.Perm.refl _
  | f :: fs => by
    unfold insertEntry
    split
    · exact List.Perm.refl _
    · exact ((insertEntry_perm e fs).cons f).trans (List.Perm.swap e f fs)

theorem sortEntries_perm {β : Type} : ∀ l : List (String × β), (sortEntries l).Perm l
  | [] => List.Perm.refl _
  | e :: es => (insertEntry_perm e _).trans ((sortEntries_perm es).cons e)

theorem WFFields_iff {α : Type} : ∀ {fs : List (String × PTree α)}, WFFields fs ↔ ∀ e ∈ fs, e.2.WF
  | [] => by simp [WFFields]
  | (k, t) :: fs => by simp [WFFields, WFFields_iff (fs := fs)]

theorem WFElems_iff {α : Type} : ∀ {ts : List (PTree α)}, WFElems ts ↔ ∀ t ∈ ts, t.WF
  | [] => by simp [WFElems]
  | t :: ts => by simp [WFElems, WFElems_iff (ts := ts)]

theorem sortedFields_keys {α : Type} : ∀ fs : List (String × PTree α), (sortedFields fs).map Prod.fst = fs.map Prod.fst
  | [] => rfl
  | (k, t) :: fs => by simp [sortedFields, sortedFields_keys fs]

/-- Access by key does not depend on the order. -/
theorem atField_iff {α : Type} : ∀ {fs : List (String × PTree α)}, (fs.map Prod.fst).Nodup → ∀ {k : String} {p : PyPath} {a : α},
    atField fs k p = some a ↔ ∃ t, (k, t) ∈ fs ∧ t.at? p = some a
  | [], _, k, p, a => by simp [atField]
  | (k', t) :: fs, hn, k, p, a => by
    simp only [List.map_cons, List.nodup_cons] at hn
    rw [atField]
    by_cases hk : k' = k
    · subst hk
      rw [if_pos rfl]
      constructor
      · intro h; exact ⟨t, by simp, h⟩
      · rintro ⟨t', h1, h2⟩
        simp only [List.mem_cons, Prod.mk.injEq, true_and] at h1
        rcases h1 with rfl | h1
        · exact h2
        · exact absurd (List.mem_map_of_mem (f := Prod.fst) h1) hn.1
    · rw [if_neg hk, atField_iff hn.2]
      constructor
      · rintro ⟨t', h1, h2⟩; exact ⟨t', by simp [h1], h2⟩
      · rintro ⟨t', h1, h2⟩
        simp only [List.mem_cons, Prod.mk.injEq] at h1
        rcases h1 with ⟨rfl, _⟩ | h1
        · exact absurd rfl hk
        · exact ⟨t', h1, h2⟩

theorem atField_perm {α : Type} {fs gs : List (String × PTree α)} (h : fs.Perm gs) (hn : (fs.map Prod.fst).Nodup) (k : String) (p : PyPath) :
    atField fs k p = atField gs k p := by
  have hn' : (gs.map Prod.fst).Nodup := (h.map Prod.fst).nodup_iff.mp hn
  apply Option.ext
  intro a
  rw [atField_iff hn, atField_iff hn']
  constructor
  · rintro ⟨t, h1, h2⟩; exact ⟨t, h.mem_iff.mp h1, h2⟩
  · rintro ⟨t, h1, h2⟩; exact ⟨t, h.mem_iff.mpr h1, h2⟩

mutual

theorem sorted_wf {α : Type} : ∀ {t : PTree α}, t.WF → t.sorted.WF ∧ ∀ p, t.sorted.at? p = t.at? p
  | .leaf b, _ => by simp [sorted, WF]
  | .dict fs, h => by
    rw [WF] at h
    obtain ⟨h1, h2⟩ := sortedFields_wf h.2
    have hp := sortEntries_perm (sortedFields fs)
    have hn : ((sortEntries (sortedFields fs)).map Prod.fst).Nodup := by
      rw [(hp.map Prod.fst).nodup_iff, sortedFields_keys]; exact h.1
    rw [sorted]
    refine ⟨?_, fun p => ?_⟩
    · rw [WF]
      refine ⟨hn, WFFields_iff.mpr fun e he => WFFields_iff.mp h1 e (hp.mem_iff.mp he)⟩
    · cases p with
      | nil => simp [at?]
      | cons x p =>
        cases x with
        | pos i => simp [at?]
        | key k => rw [at?, at?, atField_perm hp hn, h2]
  | .seq ts, h => by
    rw [WF] at h
    obtain ⟨h1, h2⟩ := sortedElems_wf h
    rw [sorted]
    refine ⟨by rw [WF]; exact h1, fun p => ?_⟩
    cases p with
    | nil => simp [at?]
    | cons x p =>
      cases x with
      | key k => simp [at?]
      | pos i => rw [at?, at?, h2]

theorem sortedFields_wf {α : Type} : ∀ {fs : List (String × PTree α)}, WFFields fs →
    WFFields (sortedFields fs) ∧ ∀ k p, atField (sortedFields fs) k p = atField fs k p
  | [], _ => by simp [sortedFields, WFFields]
  | (k, t) :: fs, h => by
    rw [WFFields] at h
    obtain ⟨h1, h2⟩ := sorted_wf h.1
    obtain ⟨h3, h4⟩ := sortedFields_wf h.2
    rw [sortedFields]
    exact ⟨by rw [WFFields]; exact ⟨h1, h3⟩, fun k' p => by rw [atField, atField, h2, h4]⟩

theorem sortedElems_wf {α : Type} : ∀ {ts : List (PTree α)}, WFElems ts →
    WFElems (sortedElems ts) ∧ ∀ i p, atElem (sortedElems ts) i p = atElem ts i p
  | [], _ => by simp [sortedElems, WFElems]
  | t :: ts, h => by
    rw [WFElems] at h
    obtain ⟨h1, h2⟩ := sorted_wf h.1
    obtain ⟨h3, h4⟩ := sortedElems_wf h.2
    rw [sortedElems]
    refine ⟨by rw [WFElems]; exact ⟨h1, h3⟩, fun i p => ?_⟩
    cases i with
    | zero => rw [atElem, atElem, h2]
    | succ i => rw [atElem, atElem, h4]

end

/-- What `tree.flatten_with_path` gives. -/
theorem flatten_iff {α : Type} {t : PTree α} (h : t.WF) {p : PyPath} {a : α} : (p, a) ∈ t.flattenWithPath ↔ t.at? p = some a := by
  rw [flattenWithPath, mem_leaves (sorted_wf h).1, (sorted_wf h).2]

theorem flatten_nodup {α : Type} {t : PTree α} (h : t.WF) : (t.flattenWithPath.map Prod.fst).Nodup := leaves_nodup (sorted_wf h).1

/-! ### Filling -/

theorem under_zip {β : Type} (x : PyStep) : ∀ (ps : List PyPath) (bs : List β),
    under x (ps.zip bs) = (ps.map (x :: ·)).zip (bs.take ps.length)
  | [], bs => by simp [under]
  | p :: ps, [] => by simp [under]
  | p :: ps, b :: bs => by
    have := under_zip x ps bs
    simp only [under] at this
    simp [under, this]

mutual

theorem fill_ok {α β : Type} : ∀ {t : PTree α} {bs : List β}, t.leaves.length ≤ bs.length → ∃ t', t.fill bs = some (t', bs.drop t.leaves.length) ∧
    t'.leaves = (t.leaves.map Prod.fst).zip bs ∧ (t.WF → t'.WF)
  | .leaf a, bs, h => by
    cases bs with
    | nil => simp [leaves] at h
    | cons b bs => exact ⟨.leaf b, by simp [fill, leaves], by simp [leaves], fun _ => by simp [WF]⟩
  | .dict fs, bs, h => by
    rw [leaves] at h
    obtain ⟨fs', h1, h2, h3, h4⟩ := fillFields_ok h
    exact ⟨.dict fs', by rw [fill, h1]; simp [leaves], by rw [leaves, leaves, h2], fun hw => by
      rw [WF] at hw ⊢; exact ⟨by rw [h3]; exact hw.1, h4 hw.2⟩⟩
  | .seq ts, bs, h => by
    rw [leaves] at h
    obtain ⟨ts', h1, h2, h3⟩ := fillElems_ok h
    exact ⟨.seq ts', by rw [fill, h1]; simp [leaves], by rw [leaves, leaves, h2], fun hw => by
      rw [WF] at hw ⊢; exact h3 hw⟩

theorem fillFields_ok {α β : Type} : ∀ {fs : List (String × PTree α)} {bs : List β}, (leavesFields fs).length ≤ bs.length →
    ∃ fs', fillFields fs bs = some (fs', bs.drop (leavesFields fs).length) ∧ leavesFields fs' = ((leavesFields fs).map Prod.fst).zip bs ∧
      fs'.map Prod.fst = fs.map Prod.fst ∧ (WFFields fs → WFFields fs')
  | [], bs, _ => ⟨[], by simp [fillFields, leavesFields], by simp [leavesFields], rfl, fun _ => by simp [WFFields]⟩
  | (k, t) :: fs, bs, h => by
    rw [leavesFields, List.length_append] at h
    have hu : (under (.key k) t.leaves).length = t.leaves.length := by simp [under]
    rw [hu] at h
    obtain ⟨t', h1, h2, h3⟩ := fill_ok (t := t) (bs := bs) (by omega)
    obtain ⟨fs', g1, g2, g3, g4⟩ := fillFields_ok (fs := fs) (bs := bs.drop t.leaves.length) (by rw [List.length_drop]; omega)
    refine ⟨(k, t') :: fs', ?_, ?_, by simp [g3], fun hw => ?_⟩
    · rw [fillFields, h1]
      simp only [g1, Option.map_some]
      rw [leavesFields, List.length_append, hu, List.drop_drop]
    · rw [leavesFields, leavesFields, List.map_append, under_paths, h2, g2]
      rw [show (((t.leaves.map Prod.fst).map (PyStep.key k :: ·)) ++ (leavesFields fs).map Prod.fst).zip bs =
        ((t.leaves.map Prod.fst).map (PyStep.key k :: ·)).zip (bs.take t.leaves.length) ++
          ((leavesFields fs).map Prod.fst).zip (bs.drop t.leaves.length) by
        conv => lhs; rw [← List.take_append_drop t.leaves.length bs]
        rw [List.zip_append (by simp; omega)]]
      congr 1
      rw [under_zip, List.length_map]
    · rw [WFFields] at hw ⊢
      exact ⟨h3 hw.1, g4 hw.2⟩

theorem fillElems_ok {α β : Type} : ∀ {ts : List (PTree α)} {i : Nat} {bs : List β}, (leavesElems i ts).length ≤ bs.length →
    ∃ ts', fillElems ts bs = some (ts', bs.drop (leavesElems i ts).length) ∧ leavesElems i ts' = ((leavesElems i ts).map Prod.fst).zip bs ∧
      (WFElems ts → WFElems ts')
  | [], i, bs, _ => ⟨[], by simp [fillElems, leavesElems], by simp [leavesElems], fun _ => by simp [WFElems]⟩
  | t :: ts, i, bs, h => by
    rw [leavesElems, List.length_append] at h
    have hu : (under (.pos i) t.leaves).length = t.leaves.length := by simp [under]
    rw [hu] at h
    obtain ⟨t', h1, h2, h3⟩ := fill_ok (t := t) (bs := bs) (by omega)
    obtain ⟨ts', g1, g2, g4⟩ := fillElems_ok (ts := ts) (i := i + 1) (bs := bs.drop t.leaves.length) (by rw [List.length_drop]; omega)
    refine ⟨t' :: ts', ?_, ?_, fun hw => ?_⟩
    · rw [fillElems, h1]
      simp only [g1, Option.map_some]
      rw [leavesElems, List.length_append, hu, List.drop_drop]
    · rw [leavesElems, leavesElems, List.map_append, under_paths, h2, g2]
      rw [show (((t.leaves.map Prod.fst).map (PyStep.pos i :: ·)) ++ (leavesElems (i + 1) ts).map Prod.fst).zip bs =
        ((t.leaves.map Prod.fst).map (PyStep.pos i :: ·)).zip (bs.take t.leaves.length) ++
          ((leavesElems (i + 1) ts).map Prod.fst).zip (bs.drop t.leaves.length) by
        conv => lhs; rw [← List.take_append_drop t.leaves.length bs]
        rw [List.zip_append (by simp; omega)]]
      congr 1
      rw [under_zip, List.length_map]
    · rw [WFElems] at hw ⊢
      exact ⟨h3 hw.1, g4 hw.2⟩

end

end PTree
end Verif
