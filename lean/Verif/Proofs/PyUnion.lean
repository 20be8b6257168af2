import Verif.Proofs.PyTree
namespace Verif
namespace PTree

theorem mem_zip_iff {α β : Type} {as : List α} {bs : List β} {a : α} {b : β} : (a, b) ∈ as.zip bs ↔ ∃ i : Nat, as[i]? = some a ∧ bs[i]? = some b := by
  rw [List.mem_iff_getElem?]
  constructor
  · rintro ⟨i, h⟩
    rw [List.getElem?_zip_eq_some] at h
    exact ⟨i, h⟩
  · rintro ⟨i, h⟩
    exact ⟨i, List.getElem?_zip_eq_some.mpr h⟩

/-- What `tree.unflatten_as` gives. -/
theorem unflatten_ok {α β : Type} {s : PTree α} (h : s.WF) {flat : List β} (hl : flat.length = s.flattenWithPath.length) :
    ∃ t, s.unflattenAs flat = some t ∧ ∀ p b, t.at? p = some b ↔ ∃ i : Nat, (s.flattenWithPath.map Prod.fst)[i]? = some p ∧ flat[i]? = some b := by
  obtain ⟨t, h1, h2, h3⟩ := fill_ok (t := s.sorted) (bs := flat) (by rw [hl]; exact Nat.le_refl _)
  refine ⟨t, ?_, fun p b => ?_⟩
  · rw [unflattenAs, h1, List.drop_eq_nil_of_le (by rw [hl]; exact Nat.le_refl _)]
  · rw [← mem_leaves (h3 (sorted_wf h).1), h2, mem_zip_iff]
    rfl

/-! ### `map_structure` -/

theorem mapFields_keys {α β : Type} (f : α → β) : ∀ fs : List (String × PTree α), (mapFields f fs).map Prod.fst = fs.map Prod.fst
  | [] => rfl
  | (k, t) :: fs => by simp [mapFields, mapFields_keys f fs]

mutual

theorem map_wf {α β : Type} (f : α → β) : ∀ {t : PTree α}, t.WF → (t.map f).WF
  | .leaf _, _ => by simp [map, WF]
  | .dict fs, h => by
    rw [WF] at h
    rw [map, WF, mapFields_keys]
    exact ⟨h.1, mapFields_wf f h.2⟩
  | .seq ts, h => by
    rw [WF] at h
    rw [map, WF]
    exact mapElems_wf f h

theorem mapFields_wf {α β : Type} (f : α → β) : ∀ {fs : List (String × PTree α)}, WFFields fs → WFFields (mapFields f fs)
  | [], _ => by simp [mapFields, WFFields]
  | (k, t) :: fs, h => by
    rw [WFFields] at h
    rw [mapFields, WFFields]
    exact ⟨map_wf f h.1, mapFields_wf f h.2⟩

theorem mapElems_wf {α β : Type} (f : α → β) : ∀ {ts : List (PTree α)}, WFElems ts → WFElems (mapElems f ts)
  | [], _ => by simp [mapElems, WFElems]
  | t :: ts, h => by
    rw [WFElems] at h
    rw [mapElems, WFElems]
    exact ⟨map_wf f h.1, mapElems_wf f h.2⟩

end

mutual

theorem map_at {α β : Type} (f : α → β) : ∀ (t : PTree α) (p : PyPath), (t.map f).at? p = (t.at? p).map f
  | .leaf _, [] => by simp [map, at?]
  | .leaf _, _ :: _ => by simp [map, at?]
  | .dict fs, [] => by simp [map, at?]
  | .dict fs, .pos _ :: _ => by simp [map, at?]
  | .dict fs, .key k :: p => by rw [map, at?, at?, mapFields_at]
  | .seq fs, [] => by simp [map, at?]
  | .seq fs, .key _ :: _ => by simp [map, at?]
  | .seq fs, .pos i :: p => by rw [map, at?, at?, mapElems_at]

theorem mapFields_at {α β : Type} (f : α → β) : ∀ (fs : List (String × PTree α)) (k : String) (p : PyPath),
    atField (mapFields f fs) k p = (atField fs k p).map f
  | [], _, _ => by simp [mapFields, atField]
  | (k', t) :: fs, k, p => by
    rw [mapFields, atField, atField]
    split
    · exact map_at f t p
    · exact mapFields_at f fs k p

theorem mapElems_at {α β : Type} (f : α → β) : ∀ (ts : List (PTree α)) (i : Nat) (p : PyPath),
    atElem (mapElems f ts) i p = (atElem ts i p).map f
  | [], _, _ => by simp [mapElems, atElem]
  | t :: ts, 0, p => by rw [mapElems, atElem, atElem]; exact map_at f t p
  | t :: ts, i + 1, p => by rw [mapElems, atElem, atElem]; exact mapElems_at f ts i p

end

/-! ### `_tree_union` -/

theorem unionFields_keys : ∀ {as bs cs : List (String × PTree Unit)}, unionFields as bs = some cs → cs.map Prod.fst = as.map Prod.fst
  | [], bs, cs, h => by simp only [unionFields, Option.some.injEq] at h; subst h; rfl
  | (k, a) :: as, bs, cs, h => by
    rw [unionFields] at h
    split at h
    · rename_i c cs' _ hcs
      simp only [Option.some.injEq] at h
      subst h
      simp [unionFields_keys hcs]
    · cases h

theorem lookup_mem {β : Type} : ∀ {l : List (String × β)} {k : String} {b : β}, l.lookup k = some b → (k, b) ∈ l
  | [], _, _, h => by simp at h
  | (k', b') :: l, k, b, h => by
    rw [List.lookup_cons] at h
    split at h
    · rename_i hk
      simp only [beq_iff_eq] at hk
      simp only [Option.some.injEq] at h
      subst hk h
      simp
    · exact List.mem_cons_of_mem _ (lookup_mem h)

theorem lookup_isNone {β : Type} {l : List (String × β)} {k : String} : (l.lookup k).isNone = true ↔ k ∉ l.map Prod.fst := by
  induction l with
  | nil => simp
  | cons e l ih =>
    obtain ⟨k', b⟩ := e
    rw [List.lookup_cons]
    by_cases h : k = k'
    · subst h; simp
    · have : (k == k') = false := by simpa using h
      rw [this]
      simp only [List.map_cons, List.mem_cons, h, false_or]
      exact ih

theorem merged_wf {as bs cs : List (String × PTree Unit)} (hna : (as.map Prod.fst).Nodup) (hnb : (bs.map Prod.fst).Nodup) (hb : WFFields bs)
    (hk : cs.map Prod.fst = as.map Prod.fst) (hc : WFFields cs) : (dict (cs ++ bs.filter fun e => (as.lookup e.1).isNone)).WF := by
  rw [WF, List.map_append, List.nodup_append]
  refine ⟨⟨by rw [hk]; exact hna, ?_, ?_⟩, WFFields_iff.mpr fun e he => ?_⟩
  · exact (List.Sublist.map Prod.fst List.filter_sublist).nodup hnb
  · intro x hx y hy hxy
    subst hxy
    rw [hk] at hx
    obtain ⟨e, he, rfl⟩ := List.mem_map.mp hy
    rw [List.mem_filter, lookup_isNone] at he
    exact he.2 hx
  · rcases List.mem_append.mp he with h | h
    · exact WFFields_iff.mp hc e h
    · exact WFFields_iff.mp hb e (List.mem_filter.mp h).1

theorem none_wf : none_.WF := by simp [none_, WF]

theorem atField_append {α : Type} {k : String} {p : PyPath} : ∀ {as bs : List (String × PTree α)}, k ∈ as.map Prod.fst →
    atField (as ++ bs) k p = atField as k p
  | [], _, h => by cases h
  | (k', t) :: as, bs, h => by
    rw [List.cons_append, atField, atField]
    by_cases hk : k' = k
    · simp [hk]
    · simp only [hk, if_false]
      simp only [List.map_cons, List.mem_cons] at h
      exact atField_append (h.resolve_left fun h => hk h.symm)

mutual

/-- The union is well formed and has the leaves of the first structure. -/
theorem union_ok : ∀ {a b c : PTree Unit}, a.union b = some c → a.WF → b.WF → c.WF ∧ ∀ p, a.at? p = some () → c.at? p = some ()
  | .leaf (), b, c, h, _, _ => by
    rw [union] at h
    cases h
    exact ⟨none_wf, fun p hp => hp⟩
  | .seq as, .seq bs, c, h, ha, hb => by
    rw [union] at h
    obtain ⟨cs, h1, rfl⟩ := Option.map_eq_some_iff.mp h
    rw [WF] at ha hb
    obtain ⟨h2, h3⟩ := unionElems_ok h1 ha hb
    refine ⟨by rw [WF]; exact h2, fun p hp => ?_⟩
    cases p with
    | nil => simp [at?] at hp
    | cons x p =>
      cases x with
      | key k => simp [at?] at hp
      | pos i => rw [at?] at hp ⊢; exact h3 i p hp
  | .dict as, .dict bs, c, h, ha, hb => by
    rw [union] at h
    obtain ⟨cs, h1, rfl⟩ := Option.map_eq_some_iff.mp h
    rw [WF] at ha hb
    obtain ⟨h2, h3⟩ := unionFields_ok h1 ha.2 hb.2
    have hk := unionFields_keys h1
    refine ⟨merged_wf ha.1 hb.1 hb.2 hk h2, fun p hp => ?_⟩
    cases p with
    | nil => simp [at?] at hp
    | cons x p =>
      cases x with
      | pos k => simp [at?] at hp
      | key k =>
        rw [at?] at hp ⊢
        have hmem : k ∈ as.map Prod.fst := by
          by_cases hm : k ∈ as.map Prod.fst
          · exact hm
          · rw [atField_none hm] at hp; cases hp
        rw [atField_append (by rw [hk]; exact hmem)]
        exact h3 k p hp
  | .seq _, .leaf _, _, h, _, _ => by simp [union] at h
  | .seq _, .dict _, _, h, _, _ => by simp [union] at h
  | .dict _, .leaf _, _, h, _, _ => by simp [union] at h
  | .dict _, .seq _, _, h, _, _ => by simp [union] at h

theorem unionElems_ok : ∀ {as bs cs : List (PTree Unit)}, unionElems as bs = some cs → WFElems as → WFElems bs →
    WFElems cs ∧ ∀ i p, atElem as i p = some () → atElem cs i p = some ()
  | [], bs, cs, h, _, _ => by
    simp only [unionElems, Option.some.injEq] at h
    subst h
    refine ⟨WFElems_iff.mpr fun t ht => ?_, fun i p hp => by simp [atElem] at hp⟩
    obtain ⟨_, _, rfl⟩ := List.mem_map.mp ht
    exact none_wf
  | a :: as, [], cs, h, ha, hb => by
    rw [unionElems] at h
    rw [WFElems] at ha
    split at h
    · rename_i c cs' hc hcs
      cases h
      obtain ⟨h1, h2⟩ := union_ok hc ha.1 none_wf
      obtain ⟨h3, h4⟩ := unionElems_ok hcs ha.2 hb
      refine ⟨by rw [WFElems]; exact ⟨h1, h3⟩, fun i p hp => ?_⟩
      cases i with
      | zero => rw [atElem] at hp ⊢; exact h2 p hp
      | succ i => rw [atElem] at hp ⊢; exact h4 i p hp
    · cases h
  | a :: as, b :: bs, cs, h, ha, hb => by
    rw [unionElems] at h
    rw [WFElems] at ha hb
    split at h
    · rename_i c cs' hc hcs
      cases h
      obtain ⟨h1, h2⟩ := union_ok hc ha.1 hb.1
      obtain ⟨h3, h4⟩ := unionElems_ok hcs ha.2 hb.2
      refine ⟨by rw [WFElems]; exact ⟨h1, h3⟩, fun i p hp => ?_⟩
      cases i with
      | zero => rw [atElem] at hp ⊢; exact h2 p hp
      | succ i => rw [atElem] at hp ⊢; exact h4 i p hp
    · cases h

theorem unionFields_ok : ∀ {as bs cs : List (String × PTree Unit)}, unionFields as bs = some cs → WFFields as → WFFields bs →
    WFFields cs ∧ ∀ k p, atField as k p = some () → atField cs k p = some ()
  | [], bs, cs, h, _, _ => by
    simp only [unionFields, Option.some.injEq] at h
    subst h
    exact ⟨by simp [WFFields], fun k p hp => hp⟩
  | (k, a) :: as, bs, cs, h, ha, hb => by
    rw [unionFields] at h
    rw [WFFields] at ha
    split at h
    · rename_i c cs' hc hcs
      cases h
      obtain ⟨h3, h4⟩ := unionFields_ok hcs ha.2 hb
      have hx : c.WF ∧ ∀ p, a.at? p = some () → c.at? p = some () := by
        cases hl : bs.lookup k with
        | none => rw [hl] at hc; cases hc; exact ⟨ha.1, fun _ h => h⟩
        | some b =>
          rw [hl] at hc
          exact union_ok hc ha.1 (WFFields_iff.mp hb _ (lookup_mem hl))
      refine ⟨by rw [WFFields]; exact ⟨hx.1, h3⟩, fun k' p hp => ?_⟩
      rw [atField] at hp ⊢
      split at hp
      · rename_i he; rw [if_pos he]; exact hx.2 p hp
      · rename_i he; rw [if_neg he]; exact h4 k' p hp
    · cases h

end

end PTree
end Verif
