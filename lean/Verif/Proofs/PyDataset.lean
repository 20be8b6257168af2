import Verif.Spec.PyDataset
import Verif.Proofs.PyTree
import Verif.Props.C52_Signature
/-
Helper lemmas for C103.
-/
namespace Verif
namespace PNest
variable {α β : Type}

/-! ### The recursive functions as maps -/

theorem mapElems_eq (f : α → β) : ∀ ts : List (PNest α), mapElems f ts = ts.map (·.map f)
  | [] => rfl
  | t :: ts => by simp [mapElems, mapElems_eq f ts]

theorem mapFields_eq (f : α → β) : ∀ fs : List (String × PNest α), mapFields f fs = fs.map fun e => (e.1, e.2.map f)
  | [] => rfl
  | (k, t) :: fs => by simp [mapFields, mapFields_eq f fs]

theorem tuplesElems_eq : ∀ ts : List (PNest α), tuplesElems ts = ts.map (·.tuples)
  | [] => rfl
  | t :: ts => by simp [tuplesElems, tuplesElems_eq ts]

theorem tuplesFields_eq : ∀ fs : List (String × PNest α), tuplesFields fs = fs.map fun e => (e.1, e.2.tuples)
  | [] => rfl
  | (k, t) :: fs => by simp [tuplesFields, tuplesFields_eq fs]

theorem leavesEach_eq : ∀ fs : List (String × PNest α), leavesEach fs = fs.map fun e => (e.1, e.2.leaves)
  | [] => rfl
  | (k, t) :: fs => by simp [leavesEach, leavesEach_eq fs]

end PNest

theorem Sig.decodeElems_eq : ∀ vs : List Sig, Sig.decodeElems vs = vs.map (·.decode)
  | [] => rfl
  | v :: vs => by simp [Sig.decodeElems, Sig.decodeElems_eq vs]

theorem Sig.decodeFields_eq : ∀ fs : List (String × Sig), Sig.decodeFields fs = fs.map fun e => (e.1, e.2.decode)
  | [] => rfl
  | (k, v) :: fs => by simp [Sig.decodeFields, Sig.decodeFields_eq fs]

theorem PNest.encodeElems_eq : ∀ ts : List (PNest PyLeaf), PNest.encodeElems ts = ts.map (·.encode)
  | [] => rfl
  | v :: vs => by simp [PNest.encodeElems, PNest.encodeElems_eq vs]

theorem PNest.encodeFields_eq : ∀ fs : List (String × PNest PyLeaf), PNest.encodeFields fs = fs.map fun e => (e.1, e.2.encode)
  | [] => rfl
  | (k, v) :: fs => by simp [PNest.encodeFields, PNest.encodeFields_eq fs]

mutual

theorem PNest.decode_encode : ∀ t : PNest PyLeaf, t.encode.decode = t
  | .leaf (.spec c) => rfl
  | .leaf (.bounded c) => rfl
  | .leaf .other => rfl
  | .list es => by simp only [PNest.encode, Sig.decode, PNest.decode_encodeElems es]
  | .tuple es => by simp only [PNest.encode, Sig.decode, PNest.decode_encodeElems es]
  | .dict fs => by simp only [PNest.encode, Sig.decode, PNest.decode_encodeFields fs]
  | .named fs => by simp only [PNest.encode, Sig.decode, PNest.decode_encodeFields fs]

theorem PNest.decode_encodeElems : ∀ ts : List (PNest PyLeaf), Sig.decodeElems (PNest.encodeElems ts) = ts
  | [] => rfl
  | t :: ts => by simp only [PNest.encodeElems, Sig.decodeElems, PNest.decode_encode t, PNest.decode_encodeElems ts]

theorem PNest.decode_encodeFields : ∀ fs : List (String × PNest PyLeaf), Sig.decodeFields (PNest.encodeFields fs) = fs
  | [] => rfl
  | (k, t) :: fs => by simp only [PNest.encodeFields, Sig.decodeFields, PNest.decode_encode t, PNest.decode_encodeFields fs]

end

/-! ### Places -/

theorem Sig.At.decode {s u : Sig} {p : List PathStep} (h : s.At p u) : s.decode.Sub p u.decode := by
  induction h with
  | here => exact .here
  | list hi _ ih =>
    simp only [Sig.decode, Sig.decodeElems_eq]
    exact .list (by rw [List.getElem?_map, hi]; rfl) ih
  | tuple hi _ ih =>
    simp only [Sig.decode, Sig.decodeElems_eq]
    exact .tuple (by rw [List.getElem?_map, hi]; rfl) ih
  | dict hi _ ih =>
    simp only [Sig.decode, Sig.decodeFields_eq]
    exact .dict (List.mem_map.mpr ⟨_, hi, rfl⟩) ih
  | named hi _ ih =>
    simp only [Sig.decode, Sig.decodeFields_eq]
    exact .named (by rw [List.getElem?_map, hi]; rfl) ih

theorem Sig.of_decode {t u : PNest PyLeaf} {p : List PathStep} (h : t.Sub p u) : ∀ s : Sig, s.decode = t →
    ∃ v, s.At p v ∧ u = v.decode := by
  induction h with
  | here => exact fun s hs => ⟨s, .here, hs.symm⟩
  | list hi _ ih =>
    intro s hs
    cases s with
    | list vs =>
      simp only [Sig.decode, Sig.decodeElems_eq, PNest.list.injEq] at hs
      rw [← hs, List.getElem?_map] at hi
      obtain ⟨v, hv, e⟩ := Option.map_eq_some_iff.mp hi
      obtain ⟨w, hw, e'⟩ := ih v e
      exact ⟨w, .list hv hw, e'⟩
    | _ => simp [Sig.decode] at hs
  | tuple hi _ ih =>
    intro s hs
    cases s with
    | tuple vs =>
      simp only [Sig.decode, Sig.decodeElems_eq, PNest.tuple.injEq] at hs
      rw [← hs, List.getElem?_map] at hi
      obtain ⟨v, hv, e⟩ := Option.map_eq_some_iff.mp hi
      obtain ⟨w, hw, e'⟩ := ih v e
      exact ⟨w, .tuple hv hw, e'⟩
    | _ => simp [Sig.decode] at hs
  | dict hi _ ih =>
    intro s hs
    cases s with
    | dict fs =>
      simp only [Sig.decode, Sig.decodeFields_eq, PNest.dict.injEq] at hs
      rw [← hs] at hi
      obtain ⟨⟨k, v⟩, hv, e⟩ := List.mem_map.mp hi
      simp only [Prod.mk.injEq] at e
      obtain ⟨rfl, e⟩ := e
      obtain ⟨w, hw, e'⟩ := ih v e
      exact ⟨w, .dict hv hw, e'⟩
    | _ => simp [Sig.decode] at hs
  | named hi _ ih =>
    intro s hs
    cases s with
    | named fs =>
      simp only [Sig.decode, Sig.decodeFields_eq, PNest.named.injEq] at hs
      rw [← hs, List.getElem?_map] at hi
      obtain ⟨⟨k, v⟩, hv, e⟩ := Option.map_eq_some_iff.mp hi
      simp only [Prod.mk.injEq] at e
      obtain ⟨rfl, e⟩ := e
      obtain ⟨w, hw, e'⟩ := ih v e
      exact ⟨w, .named hv hw, e'⟩
    | _ => simp [Sig.decode] at hs

theorem Sig.decode_at {s : Sig} {p : List PathStep} {l : PyLeaf} : s.decode.At p l ↔
    (∃ c, l = .spec c ∧ s.At p (.spec c)) ∨ (∃ c, l = .bounded c ∧ s.At p (.bounded c)) ∨ (l = .other ∧ s.At p .other) := by
  constructor
  · intro h
    obtain ⟨v, hv, e⟩ := Sig.of_decode h s rfl
    cases v with
    | spec c => simp only [Sig.decode, PNest.leaf.injEq] at e; exact .inl ⟨c, e, hv⟩
    | bounded c => simp only [Sig.decode, PNest.leaf.injEq] at e; exact .inr (.inl ⟨c, e, hv⟩)
    | other => simp only [Sig.decode, PNest.leaf.injEq] at e; exact .inr (.inr ⟨e, hv⟩)
    | _ => simp [Sig.decode] at e
  · rintro (⟨c, rfl, h⟩ | ⟨c, rfl, h⟩ | ⟨rfl, h⟩)
    · exact h.decode
    · exact h.decode
    · exact h.decode

theorem Sig.decode_wf {s : Sig} (h : s.WF) : s.decode.WF := by
  intro p fs hs
  obtain ⟨v, hv, e⟩ := Sig.of_decode hs s rfl
  cases v with
  | dict fs' =>
    simp only [Sig.decode, Sig.decodeFields_eq, PNest.dict.injEq] at e
    rw [e, List.map_map]
    exact h p fs' hv
  | _ => simp [Sig.decode] at e

namespace PNest
variable {α β : Type}

theorem Sub.map {t u : PNest α} {p : List PathStep} (f : α → β) (h : t.Sub p u) : (t.map f).Sub p (u.map f) := by
  induction h with
  | here => exact .here
  | list hi _ ih =>
    simp only [PNest.map, mapElems_eq]
    exact .list (by rw [List.getElem?_map, hi]; rfl) ih
  | tuple hi _ ih =>
    simp only [PNest.map, mapElems_eq]
    exact .tuple (by rw [List.getElem?_map, hi]; rfl) ih
  | dict hi _ ih =>
    simp only [PNest.map, mapFields_eq]
    exact .dict (List.mem_map.mpr ⟨_, hi, rfl⟩) ih
  | named hi _ ih =>
    simp only [PNest.map, mapFields_eq]
    exact .named (by rw [List.getElem?_map, hi]; rfl) ih

theorem of_map {f : α → β} {t u : PNest β} {p : List PathStep} (h : t.Sub p u) : ∀ s : PNest α, s.map f = t →
    ∃ v, s.Sub p v ∧ u = v.map f := by
  induction h with
  | here => exact fun s hs => ⟨s, .here, hs.symm⟩
  | list hi _ ih =>
    intro s hs
    cases s with
    | list vs =>
      simp only [PNest.map, mapElems_eq, PNest.list.injEq] at hs
      rw [← hs, List.getElem?_map] at hi
      obtain ⟨v, hv, e⟩ := Option.map_eq_some_iff.mp hi
      obtain ⟨w, hw, e'⟩ := ih v e
      exact ⟨w, .list hv hw, e'⟩
    | _ => simp [PNest.map] at hs
  | tuple hi _ ih =>
    intro s hs
    cases s with
    | tuple vs =>
      simp only [PNest.map, mapElems_eq, PNest.tuple.injEq] at hs
      rw [← hs, List.getElem?_map] at hi
      obtain ⟨v, hv, e⟩ := Option.map_eq_some_iff.mp hi
      obtain ⟨w, hw, e'⟩ := ih v e
      exact ⟨w, .tuple hv hw, e'⟩
    | _ => simp [PNest.map] at hs
  | dict hi _ ih =>
    intro s hs
    cases s with
    | dict fs =>
      simp only [PNest.map, mapFields_eq, PNest.dict.injEq] at hs
      rw [← hs] at hi
      obtain ⟨⟨k, v⟩, hv, e⟩ := List.mem_map.mp hi
      simp only [Prod.mk.injEq] at e
      obtain ⟨rfl, e⟩ := e
      obtain ⟨w, hw, e'⟩ := ih v e
      exact ⟨w, .dict hv hw, e'⟩
    | _ => simp [PNest.map] at hs
  | named hi _ ih =>
    intro s hs
    cases s with
    | named fs =>
      simp only [PNest.map, mapFields_eq, PNest.named.injEq] at hs
      rw [← hs, List.getElem?_map] at hi
      obtain ⟨⟨k, v⟩, hv, e⟩ := Option.map_eq_some_iff.mp hi
      simp only [Prod.mk.injEq] at e
      obtain ⟨rfl, e⟩ := e
      obtain ⟨w, hw, e'⟩ := ih v e
      exact ⟨w, .named hv hw, e'⟩
    | _ => simp [PNest.map] at hs

theorem map_at {f : α → β} {t : PNest α} {p : List PathStep} {b : β} : (t.map f).At p b ↔ ∃ a, t.At p a ∧ b = f a := by
  constructor
  · intro h
    obtain ⟨v, hv, e⟩ := of_map h t rfl
    cases v with
    | leaf a => simp only [PNest.map, PNest.leaf.injEq] at e; exact ⟨a, hv, e⟩
    | _ => simp [PNest.map] at e
  · rintro ⟨a, h, rfl⟩
    exact Sub.map f h

theorem map_wf {f : α → β} {t : PNest α} (h : t.WF) : (t.map f).WF := by
  intro p fs hs
  obtain ⟨v, hv, e⟩ := of_map hs t rfl
  cases v with
  | dict fs' =>
    simp only [PNest.map, mapFields_eq, PNest.dict.injEq] at e
    rw [e, List.map_map]
    exact h p fs' hv
  | _ => simp [PNest.map] at e

theorem Sub.tuples {t u : PNest α} {p : List PathStep} (h : t.Sub p u) : t.tuples.Sub p u.tuples := by
  induction h with
  | here => exact .here
  | list hi _ ih =>
    simp only [PNest.tuples, tuplesElems_eq]
    exact .tuple (by rw [List.getElem?_map, hi]; rfl) ih
  | tuple hi _ ih =>
    simp only [PNest.tuples, tuplesElems_eq]
    exact .tuple (by rw [List.getElem?_map, hi]; rfl) ih
  | dict hi _ ih =>
    simp only [PNest.tuples, tuplesFields_eq]
    exact .dict (List.mem_map.mpr ⟨_, hi, rfl⟩) ih
  | named hi _ ih =>
    simp only [PNest.tuples, tuplesFields_eq]
    exact .named (by rw [List.getElem?_map, hi]; rfl) ih

theorem of_tuples {t u : PNest α} {p : List PathStep} (h : t.Sub p u) : ∀ s : PNest α, s.tuples = t →
    ∃ v, s.Sub p v ∧ u = v.tuples := by
  induction h with
  | here => exact fun s hs => ⟨s, .here, hs.symm⟩
  | list hi _ ih =>
    intro s hs
    cases s <;> simp [PNest.tuples] at hs
  | tuple hi _ ih =>
    intro s hs
    cases s with
    | tuple vs =>
      simp only [PNest.tuples, tuplesElems_eq, PNest.tuple.injEq] at hs
      rw [← hs, List.getElem?_map] at hi
      obtain ⟨v, hv, e⟩ := Option.map_eq_some_iff.mp hi
      obtain ⟨w, hw, e'⟩ := ih v e
      exact ⟨w, .tuple hv hw, e'⟩
    | list vs =>
      simp only [PNest.tuples, tuplesElems_eq, PNest.tuple.injEq] at hs
      rw [← hs, List.getElem?_map] at hi
      obtain ⟨v, hv, e⟩ := Option.map_eq_some_iff.mp hi
      obtain ⟨w, hw, e'⟩ := ih v e
      exact ⟨w, .list hv hw, e'⟩
    | _ => simp [PNest.tuples] at hs
  | dict hi _ ih =>
    intro s hs
    cases s with
    | dict fs =>
      simp only [PNest.tuples, tuplesFields_eq, PNest.dict.injEq] at hs
      rw [← hs] at hi
      obtain ⟨⟨k, v⟩, hv, e⟩ := List.mem_map.mp hi
      simp only [Prod.mk.injEq] at e
      obtain ⟨rfl, e⟩ := e
      obtain ⟨w, hw, e'⟩ := ih v e
      exact ⟨w, .dict hv hw, e'⟩
    | _ => simp [PNest.tuples] at hs
  | named hi _ ih =>
    intro s hs
    cases s with
    | named fs =>
      simp only [PNest.tuples, tuplesFields_eq, PNest.named.injEq] at hs
      rw [← hs, List.getElem?_map] at hi
      obtain ⟨⟨k, v⟩, hv, e⟩ := Option.map_eq_some_iff.mp hi
      simp only [Prod.mk.injEq] at e
      obtain ⟨rfl, e⟩ := e
      obtain ⟨w, hw, e'⟩ := ih v e
      exact ⟨w, .named hv hw, e'⟩
    | _ => simp [PNest.tuples] at hs

theorem tuples_at {t : PNest α} {p : List PathStep} {a : α} : t.tuples.At p a ↔ t.At p a := by
  constructor
  · intro h
    obtain ⟨v, hv, e⟩ := of_tuples h t rfl
    cases v with
    | leaf b =>
      simp only [PNest.tuples, PNest.leaf.injEq] at e
      subst e
      exact hv
    | _ => simp [PNest.tuples] at e
  · exact Sub.tuples

theorem tuples_noList (t : PNest α) : ¬ t.tuples.HasList := by
  rintro ⟨p, ts, h⟩
  obtain ⟨v, _, e⟩ := of_tuples h t rfl
  cases v <;> simp [PNest.tuples] at e

/-! ### The order of the leaves -/

mutual

theorem leaves_tuples : ∀ t : PNest α, t.tuples.leaves = t.leaves
  | .leaf a => rfl
  | .list es => by simp only [PNest.tuples, leaves, leavesElems_tuples es 0]
  | .tuple es => by simp only [PNest.tuples, leaves, leavesElems_tuples es 0]
  | .dict fs => by simp only [PNest.tuples, leaves, leavesEach_tuples fs]
  | .named fs => by simp only [PNest.tuples, leaves, leavesNamed_tuples fs 0]

theorem leavesElems_tuples : ∀ (ts : List (PNest α)) (i : Nat), leavesElems i (tuplesElems ts) = leavesElems i ts
  | [], _ => rfl
  | t :: ts, i => by simp only [tuplesElems, leavesElems, leaves_tuples t, leavesElems_tuples ts (i + 1)]

theorem leavesEach_tuples : ∀ fs : List (String × PNest α), leavesEach (tuplesFields fs) = leavesEach fs
  | [] => rfl
  | (k, t) :: fs => by simp only [tuplesFields, leavesEach, leaves_tuples t, leavesEach_tuples fs]

theorem leavesNamed_tuples : ∀ (fs : List (String × PNest α)) (i : Nat), leavesNamed i (tuplesFields fs) = leavesNamed i fs
  | [], _ => rfl
  | (k, t) :: fs, i => by simp only [tuplesFields, leavesNamed, leaves_tuples t, leavesNamed_tuples fs (i + 1)]

end

theorem flatten_tuples (t : PNest α) : t.tuples.flatten = t.flatten := by
  unfold PNest.flatten
  rw [leaves_tuples]

theorem insertEntry_sorted {β : Type} {e : String × β} {l : List (String × β)} (h : l.Pairwise fun a b => a.1 ≤ b.1) :
    (insertEntry e l).Pairwise fun a b => a.1 ≤ b.1 := by
  induction l with
  | nil => simp [insertEntry]
  | cons f fs ih =>
    rw [List.pairwise_cons] at h
    unfold insertEntry
    split
    · rename_i hle
      rw [List.pairwise_cons]
      refine ⟨?_, List.pairwise_cons.mpr h⟩
      intro g hg
      rcases List.mem_cons.mp hg with rfl | hg
      · exact hle
      · exact String.le_trans hle (h.1 g hg)
    · rename_i hle
      rw [List.pairwise_cons]
      refine ⟨?_, ih h.2⟩
      intro g hg
      rcases List.mem_cons.mp ((PTree.insertEntry_perm e fs).mem_iff.mp hg) with rfl | hg
      · exact (String.le_total _ _).resolve_left hle
      · exact h.1 g hg

theorem sortEntries_sorted {β : Type} : ∀ l : List (String × β), (sortEntries l).Pairwise fun a b => a.1 ≤ b.1
  | [] => List.Pairwise.nil
  | _ :: es => insertEntry_sorted (sortEntries_sorted es)

theorem sortEntries_strict {β : Type} {l : List (String × β)} (h : (l.map Prod.fst).Nodup) :
    (sortEntries l).Pairwise fun a b => a.1 < b.1 := by
  have hn : ((sortEntries l).map Prod.fst).Nodup := (((PTree.sortEntries_perm l).map Prod.fst).nodup_iff).mpr h
  have hs := sortEntries_sorted l
  unfold List.Nodup at hn
  rw [List.pairwise_map] at hn
  exact (hs.and hn).imp fun h => lt_of_le_ne h.1 h.2

/-- What is known of the leaves. -/
def Ordered (t : PNest α) : Prop :=
  (∀ p a, (p, a) ∈ t.leaves ↔ t.At p a) ∧ t.leaves.Pairwise fun a b => PathBefore a.1 b.1

theorem wf_list {ts : List (PNest α)} (h : (PNest.list ts).WF) : ∀ t ∈ ts, t.WF := by
  intro t ht p fs hs
  obtain ⟨i, hi⟩ := List.mem_iff_getElem?.mp ht
  exact h _ fs (.list hi hs)

theorem wf_tuple {ts : List (PNest α)} (h : (PNest.tuple ts).WF) : ∀ t ∈ ts, t.WF := by
  intro t ht p fs hs
  obtain ⟨i, hi⟩ := List.mem_iff_getElem?.mp ht
  exact h _ fs (.tuple hi hs)

theorem wf_dict {fs : List (String × PNest α)} (h : (PNest.dict fs).WF) : ∀ e ∈ fs, e.2.WF := by
  rintro ⟨k, t⟩ ht p fs' hs
  exact h _ fs' (.dict ht hs)

theorem wf_named {fs : List (String × PNest α)} (h : (PNest.named fs).WF) : ∀ e ∈ fs, e.2.WF := by
  rintro ⟨k, t⟩ ht p fs' hs
  obtain ⟨i, hi⟩ := List.mem_iff_getElem?.mp ht
  exact h _ fs' (.named hi hs)

theorem pairwise_under {st : PathStep} {l : List (List PathStep × α)} (h : l.Pairwise fun a b => PathBefore a.1 b.1) :
    (l.map fun e => (st :: e.1, e.2)).Pairwise fun a b => PathBefore a.1 b.1 := by
  rw [List.pairwise_map]
  exact h.imp .there

mutual

theorem ordered : ∀ t : PNest α, t.WF → t.Ordered
  | .leaf a, _ => by
    refine ⟨?_, by simp [leaves]⟩
    intro p b
    simp only [leaves, List.mem_singleton, Prod.mk.injEq]
    constructor
    · rintro ⟨rfl, rfl⟩; exact .here
    · intro h
      cases h
      exact ⟨rfl, rfl⟩
  | .list es, h => by
    have hk := orderedElems es (wf_list h) 0
    refine ⟨?_, hk.2⟩
    intro p a
    refine (hk.1 p a).trans ?_
    constructor
    · rintro ⟨i, t, q, hi, rfl, hq⟩
      rw [Nat.zero_add]
      exact .list hi hq
    · intro hs
      cases hs with
      | list hi hq => exact ⟨_, _, _, hi, by rw [Nat.zero_add], hq⟩
  | .tuple es, h => by
    have hk := orderedElems es (wf_tuple h) 0
    refine ⟨?_, hk.2⟩
    intro p a
    refine (hk.1 p a).trans ?_
    constructor
    · rintro ⟨i, t, q, hi, rfl, hq⟩
      rw [Nat.zero_add]
      exact .tuple hi hq
    · intro hs
      cases hs with
      | tuple hi hq => exact ⟨_, _, _, hi, by rw [Nat.zero_add], hq⟩
  | .dict fs, h => by
    have hk := orderedEach fs (wf_dict h)
    have hn : (fs.map Prod.fst).Nodup := h [] fs .here
    constructor
    · intro p a
      simp only [leaves, List.mem_flatMap, List.mem_map, leavesEach_eq]
      constructor
      · rintro ⟨e, he, l, hl, e1⟩
        have he := (PTree.sortEntries_perm _).mem_iff.mp he
        obtain ⟨⟨k, t⟩, hf, rfl⟩ := List.mem_map.mp he
        obtain ⟨rfl, rfl⟩ := Prod.mk.inj e1
        exact .dict hf (((hk _ hf).1 _ _).mp hl)
      · intro hs
        cases hs with
        | @dict _ k v _ q hf hq =>
          exact ⟨(k, v.leaves), (PTree.sortEntries_perm _).mem_iff.mpr (List.mem_map.mpr ⟨_, hf, rfl⟩), (q, a), ((hk _ hf).1 _ _).mpr hq, rfl⟩
    · simp only [leaves, leavesEach_eq, List.pairwise_flatMap]
      constructor
      · intro e he
        have he := (PTree.sortEntries_perm _).mem_iff.mp he
        obtain ⟨⟨k, t⟩, hf, rfl⟩ := List.mem_map.mp he
        exact pairwise_under (hk _ hf).2
      · refine (sortEntries_strict (by rw [List.map_map]; exact hn)).imp ?_
        intro e f hef x hx y hy
        obtain ⟨x', _, rfl⟩ := List.mem_map.mp hx
        obtain ⟨y', _, rfl⟩ := List.mem_map.mp hy
        exact .here (.key hef)
  | .named fs, h => by
    have hk := orderedNamed fs (wf_named h) 0
    refine ⟨?_, hk.2⟩
    intro p a
    refine (hk.1 p a).trans ?_
    constructor
    · rintro ⟨i, k, t, q, hi, rfl, hq⟩
      rw [Nat.zero_add]
      exact .named hi hq
    · intro hs
      cases hs with
      | named hi hq => exact ⟨_, _, _, _, hi, by rw [Nat.zero_add], hq⟩

theorem orderedElems : ∀ (ts : List (PNest α)), (∀ t ∈ ts, t.WF) → ∀ n : Nat,
    (∀ p a, (p, a) ∈ leavesElems n ts ↔ ∃ (i : Nat) (t : PNest α) (q : List PathStep), ts[i]? = some t ∧ p = .pos (n + i) :: q ∧ t.At q a) ∧
    (leavesElems n ts).Pairwise fun a b => PathBefore a.1 b.1
  | [], _, n => by simp [leavesElems]
  | t :: ts, h, n => by
    have h1 := ordered t (h t (by simp))
    have h2 := orderedElems ts (fun u hu => h u (by simp [hu])) (n + 1)
    constructor
    · intro p a
      simp only [leavesElems, List.mem_append, List.mem_map]
      rw [h2.1]
      constructor
      · rintro (⟨l, hl, e⟩ | ⟨i, u, q, hi, rfl, hq⟩)
        · obtain ⟨rfl, rfl⟩ := Prod.mk.inj e
          exact ⟨0, t, l.1, rfl, rfl, (h1.1 _ _).mp hl⟩
        · exact ⟨i + 1, u, q, hi, by rw [Nat.add_assoc, Nat.add_comm 1 i], hq⟩
      · rintro ⟨i, u, q, hi, rfl, hq⟩
        cases i with
        | zero =>
          simp only [List.getElem?_cons_zero, Option.some.injEq] at hi
          subst hi
          exact .inl ⟨(q, a), (h1.1 _ _).mpr hq, rfl⟩
        | succ i => exact .inr ⟨i, u, q, hi, by rw [Nat.add_assoc, Nat.add_comm 1 i], hq⟩
    · simp only [leavesElems]
      rw [List.pairwise_append]
      refine ⟨pairwise_under h1.2, h2.2, ?_⟩
      rintro x hx ⟨y, b⟩ hy
      obtain ⟨x', _, rfl⟩ := List.mem_map.mp hx
      obtain ⟨i, _, q, _, rfl, _⟩ := (h2.1 _ _).mp hy
      exact .here (.pos (by omega))

theorem orderedEach : ∀ (fs : List (String × PNest α)), (∀ e ∈ fs, e.2.WF) → ∀ e ∈ fs, e.2.Ordered
  | [], _ => by simp
  | (k, t) :: fs, h => by
    intro e he
    have h1 := ordered t (h (k, t) (by simp))
    have h2 := orderedEach fs (fun u hu => h u (by simp [hu]))
    rcases List.mem_cons.mp he with rfl | he
    · exact h1
    · exact h2 e he

theorem orderedNamed : ∀ (fs : List (String × PNest α)), (∀ e ∈ fs, e.2.WF) → ∀ n : Nat,
    (∀ p a, (p, a) ∈ leavesNamed n fs ↔
      ∃ (i : Nat) (k : String) (t : PNest α) (q : List PathStep), fs[i]? = some (k, t) ∧ p = .field (n + i) k :: q ∧ t.At q a) ∧
    (leavesNamed n fs).Pairwise fun a b => PathBefore a.1 b.1
  | [], _, n => by simp [leavesNamed]
  | (k, t) :: fs, h, n => by
    have h1 := ordered t (h (k, t) (by simp))
    have h2 := orderedNamed fs (fun u hu => h u (by simp [hu])) (n + 1)
    constructor
    · intro p a
      simp only [leavesNamed, List.mem_append, List.mem_map]
      rw [h2.1]
      constructor
      · rintro (⟨l, hl, e⟩ | ⟨i, k', u, q, hi, rfl, hq⟩)
        · obtain ⟨rfl, rfl⟩ := Prod.mk.inj e
          exact ⟨0, k, t, l.1, rfl, rfl, (h1.1 _ _).mp hl⟩
        · exact ⟨i + 1, k', u, q, hi, by rw [Nat.add_assoc, Nat.add_comm 1 i], hq⟩
      · rintro ⟨i, k', u, q, hi, rfl, hq⟩
        cases i with
        | zero =>
          simp only [List.getElem?_cons_zero, Option.some.injEq, Prod.mk.injEq] at hi
          obtain ⟨rfl, rfl⟩ := hi
          exact .inl ⟨(q, a), (h1.1 _ _).mpr hq, rfl⟩
        | succ i => exact .inr ⟨i, k', u, q, hi, by rw [Nat.add_assoc, Nat.add_comm 1 i], hq⟩
    · simp only [leavesNamed]
      rw [List.pairwise_append]
      refine ⟨pairwise_under h1.2, h2.2, ?_⟩
      rintro x hx ⟨y, b⟩ hy
      obtain ⟨x', _, rfl⟩ := List.mem_map.mp hx
      obtain ⟨i, k', _, q, _, rfl, _⟩ := (h2.1 _ _).mp hy
      exact .here (.field (by omega))

end
end PNest
end Verif
