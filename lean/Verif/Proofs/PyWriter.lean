import Verif.Proofs.PyUnion
import Verif.Proofs.TrajMerge
import Verif.Spec.PyWriter
namespace Verif
namespace PyWriter
open TrajWriter (Names)
open PTree

/-- `index` numbers the paths. -/
structure Indexed (s : PyWriter) (cols : List PyPath) : Prop where
  index : ∀ p i, s.index.get? p = some i ↔ cols[i]? = some p
  size : s.index.size = cols.length

theorem Indexed.nodup {s : PyWriter} {cols : List PyPath} (h : s.Indexed cols) : cols.Nodup := by
  rw [List.Nodup, List.pairwise_iff_getElem]
  intro i j hi hj hij heq
  have h1 := (h.index (cols[j]) j).mpr (List.getElem?_eq_getElem hj)
  have h2 := (h.index (cols[j]) i).mpr (by rw [← heq]; exact List.getElem?_eq_getElem hi)
  rw [h1] at h2
  simp only [Option.some.injEq] at h2
  omega

theorem Indexed.get_none {s : PyWriter} {cols : List PyPath} (h : s.Indexed cols) {p : PyPath} : s.index.get? p = none ↔ p ∉ cols := by
  rw [List.mem_iff_getElem?]
  constructor
  · rintro hn ⟨i, hi⟩
    rw [(h.index p i).mpr hi] at hn
    cases hn
  · intro hn
    cases hx : s.index.get? p with
    | none => rfl
    | some i => exact absurd ⟨i, (h.index p i).mp hx⟩ hn

theorem size_insert_new {κ α : Type} [DecidableEq κ] (m : AMap κ α) (k : κ) (v : α) (h : m.get? k = none) : (m.insert k v).size = m.size + 1 := by
  simp only [AMap.size, AMap.insert, List.length_cons, AMap.erase]
  congr 1
  rw [List.filter_eq_self.mpr]
  rintro ⟨a, b⟩ he
  have := (AMap.mem_entries_iff m a b).mp he
  simp only [ne_eq, decide_not, Bool.not_eq_eq_eq_not, Bool.not_true, decide_eq_false_iff_not]
  rintro rfl
  rw [h] at this
  cases this

theorem asked_append (i : Nat) : ∀ (w : TrajWriter) (o : ChunkerOpts) (a b : List TrajWriter.Event),
    w.asked i o (a ++ b) = (w.run a).asked i (w.asked i o a) b
  | _, _, [], _ => rfl
  | w, o, e :: a, b => by
    exact asked_append i (w.handle e).1 (match e, (w.handle e).2 with
        | .configure col o', .ok .done => if col = i then o' else o
        | _, _ => o) a b

/-- The new paths get columns, and the C++ writer the options for them. -/
theorem addPaths_ok : ∀ (ps : List PyPath) {s : PyWriter} {cols : List PyPath}, s.Indexed cols →
    (∀ p o, s.config.get? p = some o → o.validate = .ok ()) → (∀ i, cols.length ≤ i → s.w.chunkers.get? i = none) →
    ∃ s' cols' cs, s.addPaths ps = (s', .ok ()) ∧ s' = { s with
        index := s'.index
        w := s'.w
        calls := s.calls ++ cs } ∧ s'.w = s.w.run cs ∧ s'.w.chunkers = s.w.chunkers ∧ s'.w.episode = s.w.episode ∧ s'.w.step = s.w.step ∧
      (∀ e ∈ cs, ∃ i o, e = .configure i o) ∧ s'.Indexed cols' ∧ cols <+: cols' ∧ (∀ p, p ∈ cols' ↔ p ∈ cols ∨ p ∈ ps) ∧
      ∀ i o, s.w.asked i o cs = if i < cols.length then o else ((cols'[i]?).bind s.config.get?).getD o
  | [], s, cols, hi, _, _ => ⟨s, cols, [], rfl, by simp, rfl, rfl, rfl, rfl, by simp, hi, List.prefix_refl _, by simp, fun i o => by
      simp only [TrajWriter.asked]
      split
      · rfl
      · rw [List.getElem?_eq_none (by omega)]; rfl⟩
  | p :: ps, s, cols, hi, hcfg, hch => by
    rw [addPaths]
    cases hp : s.index.get? p with
    | some i =>
      obtain ⟨s', cols', cs, h1, h2, h3, h4, h5, h6, h7, h8, h9, h10, h11⟩ := addPaths_ok ps hi hcfg hch
      refine ⟨s', cols', cs, h1, h2, h3, h4, h5, h6, h7, h8, h9, fun q => ?_, h11⟩
      rw [h10, List.mem_cons]
      have : p ∈ cols := List.mem_of_getElem? ((hi.index p i).mp hp)
      constructor
      · rintro (h | h)
        · exact .inl h
        · exact .inr (.inr h)
      · rintro (h | rfl | h)
        · exact .inl h
        · exact .inl this
        · exact .inr h
    | none =>
      simp only
      have hpn := hi.get_none.mp hp
      have hi1 : ∀ (w : TrajWriter) (cl : List TrajWriter.Event), ({ s with
          index := s.index.insert p s.index.size
          w := w
          calls := cl } : PyWriter).Indexed (cols ++ [p]) := by
        intro w cl
        refine ⟨fun q i => ?_, ?_⟩
        · simp only [AMap.get?_insert, hi.size]
          by_cases hq : q = p
          · subst hq
            simp only [if_true, Option.some.injEq]
            constructor
            · rintro rfl; simp
            · intro h
              by_cases hlt : i < cols.length
              · rw [List.getElem?_append_left hlt] at h
                exact absurd (List.mem_of_getElem? h) hpn
              · have := (List.getElem?_eq_some_iff.mp h).1
                simp only [List.length_append, List.length_cons, List.length_nil] at this
                omega
          · simp only [hq, if_false, hi.index]
            constructor
            · intro h
              rw [List.getElem?_append_left (List.getElem?_eq_some_iff.mp h).1]; exact h
            · intro h
              by_cases hlt : i < cols.length
              · rw [List.getElem?_append_left hlt] at h; exact h
              · rw [List.getElem?_append_right (by omega)] at h
                cases hk : i - cols.length with
                | zero => rw [hk] at h; simp at h; exact absurd h.symm hq
                | succ n => rw [hk] at h; simp at h
        · simp only [List.length_append, List.length_cons, List.length_nil]
          rw [size_insert_new _ _ _ hp, hi.size]
      have hmem : ∀ {cols' : List PyPath}, (∀ q, q ∈ cols' ↔ q ∈ cols ++ [p] ∨ q ∈ ps) → ∀ q, q ∈ cols' ↔ q ∈ cols ∨ q ∈ p :: ps := by
        intro cols' h q
        rw [h, List.mem_append, List.mem_singleton, List.mem_cons, or_assoc]
      cases hc : s.config.get? p with
      | none =>
        simp only
        obtain ⟨s', cols', cs, h1, h2, h3, h4, h5, h6, h7, h8, h9, h10, h11⟩ := addPaths_ok ps (hi1 s.w s.calls) hcfg
          (fun i h => hch i (by simp only [List.length_append, List.length_cons, List.length_nil] at h; omega))
        refine ⟨s', cols', cs, h1, by rw [h2], h3, h4, h5, h6, h7, h8, (List.prefix_append _ _).trans h9, hmem h10, fun i o => ?_⟩
        rw [h11]
        simp only [List.length_append, List.length_cons, List.length_nil]
        by_cases h : i < cols.length
        · rw [if_pos (by omega), if_pos h]
        · rw [if_neg h]
          by_cases he : i = cols.length
          · subst he
            rw [if_pos (by omega)]
            obtain ⟨tl, rfl⟩ := h9
            simp [hc]
          · rw [if_neg (by omega)]
      | some o0 =>
        simp only
        have hv := hcfg p o0 hc
        have hnone : s.w.chunkers.get? s.index.size = none := hch _ (by rw [hi.size]; omega)
        have hcpp : ({ s with index := s.index.insert p s.index.size } : PyWriter).cpp (.configure s.index.size o0) =
            ({ s with
              index := s.index.insert p s.index.size
              w := { s.w with overrides := s.w.overrides.insert s.index.size o0.clone }
              calls := s.calls ++ [.configure s.index.size o0] }, .ok .done) := by
          simp only [cpp, TrajWriter.handle, TrajWriter.configure, hv, hnone, TrajWriter.Reply.of]
        rw [hcpp]
        simp only
        obtain ⟨s', cols', cs, h1, h2, h3, h4, h5, h6, h7, h8, h9, h10, h11⟩ := addPaths_ok ps
          (hi1 { s.w with overrides := s.w.overrides.insert s.index.size o0.clone } (s.calls ++ [.configure s.index.size o0])) hcfg
          (fun i h => hch i (by simp only [List.length_append, List.length_cons, List.length_nil] at h; omega))
        have hw : (s.w.handle (.configure s.index.size o0)) = ({ s.w with overrides := s.w.overrides.insert s.index.size o0.clone }, .ok .done) := by
          simp only [TrajWriter.handle, TrajWriter.configure, hv, hnone, TrajWriter.Reply.of]
        refine ⟨s', cols', .configure s.index.size o0 :: cs, h1, ?_, ?_, h4, h5, h6, ?_, h8, (List.prefix_append _ _).trans h9, hmem h10, fun i o => ?_⟩
        · rw [h2]; simp
        · rw [h3, TrajWriter.run_cons, hw]
        · intro e he
          rcases List.mem_cons.mp he with rfl | he
          · exact ⟨_, _, rfl⟩
          · exact h7 e he
        · unfold TrajWriter.asked
          rw [hw]
          simp only
          rw [h11]
          simp only [List.length_append, List.length_cons, List.length_nil]
          rw [hi.size]
          by_cases h : i < cols.length
          · rw [if_pos (by omega), if_pos h, if_neg (by omega)]
          · rw [if_neg h]
            by_cases he : i = cols.length
            · subst he
              rw [if_pos (by omega), if_pos rfl]
              obtain ⟨tl, rfl⟩ := h9
              simp [hc]
            · rw [if_neg (by omega), if_neg (fun h => he h.symm)]

/-! ### The structure -/

/-- `struct` has a leaf for each column. -/
structure Shaped (s : PyWriter) (cols : List PyPath) : Prop where
  wf : s.struct.WF
  node : ∀ a, s.struct ≠ .leaf a
  paths : ∀ p, s.struct.at? p = some () ↔ p ∈ cols
  flat : s.flatToCol = (s.struct.flattenWithPath.map Prod.fst).filterMap s.index.get?

theorem flatten_paths_nodup {α : Type} {t : PTree α} (h : t.WF) : (t.flattenWithPath.map Prod.fst).Nodup := PTree.flatten_nodup h

theorem Shaped.perm {s : PyWriter} {cols : List PyPath} (h : s.Shaped cols) (hi : s.Indexed cols) :
    (s.struct.flattenWithPath.map Prod.fst).Perm cols := by
  rw [List.perm_ext_iff_of_nodup (flatten_paths_nodup h.wf) hi.nodup]
  intro p
  rw [← h.paths, List.mem_map]
  constructor
  · rintro ⟨⟨q, u⟩, hq, rfl⟩
    exact (PTree.flatten_iff h.wf).mp hq
  · intro hp
    exact ⟨(p, ()), (PTree.flatten_iff h.wf).mpr hp, rfl⟩

theorem filterMap_some_getElem {α β : Type} (f : α → Option β) : ∀ (l : List α), (∀ a ∈ l, (f a).isSome) → ∀ i : Nat,
    (l.filterMap f)[i]? = l[i]?.bind f
  | [], _, i => by simp
  | a :: l, h, i => by
    obtain ⟨b, hb⟩ := Option.isSome_iff_exists.mp (h a List.mem_cons_self)
    rw [List.filterMap_cons_some hb]
    cases i with
    | zero => simp [hb]
    | succ i => simpa using filterMap_some_getElem f l (fun x hx => h x (List.mem_cons_of_mem _ hx)) i

theorem mapM_range {α : Type} (f : Nat → Option α) : ∀ (n : Nat), (∀ i, i < n → (f i).isSome) →
    ∃ l : List α, (List.range n).mapM f = some l ∧ l.length = n ∧ ∀ i, i < n → l[i]? = f i := by
  intro n hn
  have : ∀ (l : List Nat), (∀ i ∈ l, (f i).isSome) → l.mapM f = some (l.filterMap f) := by
    intro l hl
    induction l with
    | nil => rfl
    | cons a l ih =>
      obtain ⟨b, hb⟩ := Option.isSome_iff_exists.mp (hl a List.mem_cons_self)
      rw [List.mapM_cons, ih fun x hx => hl x (List.mem_cons_of_mem _ hx), hb, List.filterMap_cons_some hb]
      rfl
  have hall : ∀ i ∈ List.range n, (f i).isSome := fun i hi => hn i (List.mem_range.mp hi)
  refine ⟨_, this _ hall, ?_, fun i hi => ?_⟩
  · clear this hn
    generalize hl : List.range n = l at hall
    have hlen : l.length = n := by rw [← hl, List.length_range]
    rw [← hlen]
    clear hl hlen
    induction l with
    | nil => rfl
    | cons a l ih =>
      obtain ⟨b, hb⟩ := Option.isSome_iff_exists.mp (hall a List.mem_cons_self)
      rw [List.filterMap_cons_some hb, List.length_cons, List.length_cons, ih fun x hx => hall x (List.mem_cons_of_mem _ hx)]
  · rw [filterMap_some_getElem f _ hall, List.getElem?_range hi]
    rfl

/-- The history of a field is the one of its column. -/
theorem column_iff {s : PyWriter} {cols : List PyPath} (hi : s.Indexed cols) (hs : s.Shaped cols) (hl : s.history.length = cols.length)
    (hne : cols ≠ []) (p : PyPath) (c : ColHist) :
    s.column p = some c ↔ ∃ i : Nat, cols[i]? = some p ∧ s.history[i]? = some c := by
  have hperm := hs.perm hi
  have hsome : ∀ q ∈ s.struct.flattenWithPath.map Prod.fst, (s.index.get? q).isSome := by
    intro q hq
    cases hx : s.index.get? q with
    | some _ => rfl
    | none => exact absurd (hperm.mem_iff.mp hq) (hi.get_none.mp hx)
  have hget : ∀ i : Nat, s.flatToCol[i]? = (s.struct.flattenWithPath.map Prod.fst)[i]?.bind s.index.get? := by
    intro i
    rw [hs.flat, filterMap_some_getElem _ _ hsome]
  obtain ⟨l, h1, h2, h3⟩ := mapM_range (fun i => s.flatToCol[i]?.bind fun j => s.history[j]?) s.history.length (by
    intro i hlt
    rw [hget]
    have hlt' : i < (s.struct.flattenWithPath.map Prod.fst).length := by rw [hperm.length_eq]; omega
    rw [List.getElem?_eq_getElem hlt']
    obtain ⟨j, hj⟩ := Option.isSome_iff_exists.mp (hsome _ (List.getElem_mem hlt'))
    simp only [Option.bind_some, hj]
    have := (List.getElem?_eq_some_iff.mp ((hi.index _ _).mp hj)).1
    rw [List.getElem?_eq_getElem (by omega)]
    rfl)
  have hlen : l.length = s.struct.flattenWithPath.length := by
    rw [h2, hl, ← hperm.length_eq, List.length_map]
  obtain ⟨t, ht, hat⟩ := PTree.unflatten_ok (s := s.struct) (flat := l) hs.wf hlen
  have hv : s.view = some t := by
    rw [view, if_neg (by intro h; rw [h] at hl; exact hne (List.length_eq_zero_iff.mp hl.symm)), unflatten, h1]
    exact ht
  rw [column, hv, Option.bind_some, hat]
  constructor
  · rintro ⟨i, hp, hc⟩
    have hlt : i < s.history.length := by rw [← h2]; exact (List.getElem?_eq_some_iff.mp hc).1
    rw [h3 i hlt, hget, hp, Option.bind_some] at hc
    obtain ⟨j, hj, hc⟩ := Option.bind_eq_some_iff.mp hc
    exact ⟨j, (hi.index _ _).mp hj, hc⟩
  · rintro ⟨j, hj, hc⟩
    obtain ⟨i, hip⟩ := List.mem_iff_getElem?.mp (hperm.mem_iff.mpr (List.mem_of_getElem? hj))
    have hlt : i < s.history.length := by
      rw [hl, ← hperm.length_eq]; exact (List.getElem?_eq_some_iff.mp hip).1
    refine ⟨i, hip, ?_⟩
    rw [h3 i hlt, hget, hip, Option.bind_some, (hi.index _ _).mpr hj, Option.bind_some]
    exact hc

end PyWriter
end Verif
