import Verif.Proofs.PyRun
/-
Structures that fit together: their union exists and has what either one has.
-/
namespace Verif
namespace PTree

/-! ### What is at a path -/

mutual

theorem map_kind {α β : Type} (f : α → β) : ∀ (t : PTree α) (p : PyPath), (t.map f).kind? p = t.kind? p
  | .leaf _, [] => by simp [map, kind?]
  | .leaf _, _ :: _ => by simp [map, kind?]
  | .dict fs, [] => by simp [map, kind?]
  | .dict fs, .pos _ :: _ => by simp [map, kind?]
  | .dict fs, .key k :: p => by rw [map, kind?, kind?, mapFields_kind]
  | .seq fs, [] => by rw [map, kind?, kind?, mapElems_length]
  | .seq fs, .key _ :: _ => by simp [map, kind?]
  | .seq fs, .pos i :: p => by rw [map, kind?, kind?, mapElems_kind]

theorem mapFields_kind {α β : Type} (f : α → β) : ∀ (fs : List (String × PTree α)) (k : String) (p : PyPath),
    kindField (mapFields f fs) k p = kindField fs k p
  | [], _, _ => by simp [mapFields, kindField]
  | (k', t) :: fs, k, p => by
    rw [mapFields, kindField, kindField]
    split
    · exact map_kind f t p
    · exact mapFields_kind f fs k p

theorem mapElems_kind {α β : Type} (f : α → β) : ∀ (ts : List (PTree α)) (i : Nat) (p : PyPath),
    kindElem (mapElems f ts) i p = kindElem ts i p
  | [], _, _ => by simp [mapElems, kindElem]
  | t :: ts, 0, p => by rw [mapElems, kindElem, kindElem]; exact map_kind f t p
  | t :: ts, i + 1, p => by rw [mapElems, kindElem, kindElem]; exact mapElems_kind f ts i p

theorem mapElems_length {α β : Type} (f : α → β) : ∀ (ts : List (PTree α)), (mapElems f ts).length = ts.length
  | [] => by simp [mapElems]
  | t :: ts => by rw [mapElems, List.length_cons, List.length_cons, mapElems_length f ts]

end

mutual

theorem at_kind {α : Type} : ∀ (t : PTree α) (p : PyPath), (t.at? p).isSome = true ↔ t.kind? p = some .leaf
  | .leaf _, [] => by simp [at?, kind?]
  | .leaf _, _ :: _ => by simp [at?, kind?]
  | .dict fs, [] => by simp [at?, kind?]
  | .dict fs, .pos _ :: _ => by simp [at?, kind?]
  | .dict fs, .key k :: p => by rw [at?, kind?]; exact atField_kind fs k p
  | .seq fs, [] => by simp [at?, kind?]
  | .seq fs, .key _ :: _ => by simp [at?, kind?]
  | .seq fs, .pos i :: p => by rw [at?, kind?]; exact atElem_kind fs i p

theorem atField_kind {α : Type} : ∀ (fs : List (String × PTree α)) (k : String) (p : PyPath), (atField fs k p).isSome = true ↔ kindField fs k p = some .leaf
  | [], _, _ => by simp [atField, kindField]
  | (k', t) :: fs, k, p => by
    rw [atField, kindField]
    split
    · exact at_kind t p
    · exact atField_kind fs k p

theorem atElem_kind {α : Type} : ∀ (ts : List (PTree α)) (i : Nat) (p : PyPath), (atElem ts i p).isSome = true ↔ kindElem ts i p = some .leaf
  | [], _, _ => by simp [atElem, kindElem]
  | t :: ts, 0, p => by rw [atElem, kindElem]; exact at_kind t p
  | t :: ts, i + 1, p => by rw [atElem, kindElem]; exact atElem_kind ts i p

end

theorem kindField_lookup {α : Type} : ∀ (fs : List (String × PTree α)) (k : String) (p : PyPath), kindField fs k p = (fs.lookup k).bind fun t => t.kind? p
  | [], _, _ => by simp [kindField]
  | (k', t) :: fs, k, p => by
    rw [kindField, List.lookup_cons]
    by_cases h : k' = k
    · subst h
      simp
    · rw [if_neg h, kindField_lookup fs k p]
      have : (k == k') = false := by simpa using fun e => h e.symm
      rw [this]

theorem kindField_append {α : Type} {k : String} {p : PyPath} : ∀ {as bs : List (String × PTree α)},
    kindField (as ++ bs) k p = if k ∈ as.map Prod.fst then kindField as k p else kindField bs k p
  | [], _ => by simp
  | (k', t) :: as, bs => by
    rw [List.cons_append, kindField, kindField]
    by_cases h : k' = k
    · simp [h]
    · rw [if_neg h, if_neg h, kindField_append (as := as)]
      have : k ∈ ((k', t) :: as).map Prod.fst ↔ k ∈ as.map Prod.fst := by
        rw [List.map_cons, List.mem_cons]
        exact ⟨fun x => x.resolve_left fun e => h e.symm, .inr⟩
      by_cases hk : k ∈ as.map Prod.fst
      · rw [if_pos hk, if_pos (this.mpr hk)]
      · rw [if_neg hk, if_neg fun x => hk (this.mp x)]

theorem kindField_none {α : Type} {fs : List (String × PTree α)} {k : String} (h : k ∉ fs.map Prod.fst) (p : PyPath) : kindField fs k p = none := by
  rw [kindField_lookup]
  have := lookup_isNone.mpr h
  rw [Option.isNone_iff_eq_none] at this
  rw [this]
  rfl

theorem kindField_filter {k : String} {p : PyPath} (as : List (String × PTree Unit)) (hk : k ∉ as.map Prod.fst) : ∀ bs : List (String × PTree Unit),
    kindField (bs.filter fun e => (as.lookup e.1).isNone) k p = kindField bs k p
  | [] => rfl
  | (k', t) :: bs => by
    rw [List.filter_cons]
    by_cases h : k' = k
    · have : (as.lookup k').isNone = true := by rw [h]; exact lookup_isNone.mpr hk
      rw [if_pos this, kindField, kindField, if_pos h, if_pos h]
    · by_cases h2 : (as.lookup k').isNone = true
      · rw [if_pos h2, kindField, kindField, if_neg h, if_neg h]
        exact kindField_filter as hk bs
      · rw [if_neg h2, kindField, if_neg h]
        exact kindField_filter as hk bs

/-! ### The union -/

mutual

theorem union_kind : ∀ {a b : PTree Unit}, a.WF → b.WF → a.Agree b → ∃ c, a.union b = some c ∧ ∀ p, c.kind? p = (a.kind? p).or (b.kind? p)
  | .leaf (), b, _, _, h => by
    refine ⟨none_, by rw [union], fun p => ?_⟩
    have h0 := h [] .leaf
    cases b with
    | leaf x =>
      cases p with
      | nil => simp [none_, kind?]
      | cons x p => simp [none_, kind?]
    | dict fs => exact absurd (h0 .dict (by simp [kind?]) (by simp [kind?])) (by simp)
    | seq ts => exact absurd (h0 (.seq ts.length) (by simp [kind?]) (by simp [kind?])) (by simp)
  | .seq as, b, ha, hb, h => by
    have h0 := h [] (.seq as.length)
    match b, hb, h, h0 with
    | .leaf x, _, _, h0 => exact absurd (h0 .leaf (by simp [kind?]) (by simp [kind?])) (by simp)
    | .dict x, _, _, h0 => exact absurd (h0 .dict (by simp [kind?]) (by simp [kind?])) (by simp)
    | .seq bs, hb, h, h0 =>
      rw [WF] at ha hb
      have hl : as.length = bs.length := by simpa using h0 (.seq bs.length) (by simp [kind?]) (by simp [kind?])
      obtain ⟨cs, h1, h2, h3⟩ := unionElems_kind hl ha hb (fun i p k k' g1 g2 => h (.pos i :: p) k k' (by rw [kind?]; exact g1) (by rw [kind?]; exact g2))
      refine ⟨.seq cs, by rw [union, h1]; rfl, fun p => ?_⟩
      match p with
      | [] => simp [kind?, h2]
      | .key _ :: _ => simp [kind?]
      | .pos i :: p => rw [kind?, kind?, kind?]; exact h3 i p
  | .dict as, b, ha, hb, h => by
    have h0 := h [] .dict
    match b, hb, h, h0 with
    | .leaf x, _, _, h0 => exact absurd (h0 .leaf (by simp [kind?]) (by simp [kind?])) (by simp)
    | .seq ts, _, _, h0 => exact absurd (h0 (.seq ts.length) (by simp [kind?]) (by simp [kind?])) (by simp)
    | .dict bs, hb, h, h0 =>
      rw [WF] at ha hb
      obtain ⟨cs, h1, h2⟩ := unionFields_kind (as := as) (bs := bs) ha.1 ha.2 hb.2
        (fun x p k k' g1 g2 => h (.key x :: p) k k' (by rw [kind?]; exact g1) (by rw [kind?]; exact g2))
      refine ⟨.dict (cs ++ bs.filter fun e => (as.lookup e.1).isNone), by rw [union, h1]; rfl, fun p => ?_⟩
      match p with
      | [] => simp [kind?]
      | .pos _ :: _ => simp [kind?]
      | .key x :: p =>
        rw [kind?, kind?, kind?, kindField_append, unionFields_keys h1]
        by_cases hx : x ∈ as.map Prod.fst
        · rw [if_pos hx]
          exact h2 x p hx
        · rw [if_neg hx, kindField_none hx, kindField_filter as hx]
          rfl

theorem unionElems_kind : ∀ {as bs : List (PTree Unit)}, as.length = bs.length → WFElems as → WFElems bs →
    (∀ i p k k', kindElem as i p = some k → kindElem bs i p = some k' → k = k') →
    ∃ cs, unionElems as bs = some cs ∧ cs.length = as.length ∧ ∀ i p, kindElem cs i p = (kindElem as i p).or (kindElem bs i p)
  | [], [], _, _, _, _ => ⟨[], by simp [unionElems], rfl, by simp [kindElem]⟩
  | [], _ :: _, h, _, _, _ => by simp at h
  | _ :: _, [], h, _, _, _ => by simp at h
  | a :: as, b :: bs, hl, ha, hb, h => by
    rw [WFElems] at ha hb
    obtain ⟨c, h1, h2⟩ := union_kind (a := a) (b := b) ha.1 hb.1 (fun p k k' g1 g2 => h 0 p k k' (by rw [kindElem]; exact g1) (by rw [kindElem]; exact g2))
    obtain ⟨cs, h3, h4, h5⟩ := unionElems_kind (as := as) (bs := bs) (by simpa using hl) ha.2 hb.2
      (fun i p k k' g1 g2 => h (i + 1) p k k' (by rw [kindElem]; exact g1) (by rw [kindElem]; exact g2))
    refine ⟨c :: cs, by rw [unionElems, h1, h3], by simp [h4], fun i p => ?_⟩
    cases i with
    | zero => rw [kindElem, kindElem, kindElem]; exact h2 p
    | succ i => rw [kindElem, kindElem, kindElem]; exact h5 i p

theorem unionFields_kind : ∀ {as bs : List (String × PTree Unit)}, (as.map Prod.fst).Nodup → WFFields as → WFFields bs →
    (∀ x p k k', kindField as x p = some k → kindField bs x p = some k' → k = k') →
    ∃ cs, unionFields as bs = some cs ∧ ∀ x p, x ∈ as.map Prod.fst → kindField cs x p = (kindField as x p).or (kindField bs x p)
  | [], _, _, _, _, _ => ⟨[], by simp [unionFields], by simp⟩
  | (k, a) :: as, bs, hn, ha, hb, h => by
    rw [WFFields] at ha
    rw [List.map_cons, List.nodup_cons] at hn
    obtain ⟨cs, h3, h5⟩ := unionFields_kind (as := as) (bs := bs) hn.2 ha.2 hb (fun x p j j' g1 g2 => by
      refine h x p j j' ?_ g2
      rw [kindField]
      by_cases hx : k = x
      · subst hx
        rw [kindField_none hn.1] at g1
        cases g1
      · rw [if_neg hx]
        exact g1)
    have key : ∀ c : PTree Unit, (∀ p, c.kind? p = (a.kind? p).or (kindField bs k p)) → ∀ x p, x ∈ ((k, a) :: as).map Prod.fst →
        kindField ((k, c) :: cs) x p = (kindField ((k, a) :: as) x p).or (kindField bs x p) := by
      intro c hc x p hx
      rw [kindField, kindField]
      by_cases hk : k = x
      · subst hk
        rw [if_pos rfl, if_pos rfl]
        exact hc p
      · rw [if_neg hk, if_neg hk]
        rw [List.map_cons, List.mem_cons] at hx
        exact h5 x p (hx.resolve_left fun e => hk e.symm)
    cases hl : bs.lookup k with
    | none =>
      refine ⟨(k, a) :: cs, by rw [unionFields, hl, h3], key a fun p => ?_⟩
      rw [kindField_lookup, hl]
      simp
    | some b =>
      obtain ⟨c, h1, h2⟩ := union_kind (a := a) (b := b) ha.1 (WFFields_iff.mp hb _ (lookup_mem hl)) (fun p j j' g1 g2 =>
        h k p j j' (by rw [kindField, if_pos rfl]; exact g1) (by rw [kindField_lookup, hl]; exact g2))
      refine ⟨(k, c) :: cs, by rw [unionFields, hl]; dsimp only; rw [h1, h3], key c fun p => ?_⟩
      rw [h2, kindField_lookup, hl]
      rfl

end

end PTree
end Verif
