import Verif.Proofs.Signature
/-
C52: Flattening a nested signature yields its leaves exactly once, dictionary entries in key order and sequences in position order, with
path names joined by '/'.
-/
namespace Verif

theorem PathStep.Before.asymm {a b : PathStep} (h1 : a.Before b) (h2 : b.Before a) : False := by
  cases h1 with
  | pos h => cases h2 with | pos h' => omega
  | key h => cases h2 with | key h' => exact String.lt_irrefl _ (String.lt_trans h h')
  | field h => cases h2 with | field h' => omega

theorem PathBefore.asymm {p q : List PathStep} (h1 : PathBefore p q) (h2 : PathBefore q p) : False := by
  induction h1 with
  | here h => cases h2 with
    | here h' => exact h.asymm h'
    | there _ => exact h.asymm h
  | there h ih => cases h2 with
    | here h' => exact h'.asymm h'
    | there h' => exact ih h'

/-- The list of all leaves with their paths is in order, so that none is twice in it, and the result has these leaves under the names of
their paths. -/
theorem C52 (s : Sig) (hs : s.WF) (out : List NamedSpec) (h : s.flatten = .ok out) :
    ∃ leaves : List (List PathStep × NamedSpec), (∀ p c, (p, c) ∈ leaves ↔ s.Leaf p c) ∧ (leaves.map Prod.fst).Nodup ∧
      leaves.Pairwise (fun a b => PathBefore a.1 b.1) ∧ out = leaves.map fun l => ⟨pathName l.1 l.2.name, l.2.spec⟩ := by
  have hg := flattenIn_good s [] hs
  rw [show s.flattenIn (ctxOf []) = .ok out from h] at hg
  obtain ⟨_, l, h1, h2, h3⟩ := hg
  refine ⟨l, h1, ?_, h2, h3⟩
  unfold List.Nodup
  rw [List.pairwise_map]
  refine h2.imp ?_
  intro a b hab e
  rw [e] at hab
  exact hab.asymm hab

/-- It succeeds exactly if nothing but tensors, lists, tuples, dictionaries and named tuples is in the signature. -/
theorem C52_supported (s : Sig) (hs : s.WF) :
    ((∃ out, s.flatten = .ok out) ↔ ∀ p, ¬ s.At p .other) ∧ (∀ p, s.At p .other → s.flatten = .err .invalidArgument) := by
  have hg := flattenIn_good s [] hs
  have hd : s.flatten = s.flattenIn (ctxOf []) := rfl
  rw [hd]
  generalize s.flattenIn (ctxOf []) = r at hg
  cases r with
  | ok out => exact ⟨⟨fun _ => hg.1, fun _ => ⟨out, rfl⟩⟩, fun p hp => absurd hp (hg.1 p)⟩
  | err e =>
    obtain ⟨rfl, p, hp⟩ := hg
    exact ⟨⟨fun h => by simp at h, fun h => absurd hp (h p)⟩, fun _ _ => rfl⟩
  | died => exact absurd hg (by simp [SigGood])

theorem eq_of_pairwise_mem {α : Type} {r : α → α → Prop} (hr : ∀ a b, r a b → r b a → False) {l m : List α} (hl : l.Pairwise r)
    (hm : m.Pairwise r) (h : ∀ a, a ∈ l ↔ a ∈ m) : l = m := by
  induction l generalizing m with
  | nil => exact (List.eq_nil_iff_forall_not_mem.mpr fun a ha => by simpa using (h a).mpr ha).symm
  | cons x xs ih =>
    match m with
    | [] => exact absurd ((h x).mp (by simp)) (by simp)
    | y :: ys =>
      obtain ⟨hx, hxs⟩ := List.pairwise_cons.mp hl
      obtain ⟨hy, hys⟩ := List.pairwise_cons.mp hm
      have hxy : x = y := by
        rcases List.mem_cons.mp ((h x).mp (by simp)) with e | h1
        · exact e
        rcases List.mem_cons.mp ((h y).mpr (by simp)) with e | h2
        · exact e.symm
        exact (hr _ _ (hy x h1) (hx y h2)).elim
      subst hxy
      rw [ih hxs hys]
      intro a
      constructor
      · intro ha
        rcases List.mem_cons.mp ((h a).mp (by simp [ha])) with rfl | h1
        · exact (hr _ _ (hx _ ha) (hx _ ha)).elim
        · exact h1
      · intro ha
        rcases List.mem_cons.mp ((h a).mpr (by simp [ha])) with rfl | h1
        · exact (hr _ _ (hy _ ha) (hy _ ha)).elim
        · exact h1

/-- Two signatures with the same leaves at the same places, such as one whose dictionaries list their entries in another order, give the
same result. -/
theorem C52_stable (s t : Sig) (hs : s.WF) (ht : t.WF) (h : ∀ p c, s.Leaf p c ↔ t.Leaf p c) (out out' : List NamedSpec)
    (h1 : s.flatten = .ok out) (h2 : t.flatten = .ok out') : out = out' := by
  obtain ⟨l, hl, _, hp, e⟩ := C52 s hs out h1
  obtain ⟨l', hl', _, hp', e'⟩ := C52 t ht out' h2
  rw [e, e', eq_of_pairwise_mem (fun _ _ h h' => h.asymm h') hp hp' fun a => (hl a.1 a.2).trans ((h a.1 a.2).trans (hl' a.1 a.2).symm)]

/-- The signatures that a client keeps are the flattened ones of the tables the server has told of, each under the name of its table. -/
theorem C52_tables (infos : List (String × Option Sig)) (hn : (infos.map Prod.fst).Nodup) (sigs : Signatures)
    (h : flatSignatures infos .empty = .ok sigs) :
    (∀ table s, (table, some s) ∈ infos → ∃ out, s.flatten = .ok out ∧ sigs.get? table = some (some (out.map NamedSpec.spec))) ∧
    (∀ table, (table, none) ∈ infos → sigs.get? table = some none) ∧
    (∀ table, table ∉ infos.map Prod.fst → sigs.get? table = none) := by
  have key : ∀ (infos : List (String × Option Sig)) (acc : Signatures), (infos.map Prod.fst).Nodup →
      flatSignatures infos acc = .ok sigs →
      (∀ table o, (table, o) ∈ infos → ∃ l, flatSignature o = .ok l ∧ sigs.get? table = some (l.map (·.map NamedSpec.spec))) ∧
      (∀ table, table ∉ infos.map Prod.fst → sigs.get? table = acc.get? table) := by
    intro infos
    induction infos with
    | nil =>
      intro acc _ h
      rw [flatSignatures] at h
      obtain rfl := Res.ok.inj h
      simp
    | cons x xs ih =>
      obtain ⟨t, o⟩ := x
      intro acc hn h
      simp only [List.map_cons, List.nodup_cons] at hn
      rw [flatSignatures] at h
      cases hf : flatSignature o with
      | err e => rw [hf] at h; simp at h
      | died => rw [hf] at h; simp at h
      | ok l =>
        rw [hf] at h
        obtain ⟨h1, h2⟩ := ih _ hn.2 h
        refine ⟨?_, ?_⟩
        · intro table o' hm
          rcases List.mem_cons.mp hm with e | hm
          · obtain ⟨rfl, rfl⟩ := Prod.mk.inj e
            exact ⟨l, hf, by rw [h2 _ hn.1, AMap.get?_insert, if_pos rfl]⟩
          · exact h1 table o' hm
        · intro table ht
          simp only [List.map_cons, List.mem_cons, not_or] at ht
          rw [h2 _ ht.2, AMap.get?_insert, if_neg ht.1]
  obtain ⟨h1, h2⟩ := key infos .empty hn h
  refine ⟨?_, ?_, ?_⟩
  · intro table s hm
    obtain ⟨l, hl, hg⟩ := h1 table _ hm
    unfold flatSignature at hl
    cases hf : s.flatten with
    | err e => simp [hf] at hl
    | died => simp [hf] at hl
    | ok out =>
      simp only [hf] at hl
      obtain rfl := Res.ok.inj hl
      exact ⟨out, rfl, hg⟩
  · intro table hm
    obtain ⟨l, hl, hg⟩ := h1 table _ hm
    obtain rfl := Res.ok.inj hl
    exact hg
  · intro table ht
    rw [h2 table ht]
    rfl

namespace SigDemo

/-- A tensor. -/
def leaf (name : String) (n : Nat) : NamedSpec := ⟨name, ⟨.int64, some [some n, none]⟩⟩

/-- A dictionary with a tuple, a named tuple and a tensor that has a name of its own. -/
def sig : Sig := .dict [("b", .tuple [.spec (leaf "" 1), .bounded (leaf "x" 2)]), ("a", .named [("z", .spec (leaf "" 3)), ("y", .list [])]),
  ("", .spec (leaf "" 4))]

/-- Its flattening: the empty key comes first and leaves no trace in the name. -/
theorem sig_flat : sig.flatten = .ok [leaf "" 4, leaf "a/z" 3, leaf "b/0" 1, leaf "b/1/x" 2] := by decide

theorem sig_wf : sig.WF := by
  intro p fs h
  unfold sig at h
  cases h with
  | here => decide
  | dict hm h =>
    simp only [List.mem_cons, Prod.mk.injEq, List.not_mem_nil, or_false] at hm
    rcases hm with ⟨rfl, rfl⟩ | ⟨rfl, rfl⟩ | ⟨rfl, rfl⟩
    · cases h with
      | tuple hi h =>
        have := List.mem_of_getElem? hi
        simp only [List.mem_cons, List.not_mem_nil, or_false] at this
        rcases this with rfl | rfl <;> cases h
    · cases h with
      | named hi h =>
        have := List.mem_of_getElem? hi
        simp only [List.mem_cons, Prod.mk.injEq, List.not_mem_nil, or_false] at this
        rcases this with ⟨rfl, rfl⟩ | ⟨rfl, rfl⟩
        · cases h
        · cases h with
          | list hi _ => simp at hi
    · cases h

/-- Two tables, one of them without signature. -/
theorem tables_flat : flatSignatures [("t", some sig), ("u", none)] .empty =
    .ok (((AMap.empty : Signatures).insert "t" (some [(leaf "" 4).spec, (leaf "" 3).spec, (leaf "" 1).spec, (leaf "" 2).spec])).insert
      "u" none) := by
  have h : flatSignature (some sig) = .ok (some [leaf "" 4, leaf "a/z" 3, leaf "b/0" 1, leaf "b/1/x" 2]) := by
    simp only [flatSignature, sig_flat]
  simp only [flatSignatures, h, flatSignature]
  rfl

/-- A number in a signature is refused. -/
theorem refused : (Sig.list [.spec (leaf "" 1), .other]).flatten = .err .invalidArgument := by decide

/-- Different leaves may get the same name: a slash in a key is not marked. -/
theorem C52_ambiguous : (Sig.dict [("a/b", .spec (leaf "" 1)), ("a", .dict [("b", .spec (leaf "" 2))])]).flatten =
    .ok [leaf "a/b" 2, leaf "a/b" 1] := by decide

end SigDemo
end Verif
