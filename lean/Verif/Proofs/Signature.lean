import Verif.Spec.Signature
/-
Helper lemmas for C52.
-/
namespace Verif

/-- The context at the end of a path. -/
def ctxOf (p : List PathStep) : String := "/".intercalate ((p.map PathStep.name).filter (· ≠ ""))

theorem intercalate_ne_empty {l : List String} (h : ∀ s ∈ l, s ≠ "") (hl : l ≠ []) : "/".intercalate l ≠ "" := by
  match l, hl with
  | [s], _ => rw [String.intercalate_singleton]; exact h s (by simp)
  | s :: t :: r, _ =>
    rw [String.intercalate_cons_cons]
    intro e
    have := congrArg String.toList e
    simp at this

theorem extend_intercalate {l : List String} (h : ∀ s ∈ l, s ≠ "") (v : String) :
    extendContext ("/".intercalate l) v = "/".intercalate (l ++ [v].filter (· ≠ "")) := by
  unfold extendContext
  by_cases hv : v = ""
  · subst hv; simp
  · by_cases hl : l = []
    · subst hl; simp [hv]
    · have h1 := intercalate_ne_empty h hl
      rw [if_pos ⟨h1, hv⟩]
      have : [v].filter (· ≠ "") = [v] := by simp [hv]
      rw [this, String.intercalate_append_of_ne_nil hl (by simp), String.intercalate_singleton]

theorem extend_ctxOf (p : List PathStep) (own : String) : extendContext (ctxOf p) own = pathName p own := by
  unfold ctxOf pathName
  rw [extend_intercalate (by simp), List.filter_append]

theorem extend_ctxOf_step (p : List PathStep) (st : PathStep) : extendContext (ctxOf p) st.name = ctxOf (p ++ [st]) := by
  rw [extend_ctxOf]; simp [ctxOf, pathName]

/-- What a result says about a signature that is at the end of the path `pre`. -/
def SigGood (s : Sig) (pre : List PathStep) : Res (List NamedSpec) → Prop
  | .ok out => (∀ p, ¬ s.At p .other) ∧ ∃ leaves : List (List PathStep × NamedSpec),
      (∀ p c, (p, c) ∈ leaves ↔ s.Leaf p c) ∧ leaves.Pairwise (fun a b => PathBefore a.1 b.1) ∧
      out = leaves.map fun l => ⟨pathName (pre ++ l.1) l.2.name, l.2.spec⟩
  | .err e => e = .invalidArgument ∧ ∃ p, s.At p .other
  | .died => False

/-- The same for several branches. -/
def BranchesGood (bs : List (PathStep × Sig)) (pre : List PathStep) : Res (List NamedSpec) → Prop
  | .ok out => (∀ b ∈ bs, ∀ p, ¬ b.2.At p .other) ∧ ∃ leaves : List (List PathStep × NamedSpec),
      (∀ p c, (p, c) ∈ leaves ↔ ∃ b ∈ bs, ∃ q, p = b.1 :: q ∧ b.2.Leaf q c) ∧ leaves.Pairwise (fun a b => PathBefore a.1 b.1) ∧
      out = leaves.map fun l => ⟨pathName (pre ++ l.1) l.2.name, l.2.spec⟩
  | .err e => e = .invalidArgument ∧ ∃ b ∈ bs, ∃ p, b.2.At p .other
  | .died => False

theorem BranchesGood.nil (pre : List PathStep) : BranchesGood [] pre (.ok []) :=
  ⟨by simp, [], by simp, by simp, by simp⟩

theorem BranchesGood.cons {st : PathStep} {v : Sig} {bs : List (PathStep × Sig)} {pre : List PathStep} {r1 r2 : Res (List NamedSpec)}
    (h1 : SigGood v (pre ++ [st]) r1) (h2 : BranchesGood bs pre r2) (hb : ∀ b ∈ bs, st.Before b.1) :
    BranchesGood ((st, v) :: bs) pre (r1.append r2) := by
  cases r1 with
  | died => exact h1
  | err e => exact ⟨h1.1, (st, v), by simp, h1.2⟩
  | ok o1 =>
    cases r2 with
    | died => exact h2
    | err e =>
      obtain ⟨he, b, hb, hp⟩ := h2
      exact ⟨he, b, by simp [hb], hp⟩
    | ok o2 =>
      obtain ⟨n1, l1, m1, p1, e1⟩ := h1
      obtain ⟨n2, l2, m2, p2, e2⟩ := h2
      refine ⟨?_, l1.map (fun l => (st :: l.1, l.2)) ++ l2, ?_, ?_, ?_⟩
      · intro b hb p
        rcases List.mem_cons.mp hb with rfl | hb
        · exact n1 p
        · exact n2 b hb p
      · intro p c
        rw [List.mem_append, m2]
        constructor
        · rintro (h | ⟨b, hb, q, e, hl⟩)
          · obtain ⟨⟨q, c'⟩, hm, e⟩ := List.mem_map.mp h
            obtain ⟨rfl, rfl⟩ := Prod.mk.inj e
            exact ⟨(st, v), by simp, q, rfl, (m1 _ _).mp hm⟩
          · exact ⟨b, by simp [hb], q, e, hl⟩
        · rintro ⟨b, hb, q, e, hl⟩
          rcases List.mem_cons.mp hb with rfl | hb
          · exact .inl (List.mem_map.mpr ⟨(q, c), (m1 _ _).mpr hl, by simp [e]⟩)
          · exact .inr ⟨b, hb, q, e, hl⟩
      · rw [List.pairwise_append]
        refine ⟨?_, p2, ?_⟩
        · rw [List.pairwise_map]
          exact p1.imp fun h => .there h
        · intro a ha b hb'
          obtain ⟨⟨q, c'⟩, _, rfl⟩ := List.mem_map.mp ha
          obtain ⟨b', hb', q', e, _⟩ := (m2 b.1 b.2).mp hb'
          rw [e]
          exact .here (hb b' hb')
      · show o1 ++ o2 = _
        rw [e1, e2]
        simp

/-! ### The sorted keys -/

theorem mem_insertKey (k x : String) (l : List String) : x ∈ insertKey k l ↔ x = k ∨ x ∈ l := by
  induction l with
  | nil => simp [insertKey]
  | cons y ys ih =>
    unfold insertKey
    split
    · simp
    · simp [ih]; grind

theorem mem_sortKeys (x : String) (l : List String) : x ∈ sortKeys l ↔ x ∈ l := by
  induction l with
  | nil => simp [sortKeys]
  | cons y ys ih => simp [sortKeys, mem_insertKey, ih]

theorem lt_of_le_ne {a b : String} (h : a ≤ b) (hn : a ≠ b) : a < b :=
  Classical.byContradiction fun h' => hn (String.le_antisymm h (String.not_lt.mp h'))

theorem insertKey_sorted {k : String} {l : List String} (h : l.Pairwise (· < ·)) (hk : k ∉ l) : (insertKey k l).Pairwise (· < ·) := by
  induction l with
  | nil => simp [insertKey]
  | cons y ys ih =>
    obtain ⟨h1, h2⟩ := List.pairwise_cons.mp h
    simp only [List.mem_cons, not_or] at hk
    unfold insertKey
    split
    · rename_i hle
      have hlt := lt_of_le_ne hle hk.1
      refine List.pairwise_cons.mpr ⟨?_, h⟩
      intro z hz
      rcases List.mem_cons.mp hz with rfl | hz
      · exact hlt
      · exact String.lt_trans hlt (h1 z hz)
    · rename_i hle
      refine List.pairwise_cons.mpr ⟨?_, ih h2 hk.2⟩
      intro z hz
      rcases (mem_insertKey k z ys).mp hz with rfl | hz
      · exact String.not_le.mp hle
      · exact h1 z hz

theorem sortKeys_sorted {l : List String} (h : l.Nodup) : (sortKeys l).Pairwise (· < ·) := by
  induction l with
  | nil => simp [sortKeys]
  | cons y ys ih =>
    obtain ⟨h1, h2⟩ := List.nodup_cons.mp h
    exact insertKey_sorted (ih h2) (fun hm => h1 ((mem_sortKeys y ys).mp hm))

/-! ### The branches -/

/-- The elements of a list, from position `i` on. -/
def seqBranches (i : Nat) : List Sig → List (PathStep × Sig)
  | [] => []
  | v :: vs => (.pos i, v) :: seqBranches (i + 1) vs

/-- The fields of a named tuple, from position `i` on. -/
def pairBranches (i : Nat) : List (String × Sig) → List (PathStep × Sig)
  | [] => []
  | (k, v) :: fs => (.field i k, v) :: pairBranches (i + 1) fs

theorem mem_seqBranches {i : Nat} {vs : List Sig} {b : PathStep × Sig} :
    b ∈ seqBranches i vs ↔ ∃ j, vs[j]? = some b.2 ∧ b.1 = .pos (i + j) := by
  induction vs generalizing i with
  | nil => simp [seqBranches]
  | cons v vs ih =>
    simp only [seqBranches, List.mem_cons, ih]
    constructor
    · rintro (rfl | ⟨j, h1, h2⟩)
      · exact ⟨0, by simp, by simp⟩
      · exact ⟨j + 1, by simpa using h1, by rw [h2]; congr 1; omega⟩
    · rintro ⟨j, h1, h2⟩
      cases j with
      | zero =>
        left
        simp at h1
        obtain ⟨b1, b2⟩ := b
        simp_all
      | succ j => exact .inr ⟨j, by simpa using h1, by rw [h2]; congr 1; omega⟩

theorem mem_pairBranches {i : Nat} {fs : List (String × Sig)} {b : PathStep × Sig} :
    b ∈ pairBranches i fs ↔ ∃ j k, fs[j]? = some (k, b.2) ∧ b.1 = .field (i + j) k := by
  induction fs generalizing i with
  | nil => simp [pairBranches]
  | cons f fs ih =>
    obtain ⟨k, v⟩ := f
    simp only [pairBranches, List.mem_cons, ih]
    constructor
    · rintro (rfl | ⟨j, k', h1, h2⟩)
      · exact ⟨0, k, by simp, by simp⟩
      · exact ⟨j + 1, k', by simpa using h1, by rw [h2]; congr 1; omega⟩
    · rintro ⟨j, k', h1, h2⟩
      cases j with
      | zero =>
        left
        simp at h1
        obtain ⟨b1, b2⟩ := b
        simp_all
      | succ j => exact .inr ⟨j, k', by simpa using h1, by rw [h2]; congr 1; omega⟩

/-- A value whose branches are known. -/
theorem SigGood.of_branches {s : Sig} {bs : List (PathStep × Sig)} {pre : List PathStep} {r : Res (List NamedSpec)}
    (hs : ∀ p t, s.At p t → (∀ fs, t ≠ .list fs) → (∀ fs, t ≠ .tuple fs) → (∀ fs, t ≠ .dict fs) → (∀ fs, t ≠ .named fs) →
      ∃ b ∈ bs, ∃ q, p = b.1 :: q ∧ b.2.At q t)
    (hb : ∀ b ∈ bs, ∀ q t, b.2.At q t → s.At (b.1 :: q) t) (h : BranchesGood bs pre r) : SigGood s pre r := by
  cases r with
  | died => exact h
  | err e =>
    obtain ⟨he, b, hm, p, hp⟩ := h
    exact ⟨he, _, hb b hm p _ hp⟩
  | ok out =>
    obtain ⟨h1, l, h2, h3, h4⟩ := h
    refine ⟨?_, l, ?_, h3, h4⟩
    · intro p hp
      obtain ⟨b, hm, q, _, hq⟩ := hs p _ hp (by simp) (by simp) (by simp) (by simp)
      exact h1 b hm q hq
    · intro p c
      rw [h2]
      constructor
      · rintro ⟨b, hm, q, rfl, hl⟩
        exact hl.imp (hb b hm q _) (hb b hm q _)
      · rintro (hl | hl)
        · obtain ⟨b, hm, q, e, hq⟩ := hs p _ hl (by simp) (by simp) (by simp) (by simp)
          exact ⟨b, hm, q, e, .inl hq⟩
        · obtain ⟨b, hm, q, e, hq⟩ := hs p _ hl (by simp) (by simp) (by simp) (by simp)
          exact ⟨b, hm, q, e, .inr hq⟩

theorem flattenEach_eq (ctx : String) (fs : List (String × Sig)) :
    Sig.flattenEach ctx fs = fs.map fun f => (f.1, f.2.flattenIn (extendContext ctx f.1)) := by
  induction fs with
  | nil => simp [Sig.flattenEach]
  | cons f fs ih => obtain ⟨k, v⟩ := f; simp [Sig.flattenEach, ih]

theorem lookup_of_mem {α : Type} {l : List (String × α)} (h : (l.map Prod.fst).Nodup) {k : String} {v : α} (hm : (k, v) ∈ l) :
    l.lookup k = some v := by
  induction l with
  | nil => simp at hm
  | cons x xs ih =>
    obtain ⟨k', v'⟩ := x
    simp only [List.map_cons, List.nodup_cons] at h
    rw [List.lookup_cons]
    rcases List.mem_cons.mp hm with e | hm
    · obtain ⟨rfl, rfl⟩ := Prod.mk.inj e
      simp
    · have hne : k ≠ k' := fun e => h.1 (e ▸ List.mem_map.mpr ⟨_, hm, rfl⟩)
      rw [show (k == k') = false by simp [hne]]
      exact ih h.2 hm

/-- The loop over sorted keys. -/
theorem flattenKeys_good {fs : List (String × Sig)} {pre : List PathStep} (hn : (fs.map Prod.fst).Nodup)
    (hg : ∀ f ∈ fs, SigGood f.2 (pre ++ [.key f.1]) (f.2.flattenIn (extendContext (ctxOf pre) f.1))) (ks : List String)
    (hs : ks.Pairwise (· < ·)) (hks : ∀ k ∈ ks, k ∈ fs.map Prod.fst) :
    ∃ bs : List (PathStep × Sig), BranchesGood bs pre (flattenKeys (Sig.flattenEach (ctxOf pre) fs) ks) ∧
      ∀ b, b ∈ bs ↔ ∃ k ∈ ks, (k, b.2) ∈ fs ∧ b.1 = .key k := by
  induction ks with
  | nil => exact ⟨[], BranchesGood.nil pre, by simp⟩
  | cons k ks ih =>
    obtain ⟨h1, h2⟩ := List.pairwise_cons.mp hs
    obtain ⟨bs, hb, hm⟩ := ih h2 fun k' hk' => hks k' (List.mem_cons_of_mem _ hk')
    obtain ⟨⟨k0, v⟩, hf, e⟩ := List.mem_map.mp (hks k (by simp))
    obtain rfl : k0 = k := e
    have hl : (Sig.flattenEach (ctxOf pre) fs).lookup k0 = some (v.flattenIn (extendContext (ctxOf pre) k0)) := by
      rw [flattenEach_eq]
      apply lookup_of_mem
      · rw [List.map_map]; exact hn
      · exact List.mem_map.mpr ⟨_, hf, rfl⟩
    refine ⟨(.key k0, v) :: bs, ?_, ?_⟩
    · rw [flattenKeys, hl]
      have hg' : SigGood v (pre ++ [.key k0]) (v.flattenIn (extendContext (ctxOf pre) k0)) := hg (k0, v) hf
      dsimp only
      refine BranchesGood.cons hg' hb ?_
      intro b hbm
      obtain ⟨k', hk', _, e⟩ := (hm b).mp hbm
      rw [e]
      exact .key (h1 k' hk')
    · intro b
      rw [List.mem_cons, hm]
      constructor
      · rintro (rfl | ⟨k', hk', h3, h4⟩)
        · exact ⟨k0, by simp, hf, rfl⟩
        · exact ⟨k', by simp [hk'], h3, h4⟩
      · rintro ⟨k', hk', h3, h4⟩
        rcases List.mem_cons.mp hk' with rfl | hk'
        · left
          have h5 := lookup_of_mem hn hf
          rw [lookup_of_mem hn h3] at h5
          obtain ⟨b1, b2⟩ := b
          simp_all
        · exact .inr ⟨k', hk', h3, h4⟩

theorem Sig.WF.sub {s v : Sig} {st : PathStep} (h : s.WF) (hv : ∀ p t, v.At p t → s.At (st :: p) t) : v.WF :=
  fun p fs hp => h (st :: p) fs (hv p _ hp)

mutual

theorem flattenIn_good : ∀ (s : Sig) (pre : List PathStep), s.WF → SigGood s pre (s.flattenIn (ctxOf pre))
  | .spec c, pre, _ => by
    rw [Sig.flattenIn, extend_ctxOf]
    refine ⟨?_, [([], c)], ?_, by simp, by simp⟩
    · intro p hp; cases hp
    · intro p c'
      constructor
      · intro h; simp at h; rw [h.1, h.2]; exact .inl .here
      · rintro (h | h)
        · cases h; simp
        · cases h
  | .bounded c, pre, _ => by
    rw [Sig.flattenIn, extend_ctxOf]
    refine ⟨?_, [([], c)], ?_, by simp, by simp⟩
    · intro p hp; cases hp
    · intro p c'
      constructor
      · intro h; simp at h; rw [h.1, h.2]; exact .inr .here
      · rintro (h | h)
        · cases h
        · cases h; simp
  | .list vs, pre, h => by
    rw [Sig.flattenIn]
    refine SigGood.of_branches ?_ ?_ (flattenSeq_good vs 0 pre fun v hv => ?_)
    · intro p t hp h1 h2 h3 h4
      cases hp with
      | here => exact absurd rfl (h1 _)
      | list hi hp => exact ⟨(_, _), mem_seqBranches.mpr ⟨_, hi, rfl⟩, _, by simp, hp⟩
    · intro b hb q t hq
      obtain ⟨j, h1, h2⟩ := mem_seqBranches.mp hb
      rw [h2, Nat.zero_add]
      exact .list h1 hq
    · obtain ⟨j, hj⟩ := List.getElem?_of_mem hv
      exact h.sub (st := .pos j) fun p t hp => .list hj hp
  | .tuple vs, pre, h => by
    rw [Sig.flattenIn]
    refine SigGood.of_branches ?_ ?_ (flattenSeq_good vs 0 pre fun v hv => ?_)
    · intro p t hp h1 h2 h3 h4
      cases hp with
      | here => exact absurd rfl (h2 _)
      | tuple hi hp => exact ⟨(_, _), mem_seqBranches.mpr ⟨_, hi, rfl⟩, _, by simp, hp⟩
    · intro b hb q t hq
      obtain ⟨j, h1, h2⟩ := mem_seqBranches.mp hb
      rw [h2, Nat.zero_add]
      exact .tuple h1 hq
    · obtain ⟨j, hj⟩ := List.getElem?_of_mem hv
      exact h.sub (st := .pos j) fun p t hp => .tuple hj hp
  | .dict fs, pre, h => by
    rw [Sig.flattenIn]
    have hn := h [] fs .here
    obtain ⟨bs, hb, hm⟩ := flattenKeys_good hn
      (flattenEach_good fs pre fun f hf => h.sub (st := .key f.1) fun p t hp => .dict hf hp) _ (sortKeys_sorted hn)
      fun k hk => (mem_sortKeys k _).mp hk
    refine SigGood.of_branches ?_ ?_ hb
    · intro p t hp h1 h2 h3 h4
      cases hp with
      | here => exact absurd rfl (h3 _)
      | dict hi hp =>
        exact ⟨(_, _), (hm _).mpr ⟨_, (mem_sortKeys _ _).mpr (List.mem_map.mpr ⟨_, hi, rfl⟩), hi, rfl⟩, _, rfl, hp⟩
    · intro b hb q t hq
      obtain ⟨k, _, h1, h2⟩ := (hm b).mp hb
      rw [h2]
      exact .dict h1 hq
  | .named fs, pre, h => by
    rw [Sig.flattenIn]
    refine SigGood.of_branches ?_ ?_ (flattenPairs_good fs 0 pre fun f hf => ?_)
    · intro p t hp h1 h2 h3 h4
      cases hp with
      | here => exact absurd rfl (h4 _)
      | named hi hp => exact ⟨(_, _), mem_pairBranches.mpr ⟨_, _, hi, rfl⟩, _, by simp, hp⟩
    · intro b hb q t hq
      obtain ⟨j, k, h1, h2⟩ := mem_pairBranches.mp hb
      rw [h2, Nat.zero_add]
      exact .named h1 hq
    · obtain ⟨j, hj⟩ := List.getElem?_of_mem hf
      exact h.sub (st := .field j f.1) fun p t hp => .named hj hp
  | .other, pre, _ => by
    rw [Sig.flattenIn]
    exact ⟨rfl, [], .here⟩

theorem flattenSeq_good : ∀ (vs : List Sig) (i : Nat) (pre : List PathStep), (∀ v ∈ vs, v.WF) →
    BranchesGood (seqBranches i vs) pre (Sig.flattenSeq (ctxOf pre) i vs)
  | [], i, pre, _ => by rw [Sig.flattenSeq]; exact BranchesGood.nil pre
  | v :: vs, i, pre, h => by
    rw [Sig.flattenSeq, show toString i = (PathStep.pos i).name from rfl, extend_ctxOf_step]
    refine BranchesGood.cons (flattenIn_good v _ (h v (by simp))) (flattenSeq_good vs (i + 1) pre fun w hw => h w (by simp [hw])) ?_
    intro b hb
    obtain ⟨j, _, e⟩ := mem_seqBranches.mp hb
    rw [e]
    exact .pos (by omega)

theorem flattenEach_good : ∀ (fs : List (String × Sig)) (pre : List PathStep), (∀ f ∈ fs, f.2.WF) →
    ∀ f ∈ fs, SigGood f.2 (pre ++ [.key f.1]) (f.2.flattenIn (extendContext (ctxOf pre) f.1))
  | [], _, _ => by simp
  | (k, v) :: fs, pre, h => by
    intro f hf
    rcases List.mem_cons.mp hf with rfl | hf
    · have e := extend_ctxOf_step pre (.key k)
      rw [show (PathStep.key k).name = k from rfl] at e
      dsimp only
      rw [e]
      exact flattenIn_good v _ (h (k, v) (by simp))
    · exact flattenEach_good fs pre (fun f hf => h f (by simp [hf])) f hf

theorem flattenPairs_good : ∀ (fs : List (String × Sig)) (i : Nat) (pre : List PathStep), (∀ f ∈ fs, f.2.WF) →
    BranchesGood (pairBranches i fs) pre (Sig.flattenPairs (ctxOf pre) fs)
  | [], i, pre, _ => by rw [Sig.flattenPairs]; exact BranchesGood.nil pre
  | (k, v) :: fs, i, pre, h => by
    rw [Sig.flattenPairs, show k = (PathStep.field i k).name from rfl, extend_ctxOf_step]
    refine BranchesGood.cons (flattenIn_good v _ (h (k, v) (by simp))) (flattenPairs_good fs (i + 1) pre fun w hw => h w (by simp [hw])) ?_
    intro b hb
    obtain ⟨j, _, _, e⟩ := mem_pairBranches.mp hb
    rw [e]
    exact .field (by omega)

end

end Verif
