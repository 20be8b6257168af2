import Verif.Model.OptsEq
/-
C124: chunker options that are equal in Python do the same.
-/
namespace Verif.OptsEq

/-- C124: a comparison with options of the same kind is an equivalence. -/
theorem C124_equivalence (a b c : ChunkerOpts) : pyEq a a = .bool true ∧ pyEq a b = pyEq b a ∧
    (pyEq a b = .bool true → pyEq b c = .bool true → pyEq a c = .bool true) := by
  have hc : ∀ x y : Int, (x == y) = (y == x) := fun x y => by
    rw [Bool.eq_iff_iff]
    simp only [beq_iff_eq]
    exact eq_comm
  refine ⟨?_, ?_, ?_⟩
  · cases a <;> simp [pyEq]
  · cases a with
    | constant m k d =>
      cases b with
      | constant m' k' d' => simp only [pyEq]; rw [hc m m', hc k k']
      | auto b => rfl
    | auto a =>
      cases b with
      | constant m' k' d' => rfl
      | auto b => simp only [pyEq]; rw [hc a.keep b.keep]
  · intro h1 h2
    cases a <;> cases b <;> cases c <;> simp_all [pyEq]

/-- C124: options of different kinds cannot be compared. -/
theorem C124_kinds (m k k' : Int) (w : Rat) : pyEq (constant m k) (auto k' w) = .typeError ∧ pyEq (auto k' w) (constant m k) = .typeError :=
  ⟨rfl, rfl⟩

/-- C124: constant options that are equal do the same in a writer, whatever items are written; and those that are not equal do not. -/
theorem C124_constant (m k m' k' : Int) (items : List (List ChunkObs)) :
    pyEq (constant m k) (constant m' k') = .bool true ↔ serve (constant m k) items = serve (constant m' k') items := by
  have h : ∀ m k, serve (constant m k) items = some (.constant m k false) := by
    intro m k
    unfold serve constant ChunkerOpts.clone
    induction items with
    | nil => rfl
    | cons r rs ih => simpa [feed, ChunkerOpts.onItemFinalized] using ih
  rw [h, h]
  simp [pyEq, constant]

/-- C124, partial: automatic options that are equal and have the same weight do the same in a writer. The full claim, without the weight, is
false (`C124_auto_is_false`): the comparison ignores it. -/
theorem C124_auto_partial {a b : AutoTuned} (h : pyEq (.auto a) (.auto b) = .bool true) (hw : a.weight = b.weight)
    (items : List (List ChunkObs)) : serve (.auto a) items = serve (.auto b) items := by
  have : a.keep = b.keep := by simpa [pyEq] using h
  simp [serve, ChunkerOpts.clone, this, hw]

theorem adjust_keep (a : AutoTuned) (s : Score) : (a.adjust s).keep = a.keep := by
  unfold AutoTuned.adjust
  simp only
  repeat' split
  all_goals rfl

theorem finalized_keep {o o' : ChunkerOpts} {refs : List ChunkObs} (h : o.onItemFinalized refs = some o') : o'.keep = o.keep := by
  cases o with
  | constant m k d =>
    simp only [ChunkerOpts.onItemFinalized, Option.some.injEq] at h
    rw [← h]
  | auto a =>
    simp only [ChunkerOpts.onItemFinalized, Option.map_eq_some_iff] at h
    obtain ⟨b, h1, rfl⟩ := h
    unfold AutoTuned.onItemFinalized at h1
    split at h1
    · cases h1
    · simp only at h1
      split at h1
      · cases h1
        rfl
      · unfold AutoTuned.reduce at h1
        split at h1
        · cases h1
        · rename_i _ x heq
          split at heq
          · cases heq
            cases h1
            exact adjust_keep _ _
          · cases heq

/-- C124: equal options keep the same number of references at all times, also if their weights differ. -/
theorem C124_keep {a b : ChunkerOpts} (h : pyEq a b = .bool true) {as bs : List (List ChunkObs)} {a' b' : ChunkerOpts}
    (ha : serve a as = some a') (hb : serve b bs = some b') : a'.keep = b'.keep := by
  have key : ∀ (l : List (List ChunkObs)) (o o' : ChunkerOpts), feed o l = some o' → o'.keep = o.keep := by
    intro l
    induction l with
    | nil => intro o o' h; cases h; rfl
    | cons r rs ih =>
      intro o o' h
      simp only [feed] at h
      cases hs : o.onItemFinalized r with
      | none => rw [hs] at h; cases h
      | some u =>
        rw [hs] at h
        exact (ih _ _ h).trans (finalized_keep hs)
  have hc : ∀ o : ChunkerOpts, o.clone.keep = o.keep := by
    intro o
    cases o <;> rfl
  rw [key _ _ _ ha, key _ _ _ hb, hc, hc]
  cases a <;> cases b <;> simp_all [pyEq, ChunkerOpts.keep]

/-- Ten items with chunks of one step and 10 bytes, then ten with chunks of three steps and 15 bytes. -/
def demoItems : List (List ChunkObs) :=
  ((List.range 10).map fun i => [⟨i, 1, 10⟩]) ++ ((List.range 10).map fun i => [⟨10 + i, 3, 15⟩])

/-- C124: the full claim is false: two automatic options that are equal in Python choose different chunk lengths for the same items, because
their weights differ. -/
theorem C124_auto_is_false : pyEq (auto 10 0) (auto 10 100) = .bool true ∧
    (serve (auto 10 0) demoItems).map (·.maxLen) = some 5 ∧ (serve (auto 10 100) demoItems).map (·.maxLen) = some 2 := by
  refine ⟨by decide +kernel, by decide +kernel, by decide +kernel⟩

/-- A case for `C124_auto_partial` and `C124_keep`: options that have been used and new ones. -/
example : ∃ a, serve (auto 10 1) (demoItems.take 10) = some (.auto a) ∧ a.maxLen = 3 ∧ pyEq (.auto a) (auto 10 1) = .bool true := by
  refine ⟨⟨10, false, 1, 3, ⟨1, 20⟩, [], []⟩, by decide +kernel, rfl, by decide +kernel⟩

end Verif.OptsEq
