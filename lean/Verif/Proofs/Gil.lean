import Verif.Spec.Gil
/-
Lemmas for C123: a discipline that can be checked method by method is an invariant of all threads together.
-/
namespace Verif.Gil

/-- The rest of a call uses Python only with the lock, pairs release and acquire, and (`strict`) does not wait with the lock. -/
def disc (strict : Bool) : Bool → List Op → Bool
  | held, [] => !held
  | held, .py :: r => held && disc strict held r
  | held, .pyIfOk :: r => held && disc strict held r
  | held, .call w :: r => !(strict && w && held) && disc strict held r
  | held, .raise :: r => held && disc strict held r
  | held, .release :: r => held && disc strict false r
  | held, .acquire :: r => !held && disc strict true r

theorem safe_methods : ∀ m ∈ methods, m.name ∉ careless → disc false false m.ops = true := by decide +kernel

theorem strict_methods : ∀ m ∈ methods, m.name ∉ careless ++ selfish → disc true false m.ops = true := by decide +kernel

/-- The invariant. -/
structure Inv (strict : Bool) (w : W) : Prop where
  ub : w.ub = false
  disc : ∀ i, disc strict (w.gil == some i) (w.todo i) = true

theorem Inv.init (strict : Bool) : Inv strict init := ⟨rfl, fun _ => rfl⟩

theorem set_same {α : Type} (f : Nat → α) (i : Nat) (x : α) : set f i x i = x := by simp [set]

theorem set_other {α : Type} (f : Nat → α) {i j : Nat} (x : α) (h : j ≠ i) : set f i x j = f j := by simp [set, h]

theorem Inv.step {strict : Bool} {w w' : W} (hi : Inv strict w) {a : Act} (hm : ∀ i m, a = .start i m → Gil.disc strict false m.ops = true)
    (h : step w a = some w') : Inv strict w' := by
  cases a with
  | start i m =>
    simp only [Gil.step] at h
    split at h
    · rename_i hc
      cases h
      refine ⟨hi.ub, fun j => ?_⟩
      by_cases hj : j = i
      · subst hj
        have h0 := hi.disc j
        rw [hc.2] at h0
        simp only [Gil.disc, Bool.not_eq_true'] at h0
        simp only [set_same, h0]
        exact hm _ _ rfl
      · simp only [set_other _ _ hj]
        exact hi.disc j
    · cases h
  | run i ok =>
    have h0 := hi.disc i
    -- what has to be shown if the lock does not change
    have keep : ∀ r : List Op, Gil.disc strict (w.gil == some i) r = true →
        ∀ j, Gil.disc strict (w.gil == some j) (set w.todo i r j) = true := by
      intro r hr j
      by_cases hj : j = i
      · subst hj
        rw [set_same]
        exact hr
      · rw [set_other _ _ hj]
        exact hi.disc j
    unfold Gil.step at h
    simp only [hi.ub, Bool.false_eq_true, if_false] at h
    cases ht : w.todo i with
    | nil => rw [ht] at h; cases h
    | cons o r =>
      rw [ht] at h h0
      cases o with
      | py =>
        simp only [Gil.disc, Bool.and_eq_true] at h0
        cases h
        have hg : w.gil = some i := by simpa using h0.1
        exact ⟨by simp [hg], keep r h0.2⟩
      | pyIfOk =>
        simp only [Gil.disc, Bool.and_eq_true] at h0
        cases h
        have hg : w.gil = some i := by simpa using h0.1
        exact ⟨by simp [hg], keep r h0.2⟩
      | call b =>
        simp only [Gil.disc, Bool.and_eq_true] at h0
        cases h
        exact ⟨rfl, keep r h0.2⟩
      | raise =>
        simp only [Gil.disc, Bool.and_eq_true] at h0
        have hg : w.gil = some i := by simpa using h0.1
        simp only at h
        split at h
        · cases h
          exact ⟨by simp [hg], keep [.release] (by simp [hg, Gil.disc])⟩
        · cases h
          exact ⟨rfl, keep r h0.2⟩
      | release =>
        simp only [Gil.disc, Bool.and_eq_true] at h0
        have hg : w.gil = some i := by simpa using h0.1
        simp only [hg, if_true] at h
        cases h
        refine ⟨rfl, fun j => ?_⟩
        by_cases hj : j = i
        · subst hj
          simp only [set_same]
          exact h0.2
        · simp only [set_other _ _ hj]
          have := hi.disc j
          have hne : (w.gil == some j) = false := by
            rw [hg]
            simp
            omega
          rw [hne] at this
          exact this
      | acquire =>
        simp only [Gil.disc, Bool.and_eq_true] at h0
        simp only at h
        split at h
        · rename_i hg
          cases h
          refine ⟨rfl, fun j => ?_⟩
          by_cases hj : j = i
          · subst hj
            simp only [set_same, beq_self_eq_true]
            exact h0.2
          · simp only [set_other _ _ hj]
            have := hi.disc j
            rw [hg] at this
            have hne : (some i == some j) = false := by
              simp
              omega
            rw [hne]
            exact this
        · cases h

theorem Inv.run {strict : Bool} : ∀ {as : List Act} {w w' : W}, Inv strict w →
    (∀ i m, Act.start i m ∈ as → Gil.disc strict false m.ops = true) → run w as = some w' → Inv strict w'
  | [], w, w', hi, _, h => by
    cases h
    exact hi
  | a :: as, w, w', hi, hm, h => by
    simp only [Gil.run] at h
    cases hs : Gil.step w a with
    | none => rw [hs] at h; cases h
    | some v =>
      rw [hs] at h
      exact Inv.run (hi.step (fun i m e => hm i m (by simp [e])) hs) (fun i m e => hm i m (by simp [e])) h

theorem alone_succ (i : Nat) (oks : Nat → Bool) (k : Nat) : alone i oks (k + 1) = .run i (oks 0) :: alone i (fun j => oks (j + 1)) k := by
  simp [alone, List.range_succ_eq_map]

/-- The thread that has the lock gives it up by itself, whatever its C++ calls return. -/
theorem frees : ∀ (n : Nat) (oks : Nat → Bool) {w : W} {i : Nat}, Inv true w → w.gil = some i → (w.todo i).length ≤ n →
    ∃ k w', run w (alone i oks k) = some w' ∧ w'.gil = none
  | 0, oks, w, i, hi, hg, hn => by
    have h0 := hi.disc i
    have : w.todo i = [] := List.length_eq_zero_iff.mp (by omega)
    rw [this, hg] at h0
    simp [disc] at h0
  | n + 1, oks, w, i, hi, hg, hn => by
    have h0 := hi.disc i
    have go : ∀ {v : W}, step w (.run i (oks 0)) = some v → v.gil = some i → (v.todo i).length ≤ n →
        ∃ k w', run w (alone i oks k) = some w' ∧ w'.gil = none := by
      intro v hs hv hl
      have hiv : Inv true v := hi.step (by intro _ _ e; cases e) hs
      obtain ⟨k, w', h2, h3⟩ := frees n (fun j => oks (j + 1)) hiv hv hl
      exact ⟨k + 1, w', by simp [alone_succ, run, hs, h2], h3⟩
    cases ht : w.todo i with
    | nil => rw [ht, hg] at h0; simp [disc] at h0
    | cons o r =>
      rw [ht] at hn
      simp only [List.length_cons] at hn
      have hub := hi.ub
      cases o with
      | py => exact go (v := { w with todo := set w.todo i r, ub := w.gil != some i }) (by unfold step; simp [hub, ht]) hg (by simp [set_same]; omega)
      | pyIfOk =>
        exact go (v := { w with todo := set w.todo i r, ub := !w.failed i && w.gil != some i }) (by unfold step; simp [hub, ht]) hg
          (by simp [set_same]; omega)
      | call b =>
        exact go (v := { w with todo := set w.todo i r, failed := set w.failed i (!oks 0) }) (by unfold step; simp [hub, ht]) hg
          (by simp [set_same]; omega)
      | raise =>
        by_cases hf : w.failed i = true
        · have hs1 : ∀ b, step w (.run i b) = some { w with todo := set w.todo i [.release], ub := false } := by
            intro b
            unfold step
            simp [hub, ht, hf, hg]
          refine ⟨2, { w with todo := set (set w.todo i [.release]) i [], ub := false, gil := none }, ?_, rfl⟩
          simp only [alone_succ, run, hs1, Option.bind_some]
          simp [step, set_same, hg, alone, run]
        · exact go (v := { w with todo := set w.todo i r }) (by unfold step; simp [hub, ht, hf]) hg (by simp [set_same]; omega)
      | release =>
        refine ⟨1, { w with todo := set w.todo i r, gil := none }, ?_, rfl⟩
        simp [alone, run, step, hub, ht, hg]
      | acquire =>
        rw [ht, hg] at h0
        simp [disc] at h0

/-- Without a step of the thread that has the lock, it keeps it, and a thread that wants it does not move. -/
theorem blocked_step {w v : W} {a : Act} {i j : Nat} (hg : w.gil = some i) (hj : w.wants j) (ha : ¬ a.of i) (h : step w a = some v) :
    v.gil = some i ∧ v.todo j = w.todo j := by
  unfold W.wants at hj
  cases a with
  | start k m =>
    simp only [step] at h
    split at h
    · rename_i hc
      cases h
      refine ⟨hg, set_other _ _ ?_⟩
      rintro rfl
      rw [hc.2] at hj
      cases hj
    · cases h
  | run k ok =>
    have hk : k ≠ i := ha
    have hgk : w.gil ≠ some k := by
      rw [hg]
      intro e
      exact hk (Option.some.inj e).symm
    by_cases hjk : k = j
    · subst hjk
      cases ht : w.todo k with
      | nil => rw [ht] at hj; cases hj
      | cons o r =>
        rw [ht] at hj
        simp only [List.head?_cons, Option.some.injEq] at hj
        subst hj
        unfold step at h
        simp only [ht, hg] at h
        split at h
        · cases h
        · simp at h
    · have hs : ∀ r, set w.todo k r j = w.todo j := fun r => set_other _ _ (fun e => hjk e.symm)
      simp only [step] at h
      split at h
      · cases h
      · split at h
        · cases h
        · cases h; exact ⟨hg, hs _⟩
        · cases h; exact ⟨hg, hs _⟩
        · cases h; exact ⟨hg, hs _⟩
        · split at h <;> cases h <;> exact ⟨hg, hs _⟩
        · cases h
          exact ⟨hg, rfl⟩
        · split at h
          · rename_i hn
            rw [hg] at hn
            cases hn
          · cases h

theorem blocked_run {i j : Nat} : ∀ {as : List Act} {w v : W}, w.gil = some i → w.wants j → (∀ a ∈ as, ¬ a.of i) → run w as = some v →
    v.gil = some i ∧ v.todo j = w.todo j
  | [], w, v, hg, hj, _, h => by
    cases h
    exact ⟨hg, rfl⟩
  | a :: as, w, v, hg, hj, ha, h => by
    simp only [run] at h
    cases hs : step w a with
    | none => rw [hs] at h; cases h
    | some u =>
      rw [hs] at h
      obtain ⟨h1, h2⟩ := blocked_step hg hj (ha a (by simp)) hs
      obtain ⟨h3, h4⟩ := blocked_run h1 (by unfold W.wants; rw [h2]; exact hj) (fun b hb => ha b (by simp [hb])) h
      exact ⟨h3, h4.trans h2⟩

end Verif.Gil
