import Verif.Proofs.Sel
import Verif.Props.C05_Prioritized
/-
C06: rejected selector calls have no effect; when calls are rejected.
-/
namespace Verif
open Spec (Call)

/-- A selector of the given kind after a history of calls. -/
def selAfter (kind : SelKind) (cs : List Call) : Sel := runCalls Sel.apply kind.make cs

/-- C06: a call succeeds exactly when the key is absent (insert) or present (update, delete) and the
priority is acceptable; otherwise it returns InvalidArgument. No call kills the process. -/
theorem C06_call_result (kind : SelKind) (cs : List Call) (c : Call) :
    ((selAfter kind cs).apply c).2 =
      (if Spec.succeeds kind.accept (Spec.book kind.accept cs) c then .ok () else .err .invalidArgument) :=
  ((Sel.Inv.runFrom cs (Sel.Inv.make kind)).step c).2.1

/-- C06: a rejected call is invisible: whatever calls follow, their results and all samples are those
of the history without the rejected call. -/
theorem C06_rejected_invisible (kind : SelKind) (cs : List Call) (c : Call)
    (hrej : ((selAfter kind cs).apply c).2 ≠ .ok ()) (ds : List Call) :
    (∀ d, (selAfter kind (cs ++ c :: ds)).sample d = (selAfter kind (cs ++ ds)).sample d) ∧
    (∀ c', ((selAfter kind (cs ++ c :: ds)).apply c').2 = ((selAfter kind (cs ++ ds)).apply c').2) := by
  have hi := Sel.Inv.runFrom cs (Sel.Inv.make kind)
  have hsame := (hi.step c).2.2 hrej
  have hrun := Sel.Same.runFrom ds hi hsame
  have hi2 := Sel.Inv.runFrom ds hi
  have e1 : selAfter kind (cs ++ c :: ds) =
      runCalls Sel.apply ((selAfter kind cs).apply c).1 ds := by
    simp [selAfter, runCalls, List.foldl_append]
  have e2 : selAfter kind (cs ++ ds) = runCalls Sel.apply (selAfter kind cs) ds := by
    simp [selAfter, runCalls, List.foldl_append]
  rw [e1, e2]
  exact ⟨fun d => hrun.sample d, fun c' => (hrun.step hi2 c').2⟩

/-- C06: sampling an empty selector is fatal, sampling a non-empty one returns a present key. -/
theorem C06_sample_total (kind : SelKind) (cs : List Call) (d : Draw) :
    ((∀ k, Spec.book kind.accept cs k = none) → (selAfter kind cs).sample d = .died) ∧
    ((∃ k e, Spec.book kind.accept cs k = some e) →
      ∃ k e pr, (selAfter kind cs).sample d = .ok (k, pr) ∧ Spec.book kind.accept cs k = some e) := by
  obtain ⟨h1, h2⟩ := (Sel.Inv.runFrom cs (Sel.Inv.make kind)).sample d
  refine ⟨h1, ?_⟩
  rintro ⟨k, e, he⟩
  obtain ⟨k', pr, hs, hk'⟩ := h2 ⟨k, by
    show (Spec.book kind.accept cs k).isSome
    rw [he]; rfl⟩
  obtain ⟨e', he'⟩ := Option.isSome_iff_exists.mp hk'
  exact ⟨k', e', pr, hs, he'⟩

/-- Even if the sums in the tree were arbitrary numbers (for example because of rounding), the walk of
`Sample` with a non-negative target ends inside the tree, so the final check cannot fail. -/
theorem C05_walk_robust (s : Prio) (t : Rat) (ht : 0 ≤ t) (hn : s.n ≠ 0) :
    ∃ i r, s.walk 0 t = some (i, r) ∧ i < s.n := by
  suffices h : ∀ (i : Nat) (t : Rat), i < s.n → 0 ≤ t → ∃ j r, s.walk i t = some (j, r) ∧ j < s.n from
    h 0 t (by omega) ht
  intro i
  induction hm : s.n - i using Nat.strongRecOn generalizing i with
  | _ m ih =>
    intro t hi ht
    have hpos : ∀ j, 0 < s.nodeSum j → j < s.n := by
      intro j hj
      unfold Prio.nodeSum at hj
      split at hj
      · assumption
      · grind
    unfold Prio.walk
    by_cases h1 : t < s.nodeSum (2 * i + 1)
    · have hlt := hpos (2 * i + 1) (by grind)
      simp only [h1, hlt, if_true, dite_true]
      exact ih (s.n - (2 * i + 1)) (by omega) _ rfl t hlt ht
    · by_cases h2 : t - s.nodeSum (2 * i + 1) < s.nodeSum (2 * i + 2)
      · have hlt := hpos (2 * i + 2) (by grind)
        simp only [h1, h2, hlt, if_true, if_false, dite_true]
        exact ih (s.n - (2 * i + 2)) (by omega) _ rfl _ hlt (by grind)
      · simp only [h1, h2, if_false]
        exact ⟨i, _, rfl, hi⟩

/-! Rejected calls of each sort, on a reachable state. -/
example : ((selAfter (.prio powOne) demoPrio).apply (.insert 9 (.val 2))).2 = .err .invalidArgument := by
  decide +kernel
example : ((selAfter (.prio powOne) demoPrio).apply (.update 9 (.val (-2)))).2 = .err .invalidArgument := by
  decide +kernel
example : ((selAfter (.heap true) demoCalls).apply (.delete 77)).2 = .err .invalidArgument := by
  decide +kernel
example : ((selAfter .uniform demoCalls).apply (.insert 5 .nan)).2 = .err .invalidArgument := by
  decide +kernel

end Verif
