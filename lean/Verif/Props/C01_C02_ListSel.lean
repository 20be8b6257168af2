import Verif.Proofs.ListSel
/-
C01 and C02: FIFO and LIFO selectors. `Spec.book` says, from the history of calls alone, which keys
are present and since when.
-/
namespace Verif
open Spec (Call)

/-- The FIFO selector after a history of calls. -/
def fifoAfter (cs : List Call) : ListSel := runCalls ListSel.applyFifo ListSel.init cs

/-- The LIFO selector after a history of calls. -/
def lifoAfter (cs : List Call) : ListSel := runCalls ListSel.applyLifo ListSel.init cs

theorem fifoAfter_R (cs : List Call) :
    ListSel.R true (fifoAfter cs) (Spec.book Spec.acceptAll cs) cs.length := by
  have h := ListSel.R.runFrom cs (ListSel.R.init true)
  have e : ListSel.applyDir true = ListSel.applyFifo := by
    funext s c; simp [ListSel.applyDir]
  rw [e] at h
  simpa [Spec.book, fifoAfter, lifoAfter] using h

theorem lifoAfter_R (cs : List Call) :
    ListSel.R false (lifoAfter cs) (Spec.book Spec.acceptAll cs) cs.length := by
  have h := ListSel.R.runFrom cs (ListSel.R.init false)
  have e : ListSel.applyDir false = ListSel.applyLifo := by
    funext s c; simp [ListSel.applyDir]
  rw [e] at h
  simpa [Spec.book, fifoAfter, lifoAfter] using h

/-- C01: after any history, `Sample` of the FIFO selector returns `(k, pr)` exactly if `pr = 1`, `k` is
present and every other present key was inserted later. -/
theorem C01_fifo_sample (cs : List Call) (k : Key) (pr : Rat) :
    (fifoAfter cs).sample = .ok (k, pr) ↔
      pr = 1 ∧ ∃ e, Spec.book Spec.acceptAll cs k = some e ∧
        ∀ k' e', Spec.book Spec.acceptAll cs k' = some e' → k' ≠ k → e.since < e'.since := by
  simpa using (fifoAfter_R cs).sample_iff k pr

/-- C01: sampling is fatal exactly when no key is present (so some key is always returned
otherwise). -/
theorem C01_fifo_sample_total (cs : List Call) :
    (∃ k, (fifoAfter cs).sample = .ok (k, 1)) ↔ ∃ k e, Spec.book Spec.acceptAll cs k = some e := by
  have hd := (fifoAfter_R cs).sample_died
  constructor
  · rintro ⟨k, hk⟩
    obtain ⟨_, e, he, _⟩ := (C01_fifo_sample cs k 1).mp hk
    exact ⟨k, e, he⟩
  · rintro ⟨k, e, he⟩
    cases hs : (fifoAfter cs).sample with
    | ok r =>
      obtain ⟨k', pr⟩ := r
      have := ((C01_fifo_sample cs k' pr).mp hs).1
      subst this
      exact ⟨k', rfl⟩
    | err c => unfold ListSel.sample at hs; split at hs <;> simp at hs
    | died => rw [hd.mp hs k] at he; simp at he

/-- C02: after any history, `Sample` of the LIFO selector returns `(k, pr)` exactly if `pr = 1`, `k` is
present and every other present key was inserted earlier. -/
theorem C02_lifo_sample (cs : List Call) (k : Key) (pr : Rat) :
    (lifoAfter cs).sample = .ok (k, pr) ↔
      pr = 1 ∧ ∃ e, Spec.book Spec.acceptAll cs k = some e ∧
        ∀ k' e', Spec.book Spec.acceptAll cs k' = some e' → k' ≠ k → e'.since < e.since := by
  simpa using (lifoAfter_R cs).sample_iff k pr

/-- C02: sampling succeeds exactly when some key is present. -/
theorem C02_lifo_sample_total (cs : List Call) :
    (∃ k, (lifoAfter cs).sample = .ok (k, 1)) ↔ ∃ k e, Spec.book Spec.acceptAll cs k = some e := by
  have hd := (lifoAfter_R cs).sample_died
  constructor
  · rintro ⟨k, hk⟩
    obtain ⟨_, e, he, _⟩ := (C02_lifo_sample cs k 1).mp hk
    exact ⟨k, e, he⟩
  · rintro ⟨k, e, he⟩
    cases hs : (lifoAfter cs).sample with
    | ok r =>
      obtain ⟨k', pr⟩ := r
      have := ((C02_lifo_sample cs k' pr).mp hs).1
      subst this
      exact ⟨k', rfl⟩
    | err c => unfold ListSel.sample at hs; split at hs <;> simp at hs
    | died => rw [hd.mp hs k] at he; simp at he

/-- A history with a rejected duplicate, an update and a deletion in the middle. -/
def demoCalls : List Call :=
  [.insert 5 (.val 1), .insert 7 (.val 2), .insert 5 (.val 3), .insert 9 (.val 0),
   .update 7 (.val 8), .delete 5, .insert 5 (.val 4)]

example : (fifoAfter demoCalls).sample = .ok (7, 1) := by decide +kernel
example : (lifoAfter demoCalls).sample = .ok (5, 1) := by decide +kernel
example : (Spec.book Spec.acceptAll demoCalls 7) = some ⟨1, .val 8, 4⟩ := by decide +kernel

end Verif
