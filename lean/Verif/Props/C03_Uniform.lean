import Verif.Proofs.Uniform
import Verif.Props.C01_C02_ListSel
/-
C03: the uniform selector.
-/
namespace Verif
open Spec (Call)

/-- The uniform selector after a history of calls. -/
def uniformAfter (cs : List Call) : Uniform := runCalls Uniform.apply Uniform.init cs

/-- The number of keys the selector believes to have, which is the range of its random draws. -/
def uniformSize (cs : List Call) : Nat := (uniformAfter cs).keys.length

/-- C03: the draws are exactly the indices below `n`, each draw returns a present key together with
probability `1/n`, and every present key is returned by exactly one draw. -/
theorem C03_uniform_sample (cs : List Call) :
    (∀ i, i < uniformSize cs → ∃ k e, Spec.book Spec.acceptAll cs k = some e ∧
        (uniformAfter cs).sampleAt i = .ok (k, 1 / (uniformSize cs : Rat))) ∧
    (∀ k e, Spec.book Spec.acceptAll cs k = some e →
        ∃ i, i < uniformSize cs ∧
          (uniformAfter cs).sampleAt i = .ok (k, 1 / (uniformSize cs : Rat)) ∧
          ∀ j pr, (uniformAfter cs).sampleAt j = .ok (k, pr) → j = i) := by
  have h : Uniform.R (uniformAfter cs) (Spec.book Spec.acceptAll cs) :=
    Uniform.R.runFrom cs Uniform.R.init
  unfold uniformSize
  generalize uniformAfter cs = s at *
  constructor
  · intro i hi
    have hm : s.keys[i] ∈ s.keys := List.getElem_mem hi
    obtain ⟨e, he⟩ := Option.isSome_iff_exists.mp ((h.present _).mp hm)
    exact ⟨s.keys[i], e, he, by simp [Uniform.sampleAt, hi]⟩
  · intro k e he
    have hm : k ∈ s.keys := (h.present k).mpr (by simp [he])
    obtain ⟨i, hi, hik⟩ := List.mem_iff_getElem.mp hm
    refine ⟨i, hi, by simp [Uniform.sampleAt, hi, hik], ?_⟩
    intro j pr hj
    unfold Uniform.sampleAt at hj
    split at hj
    · simp at hj
    · rename_i k' hk'
      simp only [Res.ok.injEq, Prod.mk.injEq] at hj
      have h1 := (h.wf k j).mpr (by rw [hk', hj.1])
      have h2 := (h.wf k i).mpr (by simp [hi, hik])
      rw [h1] at h2; simpa using h2

/-- C03: the number of draws equals the number of present keys: the keys are listed without
repetition by `l`. -/
theorem C03_uniform_size (cs : List Call) :
    ∃ l : List Key, l.Nodup ∧ l.length = uniformSize cs ∧
      ∀ k, k ∈ l ↔ ∃ e, Spec.book Spec.acceptAll cs k = some e := by
  have h : Uniform.R (uniformAfter cs) (Spec.book Spec.acceptAll cs) :=
    Uniform.R.runFrom cs Uniform.R.init
  refine ⟨(uniformAfter cs).keys, h.wf.nodup, rfl, ?_⟩
  intro k
  rw [h.present, Option.isSome_iff_exists]

example : uniformSize demoCalls = 3 := by decide +kernel
example : (uniformAfter demoCalls).sampleAt 0 = .ok (9, 1/3) := by decide +kernel
example : (uniformAfter demoCalls).sampleAt 2 = .ok (5, 1/3) := by decide +kernel

end Verif
