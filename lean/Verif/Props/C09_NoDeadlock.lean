import Verif.Model.PyLimiters
/-
C09: limiters accepted by the Python constructors never block inserts and samples at the same time.
-/
namespace Verif
open Py

/-- A limiter with the same parameters and arbitrary counters. -/
def Limiter.atCounts (l : Limiter) (inserts samples deletes : Int) : Limiter :=
  { l with inserts := inserts, samples := samples, deletes := deletes }

/-- Neither an insert nor a sample is allowed. -/
def Limiter.Stuck (l : Limiter) : Prop := l.canInsert 1 = false ∧ l.canSample 1 = false

/-- What being stuck means in numbers. -/
theorem Limiter.stuck_iff (l : Limiter) : l.Stuck ↔
    l.minSize ≤ l.inserts - l.deletes ∧
    l.maxDiff < ((l.inserts + 1 : Int) : Rat) * l.spi - l.samples ∧
    (l.inserts : Rat) * l.spi - l.samples - 1 < l.minDiff := by
  unfold Limiter.Stuck Limiter.canInsert Limiter.canSample
  by_cases h1 : l.inserts + 1 - l.deletes ≤ l.minSize
  · have : ¬ (l.minSize ≤ l.inserts - l.deletes) := by omega
    simp [h1, this]
  · have h2 : ¬ (l.inserts - l.deletes < l.minSize) := by omega
    have h3 : l.minSize ≤ l.inserts - l.deletes := by omega
    simp only [h1, h2, h3, if_false, decide_eq_false_iff_not, true_and, Rat.not_le]
    rw [show (1 : Int) + l.inserts = l.inserts + 1 by omega]
    simp

theorem ratio_accepted {spi : Rat} {n : Int} {b : Buffer} {l : Limiter}
    (hl : sampleToInsertRatio spi n b = some l) :
    2 * (if spi ≤ 1 then 1 else spi) ≤ (b.range? spi n).2 - (b.range? spi n).1 ∧
    l = ⟨spi, n, (b.range? spi n).1, (b.range? spi n).2, 0, 0, 0, false⟩ := by
  unfold sampleToInsertRatio at hl
  simp only [] at hl
  by_cases h1 : (b.range? spi n).2 - (b.range? spi n).1 < 2 * (if spi ≤ 1 then 1 else spi)
  · rw [if_pos h1] at hl; simp at hl
  · rw [if_neg h1] at hl
    refine ⟨Rat.not_lt.mp h1, ?_⟩
    by_cases h2 : spi * n < (b.range? spi n).1
    · rw [if_pos h2] at hl; simp at hl
    · rw [if_neg h2] at hl
      by_cases h3 : n < 1
      · rw [if_pos h3] at hl; simp at hl
      · rw [if_neg h3] at hl; simpa [eq_comm] using hl

/-- C09 for `SampleToInsertRatio`. -/
theorem C09_ratio_never_stuck (spi : Rat) (n : Int) (b : Buffer) (l : Limiter)
    (hl : sampleToInsertRatio spi n b = some l) (ins smp del : Int) : ¬ (l.atCounts ins smp del).Stuck := by
  obtain ⟨h, rfl⟩ := ratio_accepted hl
  rw [Limiter.stuck_iff]
  simp only [Limiter.atCounts, Rat.intCast_add]
  split at h <;> grind

/-- C09 for `MinSize`. -/
theorem C09_minSize_never_stuck (n : Int) (l : Limiter) (hl : minSize n = some l) (ins smp del : Int) : ¬ (l.atCounts ins smp del).Stuck := by
  unfold minSize at hl
  split at hl
  · simp at hl
  · cases hl
    rw [Limiter.stuck_iff]
    simp only [Limiter.atCounts, Rat.intCast_add]
    rintro ⟨_, h, h'⟩
    have h3 : (1 : Rat) < floatMax := by decide +kernel
    have h4 : (((1 : Int)) : Rat) = 1 := rfl
    grind

/-- C09 for `Queue`. -/
theorem C09_queue_never_stuck (size : Int) (hsize : 1 ≤ size) (l : Limiter) (hl : queue size = some l)
    (ins smp del : Int) : ¬ (l.atCounts ins smp del).Stuck := by
  cases hl
  rw [Limiter.stuck_iff]
  simp only [Limiter.atCounts, Rat.intCast_add]
  rintro ⟨_, h1, h2⟩
  have h3 : ((ins - smp - 1 : Int) : Rat) < ((0 : Int) : Rat) := by
    simp only [Rat.intCast_sub]; grind
  have h4 : ((size : Int) : Rat) < ((ins + 1 - smp : Int) : Rat) := by
    simp only [Rat.intCast_sub, Rat.intCast_add]; grind
  have h5 := Rat.intCast_lt_intCast.mp h3
  have h6 := Rat.intCast_lt_intCast.mp h4
  omega

/-- C09 for `Stack`. -/
theorem C09_stack_never_stuck (size : Int) (hsize : 1 ≤ size) (l : Limiter) (hl : stack size = some l)
    (ins smp del : Int) : ¬ (l.atCounts ins smp del).Stuck :=
  C09_queue_never_stuck size hsize l hl ins smp del

/-- What the Python constructors accept, the constructor of `RateLimiter` accepts: no check fails, and the limiter is the one described. -/
theorem C09_constructible (l : Limiter) (h : (∃ n, minSize n = some l) ∨ (∃ spi n b, sampleToInsertRatio spi n b = some l) ∨
    (∃ size, queue size = some l) ∨ ∃ size, stack size = some l) :
    Limiter.make l.spi l.minSize l.minDiff l.maxDiff = .ok l := by
  rcases h with ⟨n, h⟩ | ⟨spi, n, b, h⟩ | ⟨size, h⟩ | ⟨size, h⟩
  · unfold minSize at h
    split at h
    · cases h
    · cases h
      simp only [Limiter.make]
      rw [if_pos (by omega)]
  · unfold sampleToInsertRatio at h
    simp only at h
    generalize (if spi ≤ 1 then (1 : Rat) else spi) = m at h
    split at h
    · cases h
    · split at h
      · cases h
      · split at h
        · cases h
        · cases h
          simp only [Limiter.make]
          rw [if_pos (by omega)]
  · cases h
    rfl
  · cases h
    rfl

/-- `MinSize` accepts every size that is at least 1. -/
theorem C09_minSize_accepts (n : Int) : (∃ l, minSize n = some l) ↔ 1 ≤ n := by
  unfold minSize
  constructor
  · rintro ⟨l, h⟩
    split at h
    · cases h
    · omega
  · intro h
    exact ⟨_, by rw [if_neg (by omega)]⟩

/-- `SampleToInsertRatio` with a number as error buffer accepts it if it is at least 1 and at least the number of samples per insert, and the
minimum size is at least 1. -/
theorem C09_ratio_accepts (spi b : Rat) (n : Int) : (∃ l, sampleToInsertRatio spi n (.number b) = some l) ↔ 1 ≤ b ∧ spi ≤ b ∧ 1 ≤ n := by
  unfold sampleToInsertRatio Buffer.range?
  simp only
  generalize spi * (n : Rat) = m
  have e : (m + b - (m - b) < 2 * (if spi ≤ 1 then 1 else spi)) ↔ ¬ (1 ≤ b ∧ spi ≤ b) := by
    split <;> grind
  generalize (if spi ≤ 1 then (1 : Rat) else spi) = q at e ⊢
  constructor
  · rintro ⟨l, h⟩
    split at h
    · cases h
    · rename_i h1
      rw [e] at h1
      have h1 := Classical.not_not.mp h1
      split at h
      · cases h
      · split at h
        · cases h
        · exact ⟨h1.1, h1.2, by omega⟩
  · rintro ⟨h1, h2, h3⟩
    exact ⟨_, by rw [if_neg (fun h => (e.mp h) ⟨h1, h2⟩), if_neg (by grind), if_neg (by omega)]⟩

/-- Accepted and refused. -/
example : (minSize 1).isSome ∧ minSize 0 = none ∧ (sampleToInsertRatio 4 10 (.number 4)).isSome ∧
    sampleToInsertRatio 4 10 (.number 3) = none ∧ sampleToInsertRatio 4 0 (.number 4) = none := by decide +kernel

/-- A configuration that can be stuck is rejected by the constructor. -/
theorem C09_stuck_rejected (spi : Rat) (n : Int) (b : Buffer) (ins smp del : Int)
    (h : ({ spi := spi, minSize := n, minDiff := (b.range? spi n).1, maxDiff := (b.range? spi n).2,
            inserts := ins, samples := smp, deletes := del, cancelled := false } : Limiter).Stuck) :
    sampleToInsertRatio spi n b = none := by
  cases hl : sampleToInsertRatio spi n b with
  | none => rfl
  | some l =>
    refine absurd ?_ (C09_ratio_never_stuck spi n b l hl ins smp del)
    obtain ⟨_, rfl⟩ := ratio_accepted hl
    exact h

/-! Accepted configurations, with a state in which one side is blocked; and a rejected one that can be
stuck. The size hypothesis of `C09_queue_never_stuck` is needed: `Queue(0)` is accepted and can be
stuck (`Table.queue` rejects it). -/
example : ∃ l, sampleToInsertRatio (3/2) 10 (.number 3) = some l ∧
    (l.atCounts 12 0 0).canInsert 1 = false ∧ (l.atCounts 12 0 0).canSample 1 = true ∧
    (l.atCounts 12 6 0).canInsert 1 = true ∧ (l.atCounts 12 6 0).canSample 1 = false :=
  ⟨⟨3/2, 10, 12, 18, 0, 0, 0, false⟩, by decide +kernel⟩
example : ∃ l, minSize 2 = some l ∧ (l.atCounts 1 0 0).canSample 1 = false ∧ (l.atCounts 9 50 0).canSample 1 = true :=
  ⟨⟨1, 2, -floatMax, floatMax, 0, 0, 0, false⟩, by decide +kernel⟩
example : ∃ l, queue 2 = some l ∧ (l.atCounts 7 5 5).canInsert 1 = false ∧ (l.atCounts 7 7 7).canSample 1 = false :=
  ⟨⟨1, 1, 0, 2, 0, 0, 0, false⟩, by decide +kernel⟩
example : sampleToInsertRatio 2 1 (.range 2 3) = none ∧
    (⟨2, 1, 2, 3, 2, 2, 0, false⟩ : Limiter).canInsert 1 = false ∧
    (⟨2, 1, 2, 3, 2, 2, 0, false⟩ : Limiter).canSample 1 = false := by decide +kernel
example : ∃ l, queue 0 = some l ∧ (l.atCounts 1 1 0).canInsert 1 = false ∧ (l.atCounts 1 1 0).canSample 1 = false :=
  ⟨⟨1, 1, 0, 0, 0, 0, 0, false⟩, by decide +kernel⟩

end Verif
