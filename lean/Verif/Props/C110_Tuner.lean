import Verif.Proofs.Tuner
/-
C110: how the automatic tuning of the chunk length decides.
-/
namespace Verif
namespace AutoTuned

/-- **C110 (partial).** Let `items` have been finalized since the options were made, and then one more, `refs`. The items since the last
scoring make up a round. While the round has less than ten items, or less than five chunks are in the buffer, the length stays. When it has
them the round is scored: its average chunk length and its cost are those of its ten newest items and of the five newest chunks.

- The first score makes the length grow by 2.
- A score whose average is more than 1/4 away from the current length is ignored.
- Any other score is compared with the score that is remembered. If the cost went down the length follows the average, and if it did not
  the length goes the other way: up by 2 or down by 1, within 1 and `num_keep_alive_refs`.

The remembered score is the score of an earlier round. What is missing: it need not be the one of the round before, see
`C110_compared_false`. -/
theorem C110_partial {keep : Int} (hk : 1 ≤ keep) (w : Rat) (d : Bool) {items : List (List ChunkObs)} {refs : List ChunkObs}
    (hi : ∀ r ∈ items ++ [refs], r ≠ []) (ho : Tuner.OneEach (items ++ [refs])) :
    ∃ a b, (new keep w d).after items = some a ∧ (new keep w d).after (items ++ [refs]) = some b ∧
      let round := Tuner.roundOf items ++ [refs]
      let s : Score := ⟨Tuner.length round, Tuner.cost w round⟩
      (¬ (10 ≤ round.length ∧ 5 ≤ (Tuner.chunkBuffer round).length) → b.maxLen = a.maxLen ∧ b.prev = a.prev) ∧
      (10 ≤ round.length → 5 ≤ (Tuner.chunkBuffer round).length →
        (a.prev = ⟨-1, -1⟩ → b.maxLen = min (a.maxLen + 2) keep ∧ b.prev = s) ∧
        (a.prev ≠ ⟨-1, -1⟩ → s.avgLength < a.maxLen - 1 / 4 ∨ a.maxLen + 1 / 4 < s.avgLength → b.maxLen = a.maxLen ∧ b.prev = a.prev) ∧
        (a.prev ≠ ⟨-1, -1⟩ → a.maxLen - 1 / 4 ≤ s.avgLength → s.avgLength ≤ a.maxLen + 1 / 4 →
          (s.cost < a.prev.cost → a.prev.avgLength < s.avgLength → b.maxLen = min (a.maxLen + 2) keep) ∧
          (s.cost < a.prev.cost → s.avgLength ≤ a.prev.avgLength → b.maxLen = max (a.maxLen - 1) 1) ∧
          (a.prev.cost ≤ s.cost → a.prev.avgLength < s.avgLength → b.maxLen = max (a.maxLen - 1) 1) ∧
          (a.prev.cost ≤ s.cost → s.avgLength ≤ a.prev.avgLength → b.maxLen = min (a.maxLen + 2) keep) ∧
          b.prev = if b.maxLen = a.maxLen then a.prev else s)) := by
  have hsub : ∀ r ∈ items, r ∈ items ++ [refs] := fun r hr => by simp [hr]
  obtain ⟨a, h1, h2, h3, h4, h5⟩ := after_holds keep w d _ items rfl (fun r hr => hi r (hsub r hr))
    (fun r hr r' hr' => ho r (hsub r hr) r' (hsub r' hr'))
  obtain ⟨a', w1, w2, _⟩ := after_wf (new_wf hk w d) (fun r hr => hi r (hsub r hr))
  rw [h1] at w1
  simp only [Option.some.injEq] at w1
  subst w1
  have hor : Tuner.OneEach (Tuner.roundOf items ++ [refs]) := by
    have look : ∀ r ∈ Tuner.roundOf items ++ [refs], r ∈ items ++ [refs] := by
      intro r hr
      simp only [List.mem_append] at hr ⊢
      rcases hr with hr | hr
      · exact .inl (Tuner.mem_roundOf _ items rfl hr)
      · exact .inr hr
    exact fun r hr r' hr' => ho r (look r hr) r' (look r' hr')
  obtain ⟨p, p1, p2, p3, p4, p5, p6⟩ := finalized_holds h2 (hi refs (by simp)) hor
  have hfull : Tuner.full (Tuner.roundOf items ++ [refs]) = true ↔
      10 ≤ (Tuner.roundOf items ++ [refs]).length ∧ 5 ≤ (Tuner.chunkBuffer (Tuner.roundOf items ++ [refs])).length := by
    simp only [Tuner.full, decide_eq_true_eq]
  have hprev : a.prev.avgLength = -1 ↔ a.prev = ⟨-1, -1⟩ := by
    constructor
    · intro h
      rcases h5 with ⟨g, _⟩ | ⟨pre, r, rest, g1, g2, g3⟩
      · exact g
      · have := Tuner.length_nonneg (Tuner.roundOf pre ++ [r])
        rw [g3] at h
        simp only [Tuner.scored] at h
        rw [h] at this
        exact absurd this (by decide)
    · intro h; rw [h]
  have k1 := w2.pos
  have k2 := w2.le
  rw [h3] at k2
  cases hf : Tuner.full (Tuner.roundOf items ++ [refs]) with
  | false =>
    obtain ⟨q1, q2⟩ := p5 hf
    refine ⟨a, p, h1, by rw [after_snoc, h1]; exact q2, fun _ => ⟨p1, p2⟩, fun g1 g2 => ?_⟩
    rw [hfull.mpr ⟨g1, g2⟩] at hf
    cases hf
  | true =>
    obtain ⟨q1, q2⟩ := p6 hf
    refine ⟨a, _, h1, by rw [after_snoc, h1]; exact q2, fun g => absurd (hfull.mp hf) g, fun g1 g2 => ?_⟩
    rw [h4]
    exact adjust_rule _ p1 (p3.trans h3) p2 k1 k2 hprev

/-- Before the first scoring there is no remembered score; afterwards it is the score of a round that was completed earlier. -/
theorem C110_remembered (keep : Int) (w : Rat) (d : Bool) {items : List (List ChunkObs)} (hi : ∀ r ∈ items, r ≠ []) (ho : Tuner.OneEach items) :
    ∃ a, (new keep w d).after items = some a ∧
      ((a.prev = ⟨-1, -1⟩ ∧ ∀ pre refs rest, items = pre ++ refs :: rest → Tuner.full (Tuner.roundOf pre ++ [refs]) = false) ∨
        ∃ pre refs rest, items = pre ++ refs :: rest ∧ Tuner.full (Tuner.roundOf pre ++ [refs]) = true ∧
          a.prev = ⟨Tuner.length (Tuner.roundOf pre ++ [refs]), Tuner.cost w (Tuner.roundOf pre ++ [refs])⟩) := by
  obtain ⟨a, h1, _, _, _, h5⟩ := after_holds keep w d _ items rfl hi ho
  exact ⟨a, h1, h5⟩

namespace TunerDemo

/-- An item of five chunks with the given lengths, each of `bytes` bytes; the keys begin with `1000 * tag`. -/
def item (tag bytes : Nat) (lengths : List Nat) : List ChunkObs := lengths.zipIdx.map fun p => ⟨1000 * tag + p.2, p.1, bytes⟩

/-- Ten items with short and costly chunks, and ten with cheap chunks of about three steps. -/
def rounds : List (List ChunkObs) := List.replicate 10 (item 1 100 [1, 1, 1, 1, 1]) ++ List.replicate 10 (item 2 30 [3, 3, 3, 3, 2])

/-- An item of the third round: slightly more costly chunks of three steps. -/
def third : List ChunkObs := item 3 60 [3, 3, 3, 3, 3]

end TunerDemo

open TunerDemo in
/-- The documentation (chunker.h:317-321) says a score is compared with the most recent score before it. With at most three steps, the first
round makes the length 3; the second is cheaper and its chunks are longer, but the length cannot grow; in the third the cost is higher
than in the second and the chunks are longer again, so the length should go down. It does not: the score of the second round was
forgotten because it did not change the length. -/
theorem C110_compared_false :
    Tuner.full (rounds.drop 10) = true ∧ Tuner.roundOf rounds = [] ∧ Tuner.full (List.replicate 10 third) = true ∧
      Tuner.length (rounds.drop 10) < Tuner.length (List.replicate 10 third) ∧
      Tuner.cost 1 (rounds.drop 10) < Tuner.cost 1 (List.replicate 10 third) ∧ Tuner.length (List.replicate 10 third) = 3 ∧
      ((new 3 1 false).after rounds).map AutoTuned.maxLen = some 3 ∧
      ((new 3 1 false).after (rounds ++ List.replicate 10 third)).map AutoTuned.maxLen = some 3 := by
  decide +kernel

open TunerDemo in
/-- The hypotheses hold for these items, and rounds are scored. -/
example : (∀ r ∈ rounds ++ [third], r ≠ []) ∧ Tuner.OneEach (rounds ++ [third]) ∧
    Tuner.roundOf (rounds ++ List.replicate 4 third) = List.replicate 4 third ∧
    Tuner.length (rounds.take 10) = 1 ∧ Tuner.length (rounds.drop 10) = 14 / 5 ∧ Tuner.cost 1 (rounds.drop 10) = 41 := by
  refine ⟨by decide +kernel, ?_, by decide +kernel, by decide +kernel, by decide +kernel, by decide +kernel⟩
  unfold Tuner.OneEach
  decide +kernel

end AutoTuned
end Verif
