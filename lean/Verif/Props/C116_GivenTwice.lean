import Verif.Proofs.GivenTwice
import Verif.Props.C114_FailedAppend
/-
C116: a column that is given twice in one step.
-/
namespace Verif
namespace TrajWriter
open Chunker (Row)

/-- In terms of the rows: an unfinished chunk of a column that was given in the present step, and only such a one, is in the way. -/
theorem taken_iff {w : TrajWriter} (hs : w.Started) {pre : List Event} (hv : ∀ e ∈ pre, e.Valid) (i : Nat) :
    ((w.run pre).Taken i → w.TriedInStep pre i ∧ (w.run pre).Unfinished i) ∧ (w.GivenInStep pre i → (w.run pre).Unfinished i → (w.run pre).Taken i) := by
  have hk := (newestIn hs i hv).past
  constructor
  · rintro ⟨c, x, h1, h2, h3, h4⟩
    obtain ⟨y, y1, y2, y3, y4, -⟩ := hk c h1 h2
    unfold Chunker.newest at y1
    rw [h3] at y1
    cases y1
    exact ⟨y4 (by have : ¬ x.step < (w.run pre).step := fun h => h4 ⟨y2, h⟩; omega), c, h1, h2⟩
  · rintro hg ⟨c, h1, h2⟩
    obtain ⟨y, y1, y2, y3, -, y5⟩ := hk c h1 h2
    have := y5 hg
    exact ⟨c, y, h1, h2, y1, fun h => by omega⟩

/-- **C116.** The parts of a step may be given in any number of calls: if no column of the data was given before in this step, then it is accepted, provided its
tensors are of the right types. This holds also for columns that are new, and whatever was created or flushed in between. -/
theorem C116_parts {w : TrajWriter} (hs : w.Started) {pre : List Event} (hv : ∀ e ∈ pre, e.Valid) (hu : (w.run pre).unrecoverable = none)
    {data : List (Option Tensor)} (hd : ∀ t, some t ∈ data → t.WF) (ht : ∀ i t, data[i]? = some (some t) → (w.run pre).Typed i t)
    (hnew : ∀ i t, data[i]? = some (some t) → ¬ w.TriedInStep pre i) (inc : Bool) : w.Accepts pre data inc := by
  rw [accepts_iff hs hv hu hd inc]
  exact fun i t hi => ⟨ht i t hi, fun h => hnew i t hi ((taken_iff hs hv i).1 h).1⟩

/-- **C116 (partial).** A column that was already given in this step is refused with `FailedPrecondition`, in `AppendPartial` as in `Append`, if it has an
unfinished chunk. What is missing: the columns whose chunk is finished, see `C116_finished` and `C116_is_false`. -/
theorem C116_twice_partial {w : TrajWriter} (hs : w.Started) {pre : List Event} (hv : ∀ e ∈ pre, e.Valid) (hu : (w.run pre).unrecoverable = none)
    {data : List (Option Tensor)} (hd : ∀ t, some t ∈ data → t.WF) (ht : ∀ i t, data[i]? = some (some t) → (w.run pre).Typed i t)
    {i : Nat} {t : Tensor} (hi : data[i]? = some (some t)) (hg : w.GivenInStep pre i) (hb : (w.run pre).Unfinished i) (inc : Bool) :
    w.replyAt pre (.append data inc) = .err .failedPrecondition := by
  obtain ⟨rows, P, hI, -⟩ := hs.inv.run (evs := pre) hv
  rcases append_exact hI.base hu hd inc with ⟨ha, -⟩ | ⟨-, m, n, code, e1, ⟨-, t', h1, h2⟩, -⟩
  · exact absurd ((taken_iff hs hv i).2 hg hb) (ha i t hi).2
  · unfold replyAt
    simp only [handle, e1, Reply.of, h2 (ht n t' h1)]

/-- **C116.** If the chunk is finished, the column may be given once more: the data is accepted if no column that was given before in this step has an unfinished
chunk. -/
theorem C116_finished {w : TrajWriter} (hs : w.Started) {pre : List Event} (hv : ∀ e ∈ pre, e.Valid) (hu : (w.run pre).unrecoverable = none)
    {data : List (Option Tensor)} (hd : ∀ t, some t ∈ data → t.WF) (ht : ∀ i t, data[i]? = some (some t) → (w.run pre).Typed i t)
    (hfin : ∀ i t, data[i]? = some (some t) → w.TriedInStep pre i → ¬ (w.run pre).Unfinished i) (inc : Bool) : w.Accepts pre data inc := by
  rw [accepts_iff hs hv hu hd inc]
  refine fun i t hi => ⟨ht i t hi, fun h => ?_⟩
  obtain ⟨h1, h2⟩ := (taken_iff hs hv i).1 h
  exact hfin i t hi h1 h2

/-- **C116.** With chunks of one row nothing is refused because of its step: any column can be given any number of times in a step. -/
theorem C116_chunks_of_one {w : TrajWriter} (hs : w.Started) {pre : List Event} (hv : ∀ e ∈ pre, e.Valid) (hu : (w.run pre).unrecoverable = none)
    {data : List (Option Tensor)} (hd : ∀ t, some t ∈ data → t.WF) (ht : ∀ i t, data[i]? = some (some t) → (w.run pre).Typed i t)
    (hone : ∀ i t, data[i]? = some (some t) → ∃ k d, w.asked i w.opts pre = .constant 1 k d) (inc : Bool) : w.Accepts pre data inc := by
  refine C116_finished hs hv hu hd ht (fun i t hi _ => ?_) inc
  rintro ⟨c, hc, hb⟩
  obtain ⟨k, d, ha⟩ := hone i t hi
  exact hb (one_finished hs i hv hc (C37_constant_partial hs pre hc ha))

namespace TwiceDemo
open TrajDemo

/-- The first column of the second step, in `AppendPartial`. -/
def part : List Event := [.append [some (row 5), some (row 6)] true, .append [some (row 7)] false]

theorem part_valid : ∀ e ∈ part, e.Valid := by
  intro e he
  simp only [part, List.mem_cons, List.not_mem_nil, or_false] at he
  rcases he with rfl | rfl <;> intro t ht <;> simp only [List.mem_cons, Option.some.injEq, List.not_mem_nil, or_false] at ht
  · rcases ht with rfl | rfl <;> exact PyWriter.PyDemo.row_wf _ (by decide)
  · subst ht; exact PyWriter.PyDemo.row_wf _ (by decide)

theorem given {o : ChunkerOpts} (h : (writer o).replyAt [.append [some (row 5), some (row 6)] true] (.append [some (row 7)] false) = .ok (.refs [some ⟨0, 1⟩])) :
    (writer o).GivenInStep part 0 := by
  refine ⟨[.append [some (row 5), some (row 6)] true], [some (row 7)], false, [], row 7, rfl, rfl, ⟨_, h⟩, ?_⟩
  intro a e b hab
  cases a with
  | nil => cases hab; exact id
  | cons x a =>
    cases a <;> cases hab

/-- The hypotheses of `C116_twice_partial` are met: with chunks of three rows, the first column is refused, and (`C116_parts`) the second one, which was not
given yet, is accepted. -/
theorem demo : (writer (.constant 3 4 false)).Started ∧ (∀ e ∈ part, e.Valid) ∧ ((writer (.constant 3 4 false)).run part).unrecoverable = none ∧
    (writer (.constant 3 4 false)).GivenInStep part 0 ∧ ((writer (.constant 3 4 false)).run part).Unfinished 0 ∧
    (writer (.constant 3 4 false)).replyAt part (.append [some (row 8)] true) = .err .failedPrecondition ∧
    ¬ (writer (.constant 3 4 false)).TriedInStep part 1 ∧
    (writer (.constant 3 4 false)).replyAt part (.append [none, some (row 8)] true) = .ok (.refs [none, some ⟨1, 1⟩]) := by
  refine ⟨started (by decide), part_valid, by decide, given (by decide), ?_, by decide, ?_, by decide⟩
  · have h : (((writer (.constant 3 4 false)).run part).chunkers.get? 0).map (fun c => c.buffer.length) = some 2 := by decide
    cases hc : ((writer (.constant 3 4 false)).run part).chunkers.get? 0 with
    | none => rw [hc] at h; cases h
    | some c => exact ⟨c, hc, fun hb => by rw [hc, Option.map_some, hb] at h; cases h⟩
  · rintro ⟨a, data, inc, b, t, hab, hd, hss⟩
    cases a with
    | nil =>
      cases hab
      exact hss [] _ _ rfl ⟨[some ⟨0, 0⟩, some ⟨1, 0⟩], by decide⟩
    | cons x a =>
      cases a with
      | nil => cases hab; cases hd
      | cons y a => cases a <;> cases hab

/-- C116 does not hold: with chunks of one row, the column that was given in `AppendPartial` is given again in the `Append` that ends the step, and this succeeds. There
are two rows now for one and the same step; the earlier one has not been replaced. With chunks of two rows it is the same if the
first of the two calls has filled the chunk. -/
theorem C116_is_false :
    (writer (.constant 1 4 false)).Started ∧ (writer (.constant 1 4 false)).GivenInStep part 0 ∧
    (writer (.constant 1 4 false)).replyAt part (.append [some (row 8)] true) = .ok (.refs [some ⟨0, 2⟩]) ∧
    (((writer (.constant 1 4 false)).run (part ++ [.append [some (row 8)] true])).chunkers.get? 0).map (fun c => c.cells.map fun x => (x.episode, x.step)) =
      some [(0, 0), (0, 1), (0, 1)] ∧
    (writer (.constant 2 4 false)).GivenInStep part 0 ∧
    (writer (.constant 2 4 false)).replyAt part (.append [some (row 8)] true) = .ok (.refs [some ⟨0, 2⟩]) :=
  ⟨started (by decide), given (by decide), by decide, by decide, given (by decide), by decide⟩

end TwiceDemo
end TrajWriter
end Verif
