import Verif.Proofs.FailedAppend
import Verif.Props.C37_Options
import Verif.Props.C82_C83_PyWriter
/-
C114: a call of `append` that fails.
-/
namespace Verif
namespace TrajWriter
open Chunker (Row)

theorem accepts_iff {w : TrajWriter} (hs : w.Started) {pre : List Event} (hv : ∀ e ∈ pre, e.Valid) (hu : (w.run pre).unrecoverable = none)
    {data : List (Option Tensor)} (hd : ∀ t, some t ∈ data → t.WF) (inc : Bool) : w.Accepts pre data inc ↔ (w.run pre).Acceptable data := by
  obtain ⟨rows, P, hI, -⟩ := hs.inv.run (evs := pre) hv
  unfold Accepts replyAt
  simp only [handle]
  rcases append_exact hI.base hu hd inc with ⟨ha, refs, hr, -⟩ | ⟨ha, m, n, code, e1, -⟩
  · rw [hr]
    exact ⟨fun _ => ha, fun _ => ⟨refs, rfl⟩⟩
  · rw [e1]
    exact ⟨fun ⟨_, h⟩ => (nomatch h), fun h => absurd h ha⟩

/-- **C114.** After any calls, `Append` accepts its data if and only if every tensor has the type and the shape of its column, and no column has got something in the
present step that is in an unfinished chunk. Otherwise the error is `InvalidArgument` or `FailedPrecondition`. -/
theorem C114_accepts {w : TrajWriter} (hs : w.Started) {pre : List Event} (hv : ∀ e ∈ pre, e.Valid) (hu : (w.run pre).unrecoverable = none)
    {data : List (Option Tensor)} (hd : ∀ t, some t ∈ data → t.WF) (inc : Bool) :
    (w.Accepts pre data inc ↔ (w.run pre).Acceptable data) ∧
    (¬ w.Accepts pre data inc → w.replyAt pre (.append data inc) = .err .invalidArgument ∨ w.replyAt pre (.append data inc) = .err .failedPrecondition) := by
  have h1 := accepts_iff hs hv hu hd inc
  refine ⟨h1, fun hn => ?_⟩
  obtain ⟨rows, P, hI, -⟩ := hs.inv.run (evs := pre) hv
  rcases append_exact hI.base hu hd inc with ⟨ha, -⟩ | ⟨-, m, n, code, e1, ⟨e2, -⟩, -⟩
  · exact absurd (h1.mpr ha) hn
  · unfold replyAt
    simp only [handle, e1, Reply.of]
    rcases e2 with rfl | rfl
    · exact .inl rfl
    · exact .inr rfl

/-- **C114 (partial).** A call of `Append` that fails changes nothing but columns: the items, the step, the episode and everything else are as before. There is a first
tensor that is refused; its column and all columns after it are as before, if they existed; but the columns before it have got their tensors. What is
missing: that those are as before, too, see `C114_is_false`. -/
theorem C114_failed_partial {w : TrajWriter} (hs : w.Started) {pre : List Event} (hv : ∀ e ∈ pre, e.Valid) (hu : (w.run pre).unrecoverable = none)
    {data : List (Option Tensor)} (hd : ∀ t, some t ∈ data → t.WF) {inc : Bool} (hf : ¬ w.Accepts pre data inc) :
    (∃ m, w.run (pre ++ [.append data inc]) = { w.run pre with chunkers := m }) ∧
    ∃ n t, data[n]? = some (some t) ∧ ¬ ((w.run pre).Typed n t ∧ ¬ (w.run pre).Taken n) ∧
      (∀ k c, (n ≤ k ∨ ∀ t', data[k]? ≠ some (some t')) → (w.run pre).chunkers.get? k = some c →
        (w.run (pre ++ [.append data inc])).chunkers.get? k = some c) ∧
      ∀ k t', k < n → data[k]? = some (some t') → (w.run (pre ++ [.append data inc])).count k = (w.run pre).count k + 1 := by
  have h1 := accepts_iff hs hv hu hd inc
  obtain ⟨rows, P, hI, -⟩ := hs.inv.run (evs := pre) hv
  rcases append_exact hI.base hu hd inc with ⟨ha, -⟩ | ⟨-, m, n, code, e1, -, hF⟩
  · exact absurd (h1.mpr ha) hf
  · have hrun : w.run (pre ++ [.append data inc]) = { w.run pre with chunkers := m } := by
      rw [run_append, run_cons]
      simp only [handle, e1]
      rfl
    rw [hrun]
    obtain ⟨t, b1, b2⟩ := hF.bad
    refine ⟨⟨m, rfl⟩, n, t, b1, b2, hF.same, fun k t' hk hd' => ?_⟩
    obtain ⟨c', g1, g2, -⟩ := hF.before k t' hk hd'
    simp [count, g1] at g2 ⊢
    exact g2

/-- **C114.** When can a failed call be repeated? Let data be such that it would have been accepted instead of the data that was refused; where a column is new, the failed
call must have had a tensor of the same type for it. It is accepted now if and only if none of its columns has got something by the failed call that
is in an unfinished chunk. -/
theorem C114_again {w : TrajWriter} (hs : w.Started) {pre : List Event} (hv : ∀ e ∈ pre, e.Valid) (hu : (w.run pre).unrecoverable = none)
    {data data' : List (Option Tensor)} (hd : ∀ t, some t ∈ data → t.WF) (hd' : ∀ t, some t ∈ data' → t.WF) {inc inc' : Bool}
    (hf : ¬ w.Accepts pre data inc) (hok : w.Accepts pre data' inc')
    (hnew : ∀ k t t', (w.run pre).chunkers.get? k = none → data[k]? = some (some t) → data'[k]? = some (some t') → t'.dtype = t.dtype ∧ t'.shape = t.shape) :
    w.Accepts (pre ++ [.append data inc]) data' inc' ↔
      ∀ k t', data'[k]? = some (some t') → (w.run pre).count k < (w.run (pre ++ [.append data inc])).count k →
        ∀ c, (w.run (pre ++ [.append data inc])).chunkers.get? k = some c → c.buffer = [] := by
  have h1 := accepts_iff hs hv hu hd inc
  have h2 := (accepts_iff hs hv hu hd' inc').mp hok
  obtain ⟨rows, P, hI, -⟩ := hs.inv.run (evs := pre) hv
  rcases append_exact hI.base hu hd inc with ⟨ha, -⟩ | ⟨-, m, n, code, e1, -, hF⟩
  · exact absurd (h1.mpr ha) hf
  · have hrun : w.run (pre ++ [.append data inc]) = { w.run pre with chunkers := m } := by
      rw [run_append, run_cons]
      simp only [handle, e1]
      rfl
    have hv' : ∀ e ∈ pre ++ [.append data inc], e.Valid := by
      intro e he
      rcases List.mem_append.mp he with he | he
      · exact hv e he
      · rw [List.mem_singleton] at he; subst he; exact hd
    rw [accepts_iff hs hv' (by rw [hrun]; exact hu) hd' inc', hrun]
    generalize w.run pre = W at *
    -- a column that the failed call has put a tensor into
    have hput : ∀ k t c, k < n → data[k]? = some (some t) → m.get? k = some c → W.count k < (TrajWriter.mk W.opts W.sig W.colGen W.gen W.drawn W.overrides m W.episode
        W.step W.queue W.inFlight W.unrecoverable W.closed W.phase W.streamed W.request W.msgs W.past).count k := by
      intro k t c hk hd hc
      obtain ⟨c', g1, g2, -⟩ := hF.before k t hk hd
      rw [hc] at g1
      cases g1
      have : (TrajWriter.mk W.opts W.sig W.colGen W.gen W.drawn W.overrides m W.episode W.step W.queue W.inFlight W.unrecoverable W.closed W.phase W.streamed
          W.request W.msgs W.past).count k = c.cells.length := by simp [count, hc]
      rw [this, g2]
      omega
    constructor
    · intro hacc k t' hk hcount c hc
      simp only at hc
      refine Classical.byContradiction fun hb => ?_
      by_cases hpos : n ≤ k ∨ ∀ t, data[k]? ≠ some (some t)
      · rcases hF.fresh k c hpos hc with h | ⟨-, h, -⟩
        · simp [count, hc, h] at hcount
        · exact hb h
      · obtain ⟨hlt, hgiven⟩ : k < n ∧ ∃ t, data[k]? = some (some t) := by
          refine ⟨Nat.lt_of_not_le fun h => hpos (.inl h), Classical.byContradiction fun h => hpos (.inr fun t ht => h ⟨t, ht⟩)⟩
        obtain ⟨t, ht⟩ := hgiven
        obtain ⟨c', g1, -, -, -, g5, -⟩ := hF.before k t hlt ht
        rw [hc] at g1
        cases g1
        obtain ⟨x, x1, x2, x3⟩ := g5 hb
        exact (hacc k t' hk).2 ⟨c, x, hc, hb, x1, fun h => by have := h.2; simp only at this; omega⟩
    · intro hall k t' hk
      obtain ⟨a1, a2⟩ := h2 k t' hk
      by_cases hpos : n ≤ k ∨ ∀ t, data[k]? ≠ some (some t)
      · constructor
        · intro c hc
          rcases hF.fresh k c hpos hc with h | ⟨h, -, -, t, h3, h4, h5⟩
          · exact a1 c h
          · obtain ⟨b1, b2⟩ := hnew k t t' h h3 hk
            exact ⟨b1.trans h4.symm, b2.trans h5.symm⟩
        · rintro ⟨c, x, hc, y1, y2, y3⟩
          rcases hF.fresh k c hpos hc with h | ⟨-, h, -⟩
          · exact a2 ⟨c, x, h, y1, y2, y3⟩
          · exact y1 h
      · obtain ⟨hlt, hgiven⟩ : k < n ∧ ∃ t, data[k]? = some (some t) := by
          refine ⟨Nat.lt_of_not_le fun h => hpos (.inl h), Classical.byContradiction fun h => hpos (.inr fun t ht => h ⟨t, ht⟩)⟩
        obtain ⟨t, ht⟩ := hgiven
        obtain ⟨c', g1, -, g3, g4, -⟩ := hF.before k t hlt ht
        constructor
        · intro c hc
          simp only at hc
          rw [hc] at g1
          cases g1
          cases hw : W.chunkers.get? k with
          | some c0 =>
            obtain ⟨b1, b2⟩ := g3 c0 hw
            obtain ⟨b3, b4⟩ := a1 c0 hw
            exact ⟨b3.trans b1.symm, b4.trans b2.symm⟩
          | none =>
            obtain ⟨b1, b2⟩ := g4 hw
            obtain ⟨b3, b4⟩ := hnew k t t' hw ht hk
            exact ⟨b3.trans b1.symm, b4.trans b2.symm⟩
        · rintro ⟨c, x, hc, y1, -⟩
          exact y1 (hall k t' hk (hput k t c hlt ht hc) c hc)

theorem asked_append {w : TrajWriter} {i : Nat} {o : ChunkerOpts} {data : List (Option Tensor)} {inc : Bool} : ∀ {evs : List Event},
    w.asked i o (evs ++ [.append data inc]) = w.asked i o evs := by
  intro evs
  induction evs generalizing w o with
  | nil => rfl
  | cons e evs ih => exact ih

/-- **C114 (partial).** With chunks of one step a failed call can always be repeated with right data. -/
theorem C114_chunks_of_one_partial {w : TrajWriter} (hs : w.Started) {pre : List Event} (hv : ∀ e ∈ pre, e.Valid) (hu : (w.run pre).unrecoverable = none)
    (hone : ∀ i, ∃ k d, w.asked i w.opts pre = .constant 1 k d)
    {data data' : List (Option Tensor)} (hd : ∀ t, some t ∈ data → t.WF) (hd' : ∀ t, some t ∈ data' → t.WF) {inc inc' : Bool}
    (hf : ¬ w.Accepts pre data inc) (hok : w.Accepts pre data' inc')
    (hnew : ∀ k t t', (w.run pre).chunkers.get? k = none → data[k]? = some (some t) → data'[k]? = some (some t') → t'.dtype = t.dtype ∧ t'.shape = t.shape) :
    w.Accepts (pre ++ [.append data inc]) data' inc' := by
  rw [C114_again hs hv hu hd hd' hf hok hnew]
  intro k t' hk hcount c hc
  obtain ⟨K, D, hask⟩ := hone k
  have hopts := C37_constant_partial hs (pre ++ [.append data inc]) hc (asked_append.trans hask)
  have h1 := accepts_iff hs hv hu hd inc
  obtain ⟨rows, P, hI, -⟩ := hs.inv.run (evs := pre) hv
  rcases append_exact hI.base hu hd inc with ⟨ha, -⟩ | ⟨-, m, n, code, e1, -, hF⟩
  · exact absurd (h1.mpr ha) hf
  · have hrun : w.run (pre ++ [.append data inc]) = { w.run pre with chunkers := m } := by
      rw [run_append, run_cons]
      simp only [handle, e1]
      rfl
    rw [hrun] at hc hcount
    simp only at hc
    by_cases hpos : n ≤ k ∨ ∀ t, data[k]? ≠ some (some t)
    · rcases hF.fresh k c hpos hc with h | ⟨-, h, -⟩
      · simp [count, hc, h] at hcount
      · exact h
    · obtain ⟨hlt, hgiven⟩ : k < n ∧ ∃ t, data[k]? = some (some t) := by
        refine ⟨Nat.lt_of_not_le fun h => hpos (.inl h), Classical.byContradiction fun h => hpos (.inr fun t ht => h ⟨t, ht⟩)⟩
      obtain ⟨t, ht⟩ := hgiven
      obtain ⟨c', g1, -, -, -, -, g6⟩ := hF.before k t hlt ht
      rw [hc] at g1
      cases g1
      exact g6 (by rw [hopts]; exact Int.le_refl _)

/-- **C114.** The writer is stuck: if the failed call has put something into an unfinished chunk of a column, then every later call that gives a tensor for this column
fails, whatever else is done, until `Flush` or `EndEpisode`. -/
theorem C114_stuck {w : TrajWriter} (hs : w.Started) {pre : List Event} (hv : ∀ e ∈ pre, e.Valid) (hu : (w.run pre).unrecoverable = none)
    {data : List (Option Tensor)} (hd : ∀ t, some t ∈ data → t.WF) {inc : Bool} (hf : ¬ w.Accepts pre data inc) {k : Nat}
    (hcount : (w.run pre).count k < (w.run (pre ++ [.append data inc])).count k) {c : Chunker}
    (hc : (w.run (pre ++ [.append data inc])).chunkers.get? k = some c) (hb : c.buffer ≠ [])
    {evs : List Event} (hev : ∀ e ∈ evs, e.Valid ∧ e.GoesOn k) {data' : List (Option Tensor)} (hd' : ∀ t, some t ∈ data' → t.WF) {t' : Tensor}
    (hk : data'[k]? = some (some t')) (inc' : Bool) : ¬ w.Accepts (pre ++ [.append data inc] ++ evs) data' inc' := by
  have hv1 : ∀ e ∈ pre ++ [.append data inc], e.Valid := by
    intro e he
    rcases List.mem_append.mp he with he | he
    · exact hv e he
    · rw [List.mem_singleton] at he; subst he; exact hd
  obtain ⟨rows1, P1, hI1, -⟩ := hs.inv.run (evs := pre ++ [.append data inc]) hv1
  have htaken : (w.run (pre ++ [.append data inc])).Taken k := by
    have h1 := accepts_iff hs hv hu hd inc
    obtain ⟨rows, P, hI, -⟩ := hs.inv.run (evs := pre) hv
    rcases append_exact hI.base hu hd inc with ⟨ha, -⟩ | ⟨-, m, n, code, e1, -, hF⟩
    · exact absurd (h1.mpr ha) hf
    · have hrun : w.run (pre ++ [.append data inc]) = { w.run pre with chunkers := m } := by
        rw [run_append, run_cons]
        simp only [handle, e1]
        rfl
      rw [hrun] at hc hcount ⊢
      simp only at hc
      by_cases hpos : n ≤ k ∨ ∀ t, data[k]? ≠ some (some t)
      · rcases hF.fresh k c hpos hc with h | ⟨-, h, -⟩
        · simp [count, hc, h] at hcount
        · exact absurd h hb
      · obtain ⟨hlt, hgiven⟩ : k < n ∧ ∃ t, data[k]? = some (some t) := by
          refine ⟨Nat.lt_of_not_le fun h => hpos (.inl h), Classical.byContradiction fun h => hpos (.inr fun t ht => h ⟨t, ht⟩)⟩
        obtain ⟨t, ht⟩ := hgiven
        obtain ⟨c', g1, -, -, -, g5, -⟩ := hF.before k t hlt ht
        rw [hc] at g1
        cases g1
        obtain ⟨x, x1, x2, x3⟩ := g5 hb
        exact ⟨c, x, hc, hb, x1, fun h => by have := h.2; simp only at this; omega⟩
  unfold Accepts replyAt
  rw [run_append]
  generalize w.run (pre ++ [.append data inc]) = W at *
  replace hI1 := hI1.base
  clear hcount hc hv1 hf hv hu
  induction evs generalizing W rows1 with
  | nil =>
    rintro ⟨refs, hr⟩
    simp only [run, List.foldl_nil, handle] at hr
    cases hu : W.unrecoverable with
    | some e =>
      have : W.append data' inc' = (W, .err e) := by simp [append, hu]
      rw [this] at hr
      cases hr
    | none =>
      rcases append_exact hI1 hu hd' inc' with ⟨ha, -⟩ | ⟨-, m, n, code, e1, -⟩
      · exact (ha k t' hk).2 htaken
      · rw [e1] at hr; cases hr
  | cons e evs ih =>
    rw [run_cons]
    obtain ⟨hve, hge⟩ := hev e List.mem_cons_self
    obtain ⟨rows2, hI2, -⟩ := handle_base hI1 hve
    exact ih (fun e he => hev e (List.mem_cons_of_mem _ he)) rows2 _ (htaken.handle hI1 hve hge) hI2

/-- **C114.** After `EndEpisode` everything of the right types is accepted again. -/
theorem C114_episode {w : TrajWriter} (hs : w.Started) {pre : List Event} (hv : ∀ e ∈ pre, e.Valid) {clear : Bool}
    (he : w.replyAt pre (.episodeEnd clear) = .ok .done) {data : List (Option Tensor)} (hd : ∀ t, some t ∈ data → t.WF) (inc : Bool) :
    w.Accepts (pre ++ [.episodeEnd clear]) data inc ↔ ∀ i t, data[i]? = some (some t) → (w.run (pre ++ [.episodeEnd clear])).Typed i t := by
  have hv1 : ∀ e ∈ pre ++ [.episodeEnd clear], e.Valid := by
    intro e he
    rcases List.mem_append.mp he with he | he
    · exact hv e he
    · rw [List.mem_singleton] at he; subst he; trivial
  have hrun : w.run (pre ++ [.episodeEnd clear]) = ((w.run pre).handle (.episodeEnd clear)).1 := by rw [run_append]; rfl
  have key : (w.run (pre ++ [.episodeEnd clear])).unrecoverable = none ∧
      ∀ i c, (w.run (pre ++ [.episodeEnd clear])).chunkers.get? i = some c → c.buffer = [] := by
    rw [hrun]
    unfold replyAt at he
    generalize w.run pre = W at *
    simp only [handle] at he ⊢
    cases hfr : W.flushResult 0 with
    | none => rw [hfr] at he; cases he
    | some r =>
      have hu : r = .ok () → W.unrecoverable = none := by
        intro hr
        unfold flushResult at hfr
        cases hx : W.unrecoverable with
        | none => rfl
        | some e => rw [hx, hr] at hfr; cases hfr
      rw [hfr] at he
      cases r with
      | err e => cases he
      | died => cases he
      | ok u =>
        simp only at he ⊢
        unfold endEpisode at he ⊢
        rcases hx : onAll (fun _ c => if clear then (c.reset, .ok ()) else c.flush) W.chunkers.keys W.chunkers with ⟨m, _ | _ | _⟩ <;> rw [hx] at he
        · refine ⟨hu rfl, fun i c hc => ?_⟩
          simp only at hc
          refine onAll_keep (P := fun c => c.buffer = []) ?_ _ _ _ i hx ?_ c hc
          · intro j d d' hd
            split at hd
            · cases hd; rfl
            · exact (Chunker.flush_one hd).2 rfl
          · cases hi : W.chunkers.get? i with
            | none =>
              have := onAll_none (fun _ c => if clear then (c.reset, .ok ()) else c.flush) W.chunkers.keys hi
              rw [hx] at this
              simp only at this
              rw [this] at hc
              cases hc
            | some d => exact .inl ((AMap.mem_keys_iff _ _).mpr (by rw [hi]; rfl))
        · cases he
        · cases he
  rw [accepts_iff hs hv1 key.1 hd inc]
  constructor
  · exact fun h i t hi => (h i t hi).1
  · exact fun h i t hi => ⟨h i t hi, fun ⟨c, _, hc, hb, _⟩ => hb (key.2 i c hc)⟩

namespace FailDemo
open TrajDemo

/-- A tensor of another type. -/
def wrong : Tensor := ⟨.int64, [1], [8]⟩

/-- One good step, a step whose second field has the wrong type, and the same step with the right one. -/
def first : List Event := [.append [some (row 5), some (row 6)] true]
def bad : List (Option Tensor) := [some (row 7), some wrong]
def right : List (Option Tensor) := [some (row 7), some (row 8)]

/-- The hypotheses of `C114_accepts`, `C114_failed_partial`, `C114_again` and `C114_stuck` are met with chunks of three steps; the first column has got its
tensor, and the right data is refused. -/
theorem demo : (writer (.constant 3 4 false)).Started ∧ (∀ e ∈ first, e.Valid) ∧ (∀ t, some t ∈ bad → t.WF) ∧ (∀ t, some t ∈ right → t.WF) ∧
    ((writer (.constant 3 4 false)).run first).unrecoverable = none ∧
    (writer (.constant 3 4 false)).replyAt first (.append bad true) = .err .invalidArgument ∧
    (writer (.constant 3 4 false)).replyAt first (.append right true) = .ok (.refs [some ⟨0, 1⟩, some ⟨1, 1⟩]) ∧
    ((writer (.constant 3 4 false)).run first).count 0 = 1 ∧ ((writer (.constant 3 4 false)).run (first ++ [.append bad true])).count 0 = 2 ∧
    (((writer (.constant 3 4 false)).run (first ++ [.append bad true])).chunkers.get? 0).map (fun c => c.buffer.length) = some 2 ∧
    (writer (.constant 3 4 false)).replyAt (first ++ [.append bad true]) (.append right true) = .err .failedPrecondition := by
  have hw : wrong.WF := ⟨rfl, fun w hw x hx => by simp [wrong, DType.bits] at hw hx; subst hw hx; decide⟩
  refine ⟨started (by decide), ?_, ?_, ?_, by decide, by decide, by decide, by decide, by decide, by decide, by decide⟩
  · intro e he
    simp only [first, List.mem_singleton] at he
    subst he
    intro t ht
    simp only [List.mem_cons, Option.some.injEq, List.not_mem_nil, or_false] at ht
    rcases ht with rfl | rfl
    · exact PyWriter.PyDemo.row_wf _ (by decide)
    · exact PyWriter.PyDemo.row_wf _ (by decide)
  · intro t ht
    simp only [bad, List.mem_cons, Option.some.injEq, List.not_mem_nil, or_false] at ht
    rcases ht with rfl | rfl
    · exact PyWriter.PyDemo.row_wf _ (by decide)
    · exact hw
  · intro t ht
    simp only [right, List.mem_cons, Option.some.injEq, List.not_mem_nil, or_false] at ht
    rcases ht with rfl | rfl
    · exact PyWriter.PyDemo.row_wf _ (by decide)
    · exact PyWriter.PyDemo.row_wf _ (by decide)

/-- With chunks of one step (`C114_chunks_of_one_partial`) the right data is accepted; the first column has got one tensor more than there were steps. -/
theorem demo_one : (writer (.constant 1 4 false)).Started ∧ (∀ i, (writer (.constant 1 4 false)).asked i (.constant 1 4 false) first = .constant 1 4 false) ∧
    (writer (.constant 1 4 false)).replyAt first (.append bad true) = .err .invalidArgument ∧
    (writer (.constant 1 4 false)).replyAt (first ++ [.append bad true]) (.append right true) = .ok (.refs [some ⟨0, 2⟩, some ⟨1, 1⟩]) :=
  ⟨started (by decide), fun _ => rfl, by decide, by decide⟩

/-- That of `C114_episode`: the writer of `demo` can be used again. -/
theorem demo_episode : (writer (.constant 3 4 false)).replyAt (first ++ [.append bad true]) (.episodeEnd true) = .ok .done ∧
    (writer (.constant 3 4 false)).replyAt (first ++ [.append bad true, .episodeEnd true]) (.append right true) = .ok (.refs [some ⟨0, 2⟩, some ⟨1, 1⟩]) := by
  refine ⟨by decide, by decide⟩

end FailDemo
end TrajWriter

namespace PyWriter
namespace PyDemo
open TrajWriter.TrajDemo (writer row)
open TrajWriter.FailDemo (wrong)

/-- A new writer: chunks of 3 steps, 4 references are kept. -/
def py3 : PyWriter := .new (writer (.constant 3 4 false))

/-- One good step, and a step with a field of the wrong type. -/
def good1 : PyWriter := (py3.append (two 5 6) false).1
def failed : PyWriter := (good1.append (.dict [("b", .leaf (some wrong)), ("a", .leaf (some (row 7)))]) false).1

end PyDemo
open PyDemo

/-- C114 does not hold: the caller of the Python writer gives a field of the wrong type, which is refused. The history shows one step as before. But the same step with the
right types is refused, too, because of the field that was right in the first place; before the mistake it was accepted. -/
theorem C114_is_false :
    (good1.append (.dict [("b", .leaf (some TrajWriter.FailDemo.wrong)), ("a", .leaf (some (TrajWriter.TrajDemo.row 7)))]) false).2 =
      .raised (.status .invalidArgument) ∧
    failed.history = good1.history ∧ failed.episodeSteps = 1 ∧
    (good1.append (two 7 8) false).2 = .ok () ∧ (failed.append (two 7 8) false).2 = .raised (.status .failedPrecondition) := by
  refine ⟨by decide +kernel, by decide +kernel, by decide +kernel, by decide +kernel, by decide +kernel⟩

end PyWriter
end Verif
