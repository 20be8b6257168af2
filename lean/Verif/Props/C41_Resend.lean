import Verif.Proofs.TrajDrain
import Verif.Props.TrajDemo
import Verif.Props.C38_C40_TrajStreams
/-
C41: are the items that are not confirmed sent again after a transient failure of the stream?
-/
namespace Verif
namespace TrajWriter

/-- C41 fails: at the beginning of a new stream, let `k` be the key of an item that is in flight (written, but not confirmed) and no longer
in the queue. Whatever happens afterwards, if the server confirms only items that it was sent on the current stream, then the item is
written to no later stream, and `Flush(0)` does not succeed. -/
theorem C41_lost {w : TrajWriter} (hs : w.Started) {evs : List Event} (hv : ∀ e ∈ evs, e.Valid) (hp : (w.run evs).phase = .start)
    {k : Key} (hc : k ∈ w.created evs) (hf : k ∈ (w.run evs).inFlight) (hq : k ∉ (w.run evs).queue.map WItem.key)
    {more : List Event} (hv' : ∀ e ∈ more, e.Valid) (hh : (w.run evs).Honest more) :
    (∀ s ∈ ((w.run (evs ++ more)).streams).drop (w.run evs).past.length, k ∉ itemKeys s) ∧
      w.replyAt (evs ++ more) (.flushEnd 0) ≠ .ok .done := by
  obtain ⟨rows, P, hi⟩ := hs.run hv
  have hmsgs : (w.run evs).msgs = [] := by
    have := hi.q.phase
    unfold PhaseOK at this
    rw [hp] at this
    exact this
  have hl : (w.run evs).Lost k (w.run evs).past.length :=
    ⟨hf, hq, by rw [hmsgs]; simp [itemKeys, itemsOf], Nat.le_refl _, by simp⟩
  have hl' := hl.run hi (by rw [added_keys]; exact hc) hv' hh
  rw [← run_append] at hl'
  refine ⟨fun s hs => ?_, fun hd => ?_⟩
  · unfold streams at hs
    rw [List.drop_append_of_le_length hl'.le] at hs
    rcases List.mem_append.mp hs with hs | hs
    · exact hl'.past s hs
    · simp only [List.mem_singleton] at hs
      subst hs
      exact hl'.stream
  · unfold replyAt TrajWriter.handle flushResult at hd
    cases hu : (w.run (evs ++ more)).unrecoverable with
    | some e => simp [hu, Reply.of] at hd
    | none =>
      simp only [hu] at hd
      by_cases hn : (w.run (evs ++ more)).numPending ≤ 0
      · have := (pending_zero hn).2
        have hx := hl'.flying
        rw [this] at hx
        cases hx
      · simp [hn] at hd

/-- C41, what is true: an item that was not successfully written is still in the queue, in particular one whose `Write` failed. -/
theorem C41_unwritten_partial {w : TrajWriter} (hs : w.Started) {evs : List Event} (hv : ∀ e ∈ evs, e.Valid) {k : Key} (hc : k ∈ w.created evs)
    (hw : k ∉ w.written evs) : k ∈ (w.run evs).queue.map WItem.key := by
  have hu : w.Unwritten [] [] := ⟨by simp, fun hp it hit => by
    have hn := hs.inv.q.phase
    unfold PhaseOK at hn
    rw [hp] at hn
    obtain ⟨x, hx, _⟩ := hn
    have := hs.inv.q.split
    simp only [List.nil_append] at this
    rw [← this] at hx
    cases hx⟩
  have := hu.run hs.inv hv
  simp only [List.nil_append] at this
  rw [← added_keys] at hc
  obtain ⟨it, h1, rfl⟩ := List.mem_map.mp hc
  rcases this.items it h1 with h2 | h2
  · exact List.mem_map_of_mem h2
  · exact absurd h2 hw

/-- C41, what is true: at the beginning of a new stream of an open writer all whose written items are confirmed, after `Flush(0)` has begun,
if writes succeed then the worker writes all items of the queue, in order, to the new stream, and when they are confirmed `Flush(0)`
succeeds. -/
theorem C41_resend_partial {w : TrajWriter} (hs : w.Started) {evs : List Event} (hv : ∀ e ∈ evs, e.Valid) (hp : (w.run evs).phase = .start)
    (hopen : (w.run evs).closed = false) (hok : (w.run evs).unrecoverable = none) (hfl : (w.run evs).inFlight = []) {inp : Input}
    (hi : inp.ok = true) :
    ∃ n, itemsOf (w.run (evs ++ .flushBegin 0 :: List.replicate n (.worker inp))).msgs = (w.run evs).queue ∧
      w.replyAt (evs ++ .flushBegin 0 :: List.replicate n (.worker inp) ++ [.confirm ((w.run evs).queue.map WItem.key)]) (.flushEnd 0) =
        .ok .done := by
  obtain ⟨_, hready⟩ := C39_ready hs hv 0
  have hv1 : ∀ e ∈ evs ++ [Event.flushBegin 0], e.Valid := by
    intro e he
    rcases List.mem_append.mp he with he | he
    · exact hv e he
    · simp only [List.mem_singleton] at he
      subst he
      trivial
  have hv2 : ∀ e ∈ evs ++ [Event.flushBegin 0, .worker inp], e.Valid := by
    intro e he
    rcases List.mem_append.mp he with he | he
    · exact hv e he
    · simp only [List.mem_cons, List.not_mem_nil, or_false] at he
      rcases he with rfl | rfl <;> trivial
  obtain ⟨rows, P, hinv⟩ := hs.run hv2
  obtain ⟨m, hm⟩ := forceRefs_frame (((w.run evs).queue.take (((w.run evs).queue.length : Int) - 0).toNat).flatMap WItem.refs) (w.run evs)
  have h1 : w.run (evs ++ [.flushBegin 0]) = { w.run evs with chunkers := m } := by
    rw [run_append]
    exact hm
  have h2 : w.run (evs ++ [.flushBegin 0, .worker inp]) = { w.run evs with
      chunkers := m
      phase := .fetch
      streamed := []
      request := []
      msgs := [] } := by
    rw [show evs ++ [Event.flushBegin 0, .worker inp] = (evs ++ [.flushBegin 0]) ++ [.worker inp] by simp, run_append, h1]
    show (TrajWriter.workerStep _ inp).1 = _
    simp only [workerStep, hp, hok, hopen, Bool.false_eq_true, if_false]
  rw [h1] at hready
  rw [h2] at hinv
  obtain ⟨n, b1, b2, b3, b4, b5⟩ := work_queue hi (q := (w.run evs).queue) hinv rfl hopen rfl fun it hit r hr => by
    have := hready it (by simp; exact hit) r hr
    rw [← this]
    exact ready_congr rfl r
  have hrun : w.run (evs ++ .flushBegin 0 :: List.replicate (n + 1) (.worker inp)) =
      TrajWriter.work { w.run evs with
        chunkers := m
        phase := .fetch
        streamed := []
        request := []
        msgs := [] } inp n := by
    rw [← h2, work, ← run_append]
    congr 1
    simp [List.replicate_succ]
  refine ⟨n + 1, ?_, ?_⟩
  · rw [hrun, b4]
    simp [itemsOf]
  · unfold replyAt
    rw [run_append, hrun]
    generalize TrajWriter.work _ inp n = w' at *
    have hfin : (w'.handle (.confirm ((w.run evs).queue.map WItem.key))).1.inFlight = [] := by
      show w'.inFlight.filter (fun k => decide (k ∉ (w.run evs).queue.map WItem.key)) = []
      rw [List.filter_eq_nil_iff]
      intro k hk
      rcases b5 k hk with h | h
      · simp only [hfl] at h
        cases h
      · simpa using h
    show (TrajWriter.handle (w'.handle (.confirm ((w.run evs).queue.map WItem.key))).1 (.flushEnd 0)).2 = _
    have hu : (w'.handle (.confirm ((w.run evs).queue.map WItem.key))).1.unrecoverable = none := b3.trans hok
    have hq : (w'.handle (.confirm ((w.run evs).queue.map WItem.key))).1.queue = [] := b2
    have hpend : (w'.handle (.confirm ((w.run evs).queue.map WItem.key))).1.numPending = 0 := by
      unfold numPending
      rw [hq, hfin]
      rfl
    generalize (w'.handle (.confirm ((w.run evs).queue.map WItem.key))).1 = w'' at *
    simp [TrajWriter.handle, flushResult, hu, hpend, Reply.of]

/-! ### Examples -/
namespace TrajDemo

/-- The first of two items is written and popped, then the write of the second one fails with `Unavailable`, before the first one is confirmed. -/
def failing : List Event := two ++ steps 9 good ++ steps 10 bad

theorem failing_valid : ∀ e ∈ failing, e.Valid := by
  intro e he
  rcases List.mem_append.mp he with he | he
  · exact two_valid 9 good e he
  · rw [List.eq_of_mem_replicate he]
    trivial

/-- The first item is in flight and not in the queue; the second one is in the queue. The writer has no error. -/
theorem failing_state : ((writer opts).run failing).phase = .start ∧ ((writer opts).run failing).inFlight = [1] ∧
    ((writer opts).run failing).queue.map WItem.key = [2] ∧ (writer opts).created failing = [1, 2] ∧ confirmed failing = [] ∧
    ((writer opts).run failing).unrecoverable = none ∧ (writer opts).written failing = [1] := by decide +kernel

/-- C41 fails: an item that was created and not confirmed is never sent again after a recoverable failure, and `Flush(0)` never succeeds. -/
theorem C41_item_lost : ∃ k ∈ (writer opts).created failing, k ∉ confirmed failing ∧ ((writer opts).run failing).unrecoverable = none ∧
    ∀ more : List Event, (∀ e ∈ more, e.Valid) → ((writer opts).run failing).Honest more →
      (∀ s ∈ (((writer opts).run (failing ++ more)).streams).drop ((writer opts).run failing).past.length, k ∉ itemKeys s) ∧
        (writer opts).replyAt (failing ++ more) (.flushEnd 0) ≠ .ok .done := by
  obtain ⟨h1, h2, h3, h4, h5, h6, _⟩ := failing_state
  refine ⟨1, by rw [h4]; simp, by rw [h5]; simp, h6, fun more hv hh => ?_⟩
  exact C41_lost (started (by decide)) failing_valid h1 (by rw [h4]; simp) (by rw [h2]; simp) (by rw [h3]; simp) hv hh

/-- A continuation as in `C41_lost`: the second item is written to the next stream and confirmed. -/
example : ((writer opts).run (failing ++ steps 20 good)).streams.map itemKeys = [[1, 2], [2]] ∧
    (writer opts).replyAt (failing ++ steps 20 good ++ [.confirm [2]]) (.flushEnd 0) = .ok .waiting ∧
    ((writer opts).run (failing ++ steps 20 good ++ [.confirm [2]])).inFlight = [1] := by decide +kernel

/-- The hypotheses of `C41_resend_partial`: the first item is confirmed in time. -/
example : ((writer opts).run (two ++ steps 9 good ++ [.confirm [1]] ++ steps 10 bad)).phase = .start ∧
    ((writer opts).run (two ++ steps 9 good ++ [.confirm [1]] ++ steps 10 bad)).inFlight = [] ∧
    ((writer opts).run (two ++ steps 9 good ++ [.confirm [1]] ++ steps 10 bad)).queue.map WItem.key = [2] := by decide +kernel

end TrajDemo
end TrajWriter
end Verif
