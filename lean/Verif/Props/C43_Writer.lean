import Verif.Proofs.WriterKept
import Verif.Props.C42_Writer
/-
C43: what is left after an `Append` of the old writer has failed.
-/
namespace Verif
namespace Writer

/-- Calls of `Append` none of which returns OK. -/
def FailedAppends (w : Writer) (attempts : List Event) : Prop :=
  (∀ ev ∈ attempts, ∃ data as, ev = (.append data, as)) ∧ w.history attempts = []

/-- Everything of which later chunks and items are made, leaving only what concerns the streams. -/
structure SameData (w w' : Writer) : Prop where
  core : w'.core = w.core
  items : ∃ k, w'.pending = w.pending.drop k ∧ w'.sent = w.sent ++ w.pending.take k

theorem Kept.take {w w' : Writer} (h : w.Kept w') : ∃ k, w'.pending = w.pending.drop k ∧ w'.sent = w.sent ++ w.pending.take k := by
  obtain ⟨pre, h1, h2⟩ := h
  exact ⟨pre.length, by rw [h1, List.drop_left], by rw [h1, List.take_left, h2]⟩

theorem Kept.core_of {w w' : Writer} (h : w'.pending = w.pending.drop k ∧ w'.sent = w.sent ++ w.pending.take k) : w.Kept w' :=
  ⟨w.pending.take k, by rw [h.1, List.take_append_drop], h.2⟩

theorem Ring.core {w w' : Writer} (h : w.Ring) (hc : w'.core = w.core) : w'.Ring := by
  have h1 : w'.ring = w.ring := by show w'.core.ring = w.core.ring; rw [hc]
  have h2 : w'.loc = w.loc := by show w'.core.loc = w.core.loc; rw [hc]
  have h3 : w'.maxTimesteps = w.maxTimesteps := by show w'.core.maxTimesteps = w.core.maxTimesteps; rw [hc]
  exact ⟨by rw [h1, h3]; exact h.len, by rw [h2, h3]; exact h.loc⟩

theorem append_failed {w : Writer} (hr : w.closed = false → w.Ring) {data : Timestep} {as : List Answer} {e : Code}
    (h : (w.append data as).2.1 = .ret (some e)) : (w.append data as).1.core = w.core ∧ w.Kept (w.append data as).1 := by
  refine ⟨?_, (append_kept w data as).1⟩
  by_cases hc : w.closed = true
  · unfold append; rw [if_pos hc]
  · exact (append_core (hr (by simpa using hc)) data as).1 e h

theorem failedAppends {w2 : Writer} : ∀ {attempts : List Event} {w1 : Writer}, (w1.closed = false → w1.Ring) → w1.FailedAppends attempts →
    w1.run attempts = some w2 → w2.core = w1.core ∧ w1.Kept w2
  | [], w1, _, _, h => by
    simp only [run, Option.some.injEq] at h
    rw [h]
    exact ⟨rfl, .refl _⟩
  | ev :: rest, w1, hr, hf, h => by
    obtain ⟨data, as, rfl⟩ := hf.1 ev List.mem_cons_self
    obtain ⟨⟨r, hret⟩, h1, _⟩ := run_cons h
    have hh := hf.2
    rw [history, List.append_eq_nil_iff, appended] at hh
    have hret : (w1.append data as).2.1 = .ret r := hret
    cases r with
    | none => rw [if_pos hret] at hh; cases hh.1
    | some e =>
      obtain ⟨g1, g2⟩ := append_failed hr hret
      obtain ⟨g3, g4⟩ := failedAppends (w1 := (w1.append data as).1) (fun hc => (hr (by rw [← core_closed g1]; exact hc)).core g1)
        ⟨fun ev hev => hf.1 ev (List.mem_cons_of_mem _ hev), hh.2⟩ h1
      exact ⟨g3.trans g1, g2.trans g4⟩

/-- **C43, state.** If calls of `Append` fail, one or several, then all state of which later chunks and items are made is as before: the
buffer, the chunks, their keys and indices and the recorded signatures. Of the pending items the first `k` have been sent, each once and in
their order, and the others are still pending. What may differ is the stream: `C43_stuck`, `C43_same_key` show what this means. -/
theorem C43_partial {w w1 w2 : Writer} (hn : w.New) {evs attempts : List Event} (hrun : w.run evs = some w1) (hf : w1.FailedAppends attempts)
    (h : w1.run attempts = some w2) : w1.SameData w2 := by
  obtain ⟨h1, h2⟩ := failedAppends (fun hc => (ring_of_run hn hrun hc).ring) hf h
  exact ⟨h1, h2.take⟩

/-- An `Append` that returns OK. -/
theorem append_done {w w' : Writer} (hr : w.closed = false → w.Ring) (hcore : w'.core = w.core) {data : Timestep}
    {as as' : List Answer} (h : (w.append data as).2.1 = .ret none) (h' : (w'.append data as').2.1 = .ret none) : (w'.append data as').1.core = (w.append data as).1.core := by
  have hr' := fun hc => (hr (by rw [← core_closed hcore]; exact hc)).core hcore
  have hc : w.closed = false := by
    cases hc : w.closed with
    | false => rfl
    | true =>
      unfold append at h
      rw [if_pos hc] at h
      cases h
  have hc' : w'.closed = false := by rw [core_closed hcore]; exact hc
  have e1 := ((append_core (hr hc) data as).2 h).2.2
  have e2 := ((append_core (hr' hc') data as').2 h').2.2
  have hb := core_buffer hcore
  have hcl : w'.chunkLength = w.chunkLength := by show w'.core.chunkLength = w.core.chunkLength; rw [hcore]
  have hpc : (w'.push data).core = (w.push data).core := by
    have : ∀ v : Writer, (v.push data).core = (v.core.push data).core := fun _ => rfl
    rw [this, this w, hcore]
  rw [hb, hcl] at e2
  by_cases hl : w.buffer.length + 1 < w.chunkLength
  · rw [if_pos hl] at e1 e2
    rw [e1, e2, hpc]
  · rw [if_neg hl] at e1 e2
    obtain ⟨c1, m1, g1⟩ := e1
    obtain ⟨c2, m2, g2⟩ := e2
    rw [makeChunk_core hpc, m1] at m2
    cases m2
    rw [g1, g2]
    refine finished_core ?_
    have : ∀ v : Writer, ({ v with chunks := v.chunks ++ [c1] } : Writer).core = ({ v.core with chunks := v.core.chunks ++ [c1] } : Writer) := fun _ => rfl
    show ({ (w'.push data) with chunks := (w'.push data).chunks ++ [c1] } : Writer).core = ({ (w.push data) with chunks := (w.push data).chunks ++ [c1] } : Writer).core
    rw [this, this (w.push data), hpc]

theorem append_items {w w' : Writer} (hcore : w'.core = w.core) (hkept : w.Kept w') {data : Timestep}
    {as as' : List Answer} (h : (w.append data as).2.1 = .ret none) (h' : (w'.append data as').2.1 = .ret none) (ha : .finish none ∉ as)
    (ha' : .finish none ∉ as') (hl : ¬ w.buffer.length + 1 < w.chunkLength) :
    (w'.append data as').1.pending = [] ∧ (w.append data as).1.pending = [] ∧ (w'.append data as').1.sent = (w.append data as).1.sent := by
  have hb := core_buffer hcore
  have hcl : w'.chunkLength = w.chunkLength := by show w'.core.chunkLength = w.core.chunkLength; rw [hcore]
  have k1 := append_kept w data as
  have k2 := append_kept w' data as'
  have p1 := k1.2.1 h
  have p2 := k2.2.1 h'
  rw [if_neg hl] at p1
  rw [if_neg (by rw [hb, hcl]; exact hl)] at p2
  have p1 := p1.resolve_right ha
  have p2 := p2.resolve_right ha'
  refine ⟨p2, p1, ?_⟩
  obtain ⟨a, a1, a2⟩ := k1.1
  obtain ⟨b, b1, b2⟩ := hkept.trans k2.1
  rw [p1, List.append_nil] at a1
  rw [p2, List.append_nil] at b1
  rw [a2, b2, ← a1, ← b1]

/-- **C43, retry.** Suppose that attempts to append fail and that after them `data` is appended with success. Then what follows is as if the failures
had not happened and `data` had been appended at once: the state of which later chunks and items are made is the same, no item is pending and
the same items have been sent, in the same order. This is about the `Append` that completes a chunk, the other ones do not write.
`C42_partial` says that the items show the right steps. -/
theorem C43_retry {w w1 w2 : Writer} (hn : w.New) {evs attempts : List Event} (hrun : w.run evs = some w1) (hf : w1.FailedAppends attempts)
    (hat : w1.run attempts = some w2) {data : Timestep} {as as' : List Answer} (h : (w1.append data as).2.1 = .ret none)
    (h' : (w2.append data as').2.1 = .ret none) (ha : .finish none ∉ as) (ha' : .finish none ∉ as')
    (hl : ¬ w1.buffer.length + 1 < w1.chunkLength) :
    (w2.append data as').1.core = (w1.append data as).1.core ∧ (w1.append data as).1.pending = [] ∧ (w2.append data as').1.pending = [] ∧
      (w2.append data as').1.sent = (w1.append data as).1.sent := by
  have hr := fun hc => (ring_of_run hn hrun hc).ring
  obtain ⟨h1, h2⟩ := failedAppends hr hf hat
  obtain ⟨g1, g2, g3⟩ := append_items h1 h2 h h' ha ha' hl
  exact ⟨append_done hr h1 h h', g2, g1, g3⟩

/-- **C43, the retry is possible.** With no limit on the items in flight, an `Append` that failed because of the stream succeeds when it is
repeated, if this time no `Write` fails. -/
theorem C43_again {w w1 : Writer} (hn : w.New) {evs : List Event} (hrun : w.run evs = some w1) {data : Timestep} {as : List Answer} {e : Code}
    (hlim : w1.maxInFlight = none) (h : (w1.append data as).2.1 = .ret (some e)) (hopen : w1.closed = false)
    (hcols : ∀ b ∈ w1.buffer.head?, b.length = data.length) (hch : ∃ ch, (w1.push data).makeChunk = .ok ch) :
    ((w1.append data as).1.append data (List.replicate (w1.chunks.length + 1 + w1.pending.length) (.write true))).2.1 = .ret none := by
  obtain ⟨ch, hch⟩ := hch
  have hr := (ring_of_run hn hrun hopen).ring
  have hb : w1.buffer.head?.any (fun b => b.length != data.length) = false := by
    cases hh : w1.buffer.head? with
    | none => rfl
    | some b => simp [hcols b (by rw [hh]; rfl)]
  have ht : w1.maxTimesteps ≠ 0 := by
    intro ht
    unfold append at h
    rw [if_neg (by simp [hopen]), if_neg (by simp [hb]), if_pos ht] at h
    cases h
  obtain ⟨g1, g2⟩ := append_failed (fun _ => hr) h
  have hst : (w1.append data as).1.half = false := by
    rcases (append_kept w1 data as).2.2 e h with ⟨g | g, _⟩ | ⟨e', g⟩ | ⟨_, g | g⟩
    · rw [hopen] at g; cases g
    · rw [hb] at g; cases g
    · rw [hch] at g; cases g
    · exact g.2
    · exact absurd (by
        have : (w1.append data as).1.maxInFlight = w1.maxInFlight := by
          show (w1.append data as).1.core.maxInFlight = w1.core.maxInFlight
          rw [g1]
        rw [this]; exact hlim) g.1.limited
  have f1 : (w1.append data as).1.maxTimesteps = w1.maxTimesteps := by
    show (w1.append data as).1.core.maxTimesteps = w1.core.maxTimesteps; rw [g1]
  have f2 : (w1.append data as).1.maxInFlight = w1.maxInFlight := by
    show (w1.append data as).1.core.maxInFlight = w1.core.maxInFlight; rw [g1]
  have hpc : ((w1.append data as).1.push data).core = (w1.push data).core := by
    have : ∀ v : Writer, (v.push data).core = (v.core.push data).core := fun _ => rfl
    rw [this, this w1, g1]
  refine append_true (ch := ch) (by rw [core_closed g1]; exact hopen) (by rw [core_buffer g1]; exact hb) (by rw [f1]; exact ht) hst
    (by rw [f2]; exact hlim) (by rw [makeChunk_core hpc]; exact hch) ?_
  obtain ⟨k, hk⟩ := g2.take
  rw [core_chunks g1, hk.1, List.length_drop]
  omega

/-! ### A run that meets the hypotheses -/

namespace Demo

/-- An item is pending. -/
def before : List Event := [(.append [x 1], []), (.createItem "t" 1 (.val 7), [])]

/-- Two attempts fail, the second one on two streams. -/
def failures : List Event :=
  [(.append [x 2], [.write false, .finish (some .internal)]),
    (.append [x 2], [.write false, .finish (some .unavailable), .write false, .finish (some .resourceExhausted)])]

theorem run_before : (writer.run before).any (fun w1 => (w1.run failures).isSome && (w1.history failures) == [] &&
    (w1.append [x 2] [.write true]).2.1 == .ret none &&
    (w1.run failures).any (fun w2 => (w2.append [x 2] [.write true]).2.1 == .ret none && w2.past.length == 3)) = true := by decide

end Demo

/-! ### What may be lost -/

theorem unpush_push {w : Writer} (hr : w.Ring) (hm : w.maxTimesteps ≠ 0) (data : Timestep) : (w.push data).unpush (w.ring.getD w.loc none) = w := by
  have h := unpush_core (w1 := w.push data) hr hm (data := data) rfl
  have h1 : ((w.push data).unpush (w.ring.getD w.loc none)).buffer = w.buffer := core_buffer h
  have h2 : ((w.push data).unpush (w.ring.getD w.loc none)).ring = w.ring := by
    show ((w.push data).unpush (w.ring.getD w.loc none)).core.ring = w.core.ring; rw [h]
  have h3 : ((w.push data).unpush (w.ring.getD w.loc none)).loc = w.loc := by
    show ((w.push data).unpush (w.ring.getD w.loc none)).core.loc = w.core.loc; rw [h]
  have : (w.push data).unpush (w.ring.getD w.loc none) = { w with
      buffer := ((w.push data).unpush (w.ring.getD w.loc none)).buffer
      ring := ((w.push data).unpush (w.ring.getD w.loc none)).ring
      loc := ((w.push data).unpush (w.ring.getD w.loc none)).loc } := rfl
  rw [this, h1, h2, h3]

/-- **C43 fails after DataLoss.** If items are unconfirmed when a `Write` fails, `Append` returns DataLoss and the writer keeps the stream on which it
has called `WritesDone`. If another item is pending then no later call of `Append`, `Flush` or `Close` returns OK, whatever the server
does, and none of them changes anything: the writer cannot even be closed. -/
theorem C43_stuck {w w1 : Writer} (hn : w.New) {evs : List Event} (hrun : w.run evs = some w1) (hs : w1.Stuck) (hp : w1.pending ≠ [])
    (hb : w1.chunkLength ≤ w1.buffer.length + 1) {c : Call} (hc : (∃ data, c = .append data) ∨ c = .flush ∨ ∃ retry, c = .close retry)
    (as : List Answer) : (∃ e, w1.call c as = (w1, .ret (some e), as)) ∨ (w1.call c as).2.1 = .died := by
  rcases hc with ⟨data, rfl⟩ | rfl | ⟨retry, rfl⟩
  · show (∃ e, w1.append data as = (w1, .ret (some e), as)) ∨ (w1.append data as).2.1 = .died
    unfold append
    by_cases hcl : w1.closed = true
    · rw [if_pos hcl]; exact .inl ⟨_, rfl⟩
    rw [if_neg hcl]
    split
    · exact .inl ⟨_, rfl⟩
    split
    · exact .inr rfl
    rename_i hm
    rw [if_neg (by simp [push]; omega)]
    rcases finish_stuck (w := w1.push data) ⟨hs.stream, hs.half, hs.limited, hs.unconfirmed, hs.running⟩ hp true as with h | ⟨e, h, _⟩
    · rw [h]; exact .inr rfl
    · rw [h]
      dsimp only
      rw [unpush_push (ring_of_run hn hrun (by simpa using hcl)).ring hm]
      exact .inl ⟨_, rfl⟩
  · show (∃ e, w1.flush as = (w1, .ret (some e), as)) ∨ (w1.flush as).2.1 = .died
    unfold flush
    split
    · exact .inl ⟨_, rfl⟩
    rcases finish_stuck hs hp true as with h | ⟨e, h, _⟩
    · rw [h]; exact .inr rfl
    · rw [h]; exact .inl ⟨_, rfl⟩
  · show (∃ e, w1.close retry as = (w1, .ret (some e), as)) ∨ (w1.close retry as).2.1 = .died
    unfold close
    split
    · exact .inl ⟨_, rfl⟩
    rcases finish_stuck hs hp retry as with h | ⟨e, h, h'⟩
    · rw [h]; exact .inr rfl
    · rw [h]
      dsimp only
      rw [if_neg (by simp [h'])]
      exact .inl ⟨_, rfl⟩

/-- A writer with at most two items in flight. -/
def limited : Writer := .new 2 4 false (some 2) none id fun _ => false

/-- Of two items only the first is written before the stream breaks, and no confirmation comes. -/
def lost : List Event :=
  [(.append [Demo.x 1], []), (.createItem "t" 1 (.val 7), []), (.createItem "t" 1 (.val 8), []),
    (.append [Demo.x 2], [.write true, .write false, .confirms 0 true])]

/-- A writer gets there, by an `Append` that returns DataLoss. -/
theorem C43_stuck_reached : ∃ w1, limited.run lost = some w1 ∧ w1.Stuck ∧ w1.pending ≠ [] ∧ w1.chunkLength ≤ w1.buffer.length + 1 ∧
    limited.history lost = [[Demo.x 1]] := by
  obtain ⟨w1, h, hp⟩ := (Option.any_eq_true _ _).mp (by decide :
    (limited.run lost).any (fun w1 => w1.stream && w1.half && w1.maxInFlight != none && decide (0 < w1.inFlight) && !w1.running &&
      w1.pending != [] && decide (w1.chunkLength ≤ w1.buffer.length + 1)) = true)
  simp only [Bool.and_eq_true, decide_eq_true_iff, bne_iff_ne, Bool.not_eq_true'] at hp
  obtain ⟨⟨⟨⟨⟨⟨h1, h2⟩, h3⟩, h4⟩, h5⟩, h6⟩, h7⟩ := hp
  exact ⟨w1, h, ⟨h1, h2, h3, h4, h5⟩, h6, h7, by decide⟩

/-- The calls of `C43_same_key`: an `Append` fails when the first of two items has been written, and another step is appended instead. -/
def otherStep : List Event :=
  [(.append [Demo.x 1], []), (.createItem "t" 1 (.val 7), []), (.createItem "t" 1 (.val 8), []),
    (.append [Demo.x 2], [.write true, .write false, .finish (some .internal)]), (.append [Demo.x 3], [.write true])]

/-- **C43 fails for another step.** A failed `Append` may have sent the chunk with its step, and the key of the chunk is used again. If the next step
is another one, then the two streams have chunks with the same key and different contents, each with an item. A server that still has
the first chunk (`C49`) uses it also for the second item. -/
theorem C43_same_key : ∃ w1, Demo.writer.run otherStep = some w1 ∧ w1.sent.length = 2 ∧
    ∃ s1 s2 c1 c2, w1.streams = [s1, s2] ∧ c1 ∈ s1.flatMap Msg.chunks ∧ c2 ∈ s2.flatMap Msg.chunks ∧ c1.key = c2.key ∧
      c1.tensors = [⟨.int32, [2], [1, 2]⟩] ∧ c2.tensors = [⟨.int32, [2], [1, 3]⟩] := by
  obtain ⟨w1, h, hp⟩ := (Option.any_eq_true _ _).mp (by decide :
    (Demo.writer.run otherStep).any (fun w1 => w1.sent.length == 2 &&
      w1.streams.map (fun s => (s.flatMap Msg.chunks).head?) == [some ⟨0, some ⟨1, 0, 1, false⟩, [⟨.int32, [2], [1, 2]⟩], false⟩,
        some ⟨0, some ⟨1, 0, 1, false⟩, [⟨.int32, [2], [1, 3]⟩], false⟩]) = true)
  simp only [Bool.and_eq_true, beq_iff_eq] at hp
  obtain ⟨h1, h2⟩ := hp
  refine ⟨w1, h, h1, ?_⟩
  match hs : w1.streams with
  | [] => rw [hs] at h2; cases h2
  | [_] => rw [hs] at h2; simp at h2
  | _ :: _ :: _ :: _ => rw [hs] at h2; simp at h2
  | [s1, s2] =>
    rw [hs] at h2
    simp only [List.map_cons, List.map_nil, List.cons.injEq, and_true] at h2
    exact ⟨s1, s2, _, _, rfl, List.mem_of_head? h2.1, List.mem_of_head? h2.2, rfl, rfl, rfl⟩

/-- The writer of `C43_poisoned` has chunks of three steps. -/
def three : Writer := .new 3 4 false none none id fun _ => false

/-- A scalar and a vector. -/
def mixed : List Event := [(.append [Demo.x 1], []), (.append [⟨.int32, [1], [2]⟩], [])]

/-- **C43, a step that makes all later ones fail.** While the chunk is not full `Append` does not compare the shapes. A step of another shape is
accepted, and from then on every `Append` fails, whatever step it is called with: the state is reverted, but to one from which nothing
succeeds. -/
theorem C43_poisoned : ∃ w1, three.run mixed = some w1 ∧ (three.history mixed).length = 2 ∧
    ∀ data as, w1.append data as = (w1, .ret (some .invalidArgument), as) := by
  have hrun : three.run mixed = some ((three.push [Demo.x 1]).push [⟨.int32, [1], [2]⟩]) := by rfl
  have hn : three.New := ⟨rfl, fun _ _ h => h⟩
  refine ⟨_, hrun, by decide, fun data as => ?_⟩
  have hring := (ring_of_run hn hrun rfl).ring
  have hu := unpush_push hring (by decide) data
  unfold append
  rw [if_neg (by decide)]
  split
  · rfl
  rename_i hl
  rw [if_neg (by decide), if_neg (by simp [push, three, Writer.new])]
  have hd : ∃ t, data = [t] := by
    cases data with
    | nil => exact absurd rfl hl
    | cons t l =>
      cases l with
      | nil => exact ⟨t, rfl⟩
      | cons u l => exact absurd rfl hl
  obtain ⟨t, rfl⟩ := hd
  have hm : (((three.push [Demo.x 1]).push [⟨.int32, [1], [2]⟩]).push [t]).makeChunk = .err .invalidArgument := by rfl
  unfold finish
  rw [hm]
  dsimp only
  rw [hu]

end Writer
end Verif
