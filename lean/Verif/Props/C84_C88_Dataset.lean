import Verif.Proofs.DatasetCancel
import Verif.Props.C58_LocalSampler
import Verif.Props.C61_C70_OutputSpec
import Verif.Props.C69_SampleOrder
/-
C84: an iterator yields what its sampler returns, in order, and ends exactly when the rate limiter times out.
C85: `sequence_length` is the number of timesteps of each sample.
C86: a cancelled iterator returns no more elements.
C87: elements have the declared types.
C88: the graph of a dataset makes the same dataset.
-/
namespace Verif
open DataIter

/-! ### C84 -/

theorem shows_of {c : DatasetCfg} {lim : Bool} {o : SampleOut} : Shows c.sampler.timeout o (shown c lim o) := by
  cases o with
  | error e =>
    simp only [Shows, shown]
    split
    · rename_i h
      exact .inr ⟨rfl, h.2.1, h.1⟩
    · exact .inl rfl
  | _ => rfl

/-- C84: `GetNext` returns what the sampler returned, call by call; a timeout of the rate limiter may be the end of the sequence instead.
Apart from that there is `Cancelled` when the context has been cancelled, and `InvalidArgument` when timesteps are counted (C85). -/
theorem C84_results {c : DatasetCfg} {now : Int} {evs : List DataIter.Event} {d : DataIter} (h : Reach c now evs d) (i : Nat) (io : IterOut)
    (hio : d.log[i]? = some io) : ∃ o, d.sampler.log[i]? = some o ∧ (Shows c.sampler.timeout o io ∨
      io = .error .cancelled ∧ d.manager = .done ∨ io = .error .invalidArgument ∧ ∃ n, c.kind = .reverb true n) := by
  have hi := h.inv
  have hlt : i < d.sampler.log.length := by
    have := (List.getElem?_eq_some_iff.mp hio).1
    have := hi.len
    omega
  refine ⟨d.sampler.log[i], List.getElem?_eq_getElem hlt, ?_⟩
  rcases hi.log i _ io (List.getElem?_eq_getElem hlt) hio with (g | g) | g
  · exact .inl (g ▸ shows_of)
  · exact .inr (.inl g)
  · exact .inr (.inr g)

/-- C84: the order of samples. For trajectories and batches: the samples come in the order in which the workers of the sampler got them,
each once. `out` is what the sampler returned (see `C84_results`). -/
theorem C84_samples {c : DatasetCfg} (hk : c.kind.call ≠ .timestep) {now : Int} {evs : List DataIter.Event} {d : DataIter}
    (h : Reach c now evs d) : ∃ done, d.sampler.arrived = done.map Prod.snd ++ d.sampler.held ++ d.sampler.queue ∧
      ClientSampler.Accounts c.sampler done d.sampler.log := by
  obtain ⟨sevs, hr⟩ := h.inv.reach
  refine C69_in_order (hr.mono ?_)
  intro v e g
  refine ⟨?_, g.2.1⟩
  cases e with
  | call x k => rw [g.2.2 x k rfl]; exact hk
  | _ => trivial

/-- C84: the order of timesteps: each sample is read to its end before the next one. -/
theorem C84_timesteps {c : DatasetCfg} (hc : c.sampler.Valid) (hk : c.kind.call = .timestep) {now : Int} {evs : List DataIter.Event} {d : DataIter}
    (h : Reach c now evs d) : ∃ done out, ClientSampler.ReadAll c.sampler done out ∧
      ((d.sampler.arrived = done ++ d.sampler.queue ∧ d.sampler.log = out) ∨
        ∃ s steps s', d.sampler.arrived = done ++ [s] ++ d.sampler.queue ∧ d.sampler.log = out ++ steps ∧
          ClientSampler.Reads c.sampler s steps s' ∧ d.sampler.active = some s') := by
  obtain ⟨sevs, hr⟩ := h.inv.reach
  refine C69_timesteps hc (hr.mono ?_)
  intro v e g
  refine ⟨g.1, ?_⟩
  cases e with
  | call x k => rw [g.2.2 x k rfl]; exact hk
  | _ => trivial

theorem shown_end {c : DatasetCfg} {lim : Bool} {o : SampleOut} (h : shown c lim o = .endOfSequence) :
    c.sampler.timeout ≠ none ∧ o = .error .deadlineExceeded ∧ lim = true := by
  cases o with
  | error e =>
    simp only [shown] at h
    split at h
    · rename_i g
      exact ⟨g.1, by rw [g.2.1], g.2.2⟩
    · cases h
  | _ => cases h

theorem end_cause {c : DatasetCfg} {now : Int} {evs : List DataIter.Event} {d : DataIter} (h : Reach c now evs d)
    (he : .endOfSequence ∈ d.log) : c.sampler.timeout ≠ none ∧ d.limiter = true ∧ .error .deadlineExceeded ∈ d.sampler.log := by
  obtain ⟨i, hio⟩ := List.mem_iff_getElem?.mp he
  obtain ⟨o, ho, _⟩ := C84_results h i _ hio
  rcases h.inv.log i o _ ho hio with (g | ⟨g, _⟩) | ⟨g, _⟩
  · obtain ⟨h1, h2, h3⟩ := shown_end g.symm
    exact ⟨h1, h3, h2 ▸ List.mem_of_getElem? ho⟩
  · cases g
  · cases g

/-- C84: the sequence ends only if there is a timeout and the rate limiter timed out for some worker: while `GetNext` was waiting, or at a
moment when the worker was about to send a request. -/
theorem C84_end {c : DatasetCfg} {now : Int} {evs : List DataIter.Event} {d : DataIter} (h : Reach c now evs d)
    (he : .endOfSequence ∈ d.log) : c.sampler.timeout ≠ none ∧ ∃ i a e b d0, evs = a ++ e :: b ∧ Reach c now a d0 ∧
      (TimesOut i e ∧ Waiting d0 ∨ TimesOutWrite i e) := by
  obtain ⟨h1, h2, h3⟩ := end_cause h he
  refine ⟨h1, ?_⟩
  obtain ⟨sevs, hr⟩ := h.inv.reach
  obtain ⟨i, a, e, b, d0, g⟩ := h.cause.2 (ClientSampler.deadline_status hr h3) h2
  exact ⟨i, a, e, b, d0, g⟩

/-- C84: with a table of the same process the sequence ends only after the time given as timeout, during which the worker got nothing. -/
theorem C84_end_late {c : DatasetCfg} (hc : c.sampler.Valid) (hg : c.sampler.isGrpc = false) {now : Int} {evs : List DataIter.Event} {d : DataIter}
    (h : Reach c now evs d) (he : .endOfSequence ∈ d.log) : ∃ sevs i evs1 evs2,
      ClientSampler.Reach c.sampler now ClientSampler.Faithful sevs d.sampler ∧ sevs = evs1 ++ evs2 ∧
      ClientSampler.TimedOut c.sampler now ClientSampler.Faithful evs1 i := by
  obtain ⟨sevs, hr⟩ := h.inv.reach
  have hr' := hr.mono (Q := ClientSampler.Faithful) (fun _ _ g => g.1)
  obtain ⟨i, e1, e2, g⟩ := C58_local_not_early hc hg hr' (end_cause h he).2.2
  exact ⟨sevs, i, e1, e2, hr', g⟩

/-- C84: the end stays: after the end of the sequence `GetNext` returns it again, or `Cancelled` when the context has been cancelled.
When timesteps are counted there is also `InvalidArgument`. -/
theorem C84_end_stays {c : DatasetCfg} (hc : c.sampler.Valid) {now : Int} {evs : List DataIter.Event} {d : DataIter} (h : Reach c now evs d)
    {a b : List IterOut} (hl : d.log = a ++ .endOfSequence :: b) : ∀ io ∈ b, io = .endOfSequence ∨
      io = .error .cancelled ∧ d.manager ≠ .no ∨ io = .error .invalidArgument ∧ ∃ n, c.kind = .reverb true n := by
  intro io hio
  have hi := h.inv
  obtain ⟨h1, h2, _⟩ := end_cause h (by rw [hl]; simp)
  have ha : d.log[a.length]? = some .endOfSequence := by rw [hl]; simp
  obtain ⟨o, ho, _⟩ := C84_results h _ _ ha
  have hode : o = .error .deadlineExceeded := by
    rcases hi.log _ o _ ho ha with (g | ⟨g, _⟩) | ⟨g, _⟩
    · exact (shown_end g.symm).2.1
    · cases g
    · cases g
  subst hode
  obtain ⟨j, hj⟩ := List.mem_iff_getElem?.mp hio
  have hj' : d.log[a.length + 1 + j]? = some io := by
    rw [hl, List.getElem?_append_right (by omega), show a.length + 1 + j - a.length = j + 1 by omega, List.getElem?_cons_succ]
    exact hj
  obtain ⟨o', ho', _⟩ := C84_results h _ _ hj'
  obtain ⟨hlt, he⟩ := List.getElem?_eq_some_iff.mp ho
  have hsplit : d.sampler.log = d.sampler.log.take a.length ++ .error .deadlineExceeded :: d.sampler.log.drop (a.length + 1) := by
    conv => lhs; rw [← List.take_append_drop a.length d.sampler.log]
    rw [List.drop_eq_getElem_cons hlt, he]
  have hmem : o' ∈ d.sampler.log.drop (a.length + 1) := by
    apply List.mem_of_getElem? (i := j)
    rw [List.getElem?_drop]
    exact ho'
  obtain ⟨sevs, hr⟩ := hi.reach
  rcases hi.log _ o' _ ho' hj' with (g | ⟨g, g'⟩) | g
  · rcases hr.afterDeadline hc _ _ hsplit o' hmem with q | ⟨q, q'⟩
    · left
      rw [g, q]
      simp [shown, h1, h2]
    · right; left
      refine ⟨?_, hi.closed q'⟩
      rw [g, q]
      simp [shown]
  · exact .inr (.inl ⟨g, by rw [g']; simp⟩)
  · exact .inr (.inr g)

theorem messages_length {c : DatasetCfg} {now : Int} {evs : List DataIter.Event} {d : DataIter} (h : Reach c now evs d) :
    d.messages.length = c.sampler.workers := by
  induction h with
  | init => simp [DataIter.init]
  | @step evs e d d' h0 hh hs ih =>
    cases e with
    | next =>
      have hs : d.next c = some d' := hs
      unfold DataIter.next at hs
      split at hs
      · split at hs
        · split at hs
          · cases hs
          · rename_i d1 hb
            cases hs
            obtain ⟨v, hv, rfl⟩ := begin_eq hb
            exact ih
        · split at hs
          · obtain ⟨v, hv, rfl⟩ := begin_eq hs
            exact ih
          · split at hs
            · cases hs
            · cases hs
              exact ih
      · cases hs
    | closed =>
      have hs : d.closed c = some d' := hs
      unfold DataIter.closed at hs
      split at hs
      · split at hs
        · obtain ⟨v, hv, rfl⟩ := begin_eq hs
          exact ih
        · cases hs
      · cases hs
    | cancel =>
      have hs : d.cancel c = some d' := hs
      unfold DataIter.cancel at hs
      split at hs
      · split at hs
        · cases hs
          exact ih
        · split at hs
          · cases hs
          · cases hs
            exact ih
      · cases hs
    | cancelled =>
      have hs : d.cancelled = some d' := hs
      unfold DataIter.cancelled at hs
      split at hs
      · cases hs
        exact ih
      · cases hs
    | inside e m =>
      rcases inside_other hs with rfl | ⟨h1, h2, h3, v, hv, rfl⟩
      · obtain ⟨r, v, hp, hv, ⟨_, rfl⟩ | ⟨o, _, _, rfl⟩⟩ := finish_inside (m := m) hs <;> exact ih
      · show List.length _ = _
        split <;> simp [ih]
    | leave =>
      simp only [DataIter.move] at hs
      split at hs
      · cases hs
      · obtain ⟨r, o, hp, io, s, n, rfl, _⟩ := leave_cases hs
        exact ih

/-- C84: if there is a timeout and the server ends the stream of a worker because the rate limiter timed out, while `GetNext` waits, then
`GetNext` returns the end of the sequence, and nothing else has to happen first. Missing: datasets that count timesteps, see
`C84_counted_false`. -/
theorem C84_end_run_partial {c : DatasetCfg} (hk : ∀ n, c.kind ≠ .reverb true n) (ht : c.sampler.timeout ≠ none) {now : Int}
    {evs : List DataIter.Event} {d : DataIter} (h : Reach c now evs d) (hd : d.sampler.dead = false) (hm : d.manager = .no) {i : Nat} {cl : Bool}
    {n got want sampled : Int} {parts : List Entry} (hw : d.sampler.workers[i]? = some ⟨cl, .fetch n got (.reading want sampled parts)⟩)
    (hx : Waiting d) (hst : d.sampler.status = none) (hret : d.sampler.returned ≠ c.sampler.max) :
    ∃ d', moves c d [.inside (.streamEnd i (some .deadlineExceeded) true) false, .inside (.work i) false, .inside (.pop 0) false,
      .inside (.finish 0) false, .leave] = some d' ∧ d'.log = d.log ++ [.endOfSequence] := by
  have hi := h.inv
  have hcl : d.sampler.closed = false := by
    cases hcl : d.sampler.closed with
    | false => rfl
    | true => exact absurd hm (hi.closed hcl)
  obtain ⟨r, hp⟩ : ∃ r, d.phase = .calling r := by
    obtain ⟨k, t, hx⟩ := hx
    exact (hi.only 0 _ hx).2
  have hr : r = true := by
    cases r with
    | true => rfl
    | false => exact absurd hm (hi.late (.inr (.inl hp)))
  subst hr
  have hlen : i < d.messages.length := by
    obtain ⟨sevs, hreach⟩ := hi.reach
    rw [messages_length h, ← ClientSampler.workers_length hreach]
    exact (List.getElem?_eq_some_iff.mp hw).1
  obtain ⟨v4, hrun, hlog⟩ := C58_remote_report hd hw true hx hst hcl hret
  simp only [ClientSampler.run, Option.bind_eq_some_iff] at hrun
  obtain ⟨v1, s1, v2, s2, v3, s3, v4', s4, g⟩ := hrun
  cases g
  have hl1 : v1.log = d.sampler.log := by
    rcases (ClientSampler.Eff.step s1).log with g | ⟨x, o, he, _⟩
    · exact g
    · cases he
  have hl2 : v2.log = v1.log := by
    rcases (ClientSampler.Eff.step s2).log with g | ⟨x, o, he, _⟩
    · exact g
    · cases he
  have hl3 : v3.log = v2.log := by
    rcases (ClientSampler.Eff.step s3).log with g | ⟨x, o, he, _⟩
    · exact g
    · cases he
  obtain ⟨hdead, hret4⟩ : v4.dead = false ∧ ClientSampler.Returns c.sampler v3 0 (.error .deadlineExceeded) := by
    rcases (ClientSampler.Eff.step s4).log with g | ⟨x, o, he, g, hd, hr, _⟩
    · rw [g, hl3, hl2, hl1] at hlog
      simp at hlog
    · cases he
      rw [hlog, hl3, hl2, hl1] at g
      obtain ⟨_, g⟩ := List.append_inj' g rfl
      cases g
      exact ⟨hd, hr⟩
  have hst3 := ClientSampler.returns_deadline hret4
  have hst2 : v2.status = some .deadlineExceeded := by
    rcases ClientSampler.status_step s3 (by rw [hst3]; simp) with g | ⟨_, _, _, _, _, _, he⟩
    · exact g.trans hst3
    · cases he
  have hst1 : v1.status = none := by
    cases hq : v1.status with
    | none => rfl
    | some y =>
      rcases ClientSampler.status_step s1 (by rw [hq]; simp) with g | ⟨_, _, _, _, _, _, he⟩
      · rw [hst, hq] at g; cases g
      · cases he
  have hlast : v4.log.getLast? = some (.error .deadlineExceeded) := by rw [hlog]; simp
  have hmsg : (d.messages.set i true).getD i false = true := by
    rw [List.getD_eq_getElem?_getD, List.getElem?_set]
    simp [hlen]
  let d1 : DataIter := { d with sampler := v1, messages := d.messages.set i true }
  let d2 : DataIter := { d1 with sampler := v2, limiter := true }
  let d3 : DataIter := { d2 with sampler := v3 }
  let d4 : DataIter := { d3 with sampler := v4, phase := .leaving true (.error .deadlineExceeded) }
  have m1 : DataIter.move c d (.inside (.streamEnd i (some .deadlineExceeded) true) false) = some d1 := by
    simp only [DataIter.move, DataIter.inside, s1]
    rfl
  have m2 : DataIter.move c d1 (.inside (.work i) false) = some d2 := by
    have s2 : ClientSampler.step c.sampler d1.sampler (.work i) = some v2 := s2
    have hlim : newLimiter d1 (.work i) v2 = true := by
      simp only [newLimiter, workerOf]
      rw [if_pos ⟨hst1, by rw [hst2]; simp⟩]
      exact hmsg
    simp only [DataIter.move, DataIter.inside, s2, hlim]
    rfl
  have m3 : DataIter.move c d2 (.inside (.pop 0) false) = some d3 := by
    have s3 : ClientSampler.step c.sampler d2.sampler (.pop 0) = some v3 := s3
    simp only [DataIter.move, DataIter.inside, s3]
    rfl
  have m4 : DataIter.move c d3 (.inside (.finish 0) false) = some d4 := by
    have s4 : ClientSampler.step c.sampler d3.sampler (.finish 0) = some v4 := s4
    have hp3 : d3.phase = .calling true := hp
    simp only [DataIter.move, DataIter.inside, s4, hp3, hlast, hdead]
    rfl
  have hsh : shown c true (.error .deadlineExceeded) = .endOfSequence := by simp [shown, ht]
  have m5 : ∃ d5, DataIter.move c d4 .leave = some d5 ∧ d5.log = d.log ++ [.endOfSequence] := by
    have hd4 : d4.sampler.dead = false := hdead
    have hm4 : d4.manager = .no := hm
    refine ⟨{ d4 with callbacks := d4.callbacks - 1 }.ret (shown c true (.error .deadlineExceeded)), ?_, ?_⟩
    · simp only [DataIter.move, hd4, DataIter.leave]
      have hdep : depart c d4 true (.error .deadlineExceeded) =
          some ({ d4 with callbacks := d4.callbacks - 1 }.ret (shown c true (.error .deadlineExceeded))) := by
        unfold depart
        rw [if_pos rfl, hm4]
      cases hkind : c.kind with
      | timestep => exact hdep
      | trajectory => exact hdep
      | reverb emit l =>
        cases emit with
        | true => exact absurd hkind (hk l)
        | false => exact hdep
    · rw [hsh]; rfl
  obtain ⟨d5, m5, hlog5⟩ := m5
  exact ⟨d5, by simp only [moves, m1, m2, m3, m4, m5, Option.bind_some], hlog5⟩

/-! ### C85 -/

theorem BadLength.iff {n : Int} (hn : 0 < n) {s : Int} {rows : List Tensor} {last : Bool} :
    BadLength n s (.timestep rows last) ↔ ¬ (last = true ↔ s = n) := by
  unfold BadLength
  simp only [lastTimestep]
  cases last
  · simp
  · simp [hn]

/-- C85, partial: with `emit_timesteps` and a `sequence_length` the timestep that comes after `a` is yielded if it is the last of its sample
exactly when it is number `sequence_length`; otherwise there is `InvalidArgument`. (`a` has only elements; `sinceLast` counts those
after the last one that ended a sample.) Missing: samples that are not emitted as timesteps are not checked, see `C85_batched_false`. -/
theorem C85_length_partial {c : DatasetCfg} {n : Int} (hk : c.kind = .reverb true n) (hn : 0 < n) {now : Int} {evs : List DataIter.Event}
    {d : DataIter} (h : Reach c now evs d) {a b : List IterOut} {io : IterOut} (hl : d.log = a ++ io :: b) (ha : ∀ o ∈ a, o.isElement = true)
    {rows : List Tensor} {last : Bool} (ho : d.sampler.log[a.length]? = some (.timestep rows last)) :
    ((last = true ↔ (sinceLast a + 1 : Int) = n) → io = .element (.timestep rows last) ∨ io = .error .cancelled ∧ d.manager = .done) ∧
    (¬ (last = true ↔ (sinceLast a + 1 : Int) = n) → io = .error .invalidArgument) := by
  obtain ⟨h1, h2⟩ := h.inv.count n hk a io b _ hl ha ho
  refine ⟨fun g => ?_, fun g => h1 ((BadLength.iff hn).mpr g)⟩
  exact h2 (fun q => (BadLength.iff hn).mp q g)

/-- C85: so every sample that is yielded completely has `sequence_length` timesteps. -/
theorem C85_elements {c : DatasetCfg} {n : Int} (hk : c.kind = .reverb true n) (hn : 0 < n) {now : Int} {evs : List DataIter.Event}
    {d : DataIter} (h : Reach c now evs d) {a b : List IterOut} {o : SampleOut} (hl : d.log = a ++ .element o :: b)
    (ha : ∀ o ∈ a, o.isElement = true) : o.complete = true ↔ (sinceLast a + 1 : Int) = n := by
  have hel : d.log[a.length]? = some (.element o) := by rw [hl]; simp
  obtain ⟨o', ho', hs⟩ := C84_results h _ _ hel
  have : o' = o := by
    rcases hs with hs | ⟨hs, _⟩ | ⟨hs, _⟩
    · cases o' with
      | error e => rcases hs with hs | ⟨hs, _⟩ <;> cases hs
      | _ => cases hs; rfl
    · cases hs
    · cases hs
  subst this
  obtain ⟨sevs, hr⟩ := h.inv.reach
  have hkind := hr.kinds.2 o' (List.mem_of_getElem? ho')
  rw [hk] at hkind
  cases o' with
  | timestep rows last =>
    refine Classical.byContradiction fun g => ?_
    have := (C85_length_partial hk hn h hl ha ho').2 g
    cases this
  | error e => rcases hs with hs | ⟨hs, _⟩ | ⟨hs, _⟩
               · rcases hs with hs | ⟨hs, _⟩ <;> cases hs
               · cases hs
               · cases hs
  | batched x y => cases hkind _ _ rfl
  | trajectory y => cases hkind _ _ rfl

/-- C85: what the op asks of the shapes it is given if samples are not emitted as timesteps: a shape of known rank is not that of a
scalar, and its first dimension is the sequence length (unknown if that is not set). -/
theorem C85_declared {a : DatasetAttrs} {n : Int} (hk : a.kind = .reverb false n) :
    a.check = none ↔ a.options.validate = none ∧ ∀ w ∈ a.specs, (∃ k rest, w.shape = some (some k :: rest) ∧ (k : Int) = n) ∨
      (n = -1 ∧ (w.shape = none ∨ ∃ rest, w.shape = some (none :: rest))) := by
  have key : ∀ s : PShape, DatasetAttrs.shapeFits n s = true ↔ (∃ k rest, s = some (some k :: rest) ∧ (k : Int) = n) ∨
      (n = -1 ∧ (s = none ∨ ∃ rest, s = some (none :: rest))) := by
    intro s
    unfold DatasetAttrs.shapeFits
    rw [decide_eq_true_eq]
    match s with
    | none =>
      show ((none : PShape) ≠ some [] ∧ (-1 : Int) = n) ↔ _
      constructor
      · exact fun h => .inr ⟨h.2.symm, .inl rfl⟩
      · rintro (⟨_, _, h, _⟩ | ⟨h, _⟩)
        · cases h
        · exact ⟨by simp, h.symm⟩
    | some [] => simp
    | some (none :: r) =>
      show ((some (none :: r) : PShape) ≠ some [] ∧ (-1 : Int) = n) ↔ _
      constructor
      · exact fun h => .inr ⟨h.2.symm, .inr ⟨r, rfl⟩⟩
      · rintro (⟨_, _, h, _⟩ | ⟨h, _⟩)
        · cases h
        · exact ⟨by simp, h.symm⟩
    | some (some k :: r) => simp [DatasetAttrs.dim0]
  unfold DatasetAttrs.check
  rw [hk]
  simp only
  split
  · rename_i h
    rw [List.all_eq_true] at h
    exact ⟨fun g => ⟨g, fun w hw => (key _).mp (h w hw)⟩, And.left⟩
  · rename_i h
    refine ⟨fun g => (by cases g), fun g => absurd ?_ h⟩
    rw [List.all_eq_true]
    exact fun w hw => (key _).mpr (g.2 w hw)

-- A shape that is accepted, and two that are not.
example : (DatasetAttrs.mk (.reverb false 3) 1 1 1 (-1) 1 [⟨.int32, some [some 3, none]⟩]).check = none ∧
    (DatasetAttrs.mk (.reverb false 3) 1 1 1 (-1) 1 [⟨.int32, some [none]⟩]).check = some .invalidArgument ∧
    (DatasetAttrs.mk (.reverb false (-1)) 1 1 1 (-1) 1 [⟨.int32, some []⟩]).check = some .invalidArgument := by decide

/-- C85: without `sequence_length` (−1) timesteps are not rejected. -/
theorem C85_unset {c : DatasetCfg} {n : Int} (hk : c.kind = .reverb true n) (hn : n ≤ 0) {now : Int} {evs : List DataIter.Event}
    {d : DataIter} (h : Reach c now evs d) {a b : List IterOut} {io : IterOut} (hl : d.log = a ++ io :: b) (ha : ∀ o ∈ a, o.isElement = true) :
    ∃ o, d.sampler.log[a.length]? = some o ∧ (Shows c.sampler.timeout o io ∨ io = .error .cancelled ∧ d.manager = .done) := by
  have hel : d.log[a.length]? = some io := by rw [hl]; simp
  obtain ⟨o, ho, _⟩ := C84_results h _ _ hel
  refine ⟨o, ho, ?_⟩
  have hb : ¬ BadLength n (sinceLast a + 1) o := by
    rintro (⟨_, g, _⟩ | ⟨g, _⟩) <;> omega
  rcases (h.inv.count n hk a io b o hl ha ho).2 hb with g | g
  · exact .inl (g ▸ shows_of)
  · exact .inr g

/-! ### C86 -/

/-- C86: a call that is in progress when the context is cancelled returns no element: it returns `Cancelled` (or `InvalidArgument`, when
timesteps are counted). -/
theorem C86_in_progress {c : DatasetCfg} {d d' : DataIter} {evs : List DataIter.Event} (h : Later c d evs d')
    (hp : d.phase = .calling true ∨ ∃ o, d.phase = .leaving true o) (hm : d.manager ≠ .no) {io : IterOut}
    (hio : d'.log[d.log.length]? = some io) : io = .error .cancelled ∨ io = .error .invalidArgument ∧ ∃ n, c.kind = .reverb true n := by
  rcases (h.inProgress hp hm).2 with ⟨g, _⟩ | ⟨io', l, g, hst⟩
  · rw [g] at hio; simp at hio
  · rw [g] at hio
    simp only [List.getElem?_append_right (Nat.le_refl _), Nat.sub_self, List.getElem?_cons_zero, Option.some.injEq] at hio
    subst hio
    exact hst

/-- C86, partial: calls that begin after the cancellation return no element: they return `Cancelled` (or `OutOfRange`, when all samples had
been returned, or `InvalidArgument`, when timesteps are counted). Missing: the case that a sample had been read partly, see `C86_false`. -/
theorem C86_after_partial {c : DatasetCfg} (hc : c.sampler.Valid) {now : Int} {evs evs' : List DataIter.Event} {d d' : DataIter}
    (h : Reach c now evs d) (hl : Later c d evs' d') (hp : d.phase = .idle) (hm : d.manager = .done) (hr : d.sampler.partlyRead = false) :
    ∃ l, d'.log = d.log ++ l ∧ ∀ io ∈ l, io = .error .cancelled ∨ io = .error .outOfRange ∨
      io = .error .invalidArgument ∧ ∃ n, c.kind = .reverb true n := by
  obtain ⟨l, g1, g2⟩ := (Later.afterCancel hc h hl hp hm hr).log
  refine ⟨l, g1, fun io hio => ?_⟩
  rcases g2 io hio with (g | g) | g
  · exact .inl g
  · exact .inr (.inr g)
  · exact .inr (.inl g)

/-- C86: samples are never read partly if whole samples are yielded. -/
theorem C86_whole {c : DatasetCfg} (hk : c.kind.call ≠ .timestep) {now : Int} {evs : List DataIter.Event} {d : DataIter}
    (h : Reach c now evs d) : d.sampler.partlyRead = false := by
  obtain ⟨sevs, hr⟩ := h.inv.reach
  unfold ClientSampler.partlyRead
  rw [hr.oneKind.active hk]
  rfl

/-! ### C87 -/

/-- What the sampler returns has been validated. -/
theorem logged_valid {c : SamplerCfg} {now : Int} {P : ClientSampler → ClientSampler.Event → Prop} {evs : List ClientSampler.Event}
    {v : ClientSampler} (h : ClientSampler.Reach c now P evs v) {o : SampleOut} (ho : o ∈ v.log) :
    (∃ e, o = .error e) ∨ ∃ k data, o.data? = some (k, data) ∧ k.validate c.spec data = none := by
  induction h with
  | init => simp [ClientSampler.init] at ho
  | step _ _ hst ih =>
    rcases (ClientSampler.Eff.step hst).log with e | ⟨x, o', _, e, _, hr, _⟩
    · exact ih (e ▸ ho)
    · rw [e] at ho
      rcases List.mem_append.mp ho with g | g
      · exact ih g
      · simp only [List.mem_singleton] at g
        subst g
        rcases hr with ⟨_, e', _, _, g⟩ | ⟨s, _, ⟨e', _, g⟩ | ⟨n, cols, _, ⟨e', _, g⟩ | ⟨g1, g⟩⟩⟩ |
          ⟨s, _, ⟨e', _, g⟩ | ⟨cols, _, ⟨e', _, g⟩ | ⟨g1, g⟩⟩⟩ | ⟨s, _, _, ⟨e', _, g⟩ | ⟨rows, last, s', _, ⟨e', _, g⟩ | ⟨g1, g⟩⟩⟩
        · exact .inl ⟨e', g⟩
        · exact .inl ⟨e', g⟩
        · exact .inl ⟨e', g⟩
        · exact .inr ⟨_, _, by rw [g]; rfl, g1⟩
        · exact .inl ⟨e', g⟩
        · exact .inl ⟨e', g⟩
        · exact .inr ⟨_, _, by rw [g]; rfl, g1⟩
        · exact .inl ⟨e', g⟩
        · exact .inl ⟨e', g⟩
        · exact .inr ⟨_, _, by rw [g]; rfl, g1⟩

theorem validated_split {a : DatasetAttrs} {four request : List TensorSpec} (h4 : four.length = 4) (ha : a.specs = four ++ request) :
    ∃ four' request', a.validated = four' ++ request' ∧ four'.length = 4 ∧ request'.length = request.length ∧
      ∀ (i : Nat) (r : TensorSpec), request[i]? = some r → ∃ r', request'[i]? = some r' ∧ r'.dtype = r.dtype := by
  unfold DatasetAttrs.validated
  split
  · refine ⟨_, _, by rw [ha, List.map_append], by simp [h4], by simp, ?_⟩
    intro i r hr
    exact ⟨⟨r.dtype, DatasetAttrs.dropDim r.shape⟩, by rw [List.getElem?_map, hr]; rfl, rfl⟩
  · exact ⟨four, request, ha, h4, rfl, fun i r hr => ⟨r, hr, rfl⟩⟩

/-- C87, partial: the elements of a dataset have the types that were declared, and as many columns (after the four of the info), if the
signatures came in time. Missing: when they come too late, see `C87_false`; and the shapes, see C70. -/
theorem C87_dtypes_partial {a : DatasetAttrs} {cached : Option Signatures} {server : Res Signatures} {table : String} {l : Option Int}
    {c : DatasetCfg} (hm : DatasetCfg.make a cached server table l = .ok c)
    (hs : fetchSignatures cached false server ≠ .err .deadlineExceeded) {four request : List TensorSpec} (h4 : four.length = 4)
    (ha : a.specs = four ++ request) {now : Int} {evs : List DataIter.Event} {d : DataIter} (h : Reach c now evs d) {o : SampleOut}
    (ho : .element o ∈ d.log) : ∃ data, o.data? = some (c.kind.call, data) ∧ data.length = request.length ∧
      ∀ (i : Nat) (r : TensorSpec) (t : Tensor), request[i]? = some r → data[i]? = some t → t.dtype = r.dtype := by
  have hspec : ∃ spec, c.sampler.spec = some spec ∧
      newSamplerChecked (fetchSignatures cached false server) table a.validated = .ok (some spec) := by
    unfold DatasetCfg.make at hm
    split at hm
    · cases hm
    · split at hm
      · cases hm
      · cases hm
      · rename_i spec hsp
        split at hm
        · cases hm
        · cases hm
        · rename_i sc hsc
          cases hm
          have hsc : sc.spec = spec := by
            unfold SamplerCfg.make at hsc
            simp only at hsc
            repeat' split at hsc
            all_goals first | cases hsc; rfl | cases hsc
          unfold DatasetAttrs.outputSpec at hsp
          have hnc : ∀ e, newSamplerChecked (fetchSignatures cached false server) table a.validated = .err e → e ≠ .deadlineExceeded := by
            intro e he
            unfold newSamplerChecked at he
            split at he
            · rename_i e' hf
              cases he
              intro g
              exact hs (by rw [hf, g])
            · cases he
            · split at he
              · cases he
              · split at he
                · cases he; simp
                · split at he <;> cases he
                  simp
          split at hsp
          · rename_i e he
            rw [if_neg (hnc e he)] at hsp
            cases hsp
          · unfold newSamplerChecked at hsp ⊢
            split at hsp
            · cases hsp
            · cases hsp
            · split at hsp
              · cases hsp
                exact ⟨_, hsc, rfl⟩
              · split at hsp
                · cases hsp
                · split at hsp
                  · cases hsp
                    exact ⟨_, hsc, by simp [*]⟩
                  · cases hsp
  obtain ⟨spec, hc1, hc2⟩ := hspec
  obtain ⟨four', request', hv, h4', hlen, hty⟩ := validated_split h4 ha
  rw [hv] at hc2
  obtain ⟨i, hi⟩ := List.mem_iff_getElem?.mp ho
  obtain ⟨o', ho', hsh⟩ := C84_results h i _ hi
  have : o' = o := by
    rcases hsh with hs | ⟨hs, _⟩ | ⟨hs, _⟩
    · cases o' with
      | error e => rcases hs with hs | ⟨hs, _⟩ <;> cases hs
      | _ => cases hs; rfl
    · cases hs
    · cases hs
  subst this
  obtain ⟨sevs, hr⟩ := h.inv.reach
  rcases logged_valid hr (List.mem_of_getElem? ho') with ⟨e, rfl⟩ | ⟨k, data, hd, hval⟩
  · rcases hsh with hs | ⟨hs, _⟩ | ⟨hs, _⟩
    · rcases hs with hs | ⟨hs, _⟩ <;> cases hs
    · cases hs
    · cases hs
  · have hk := hr.kinds.2 _ (List.mem_of_getElem? ho') k data hd
    subst hk
    rw [hc1] at hval
    obtain ⟨g1, g2⟩ := C70_dtypes_partial h4' hc2 hval
    refine ⟨data, hd, g1.trans hlen, ?_⟩
    intro i r t hr ht
    obtain ⟨r', hr', hd'⟩ := hty i r hr
    rw [g2 i r' t hr' ht, hd']

/-! ### C88 -/

/-- C88: the graph of a dataset makes the same dataset: the same checks, the same sampler, the same kind of iterator. -/
theorem C88_graph (a : DatasetAttrs) (cached : Option Signatures) (server : Res Signatures) (table : String) (l : Option Int) :
    a.graph.kind = a.kind ∧ a.graph.specs = a.specs ∧ a.graph.options = a.options ∧
    DatasetCfg.make a.graph cached server table l = DatasetCfg.make a cached server table l := by
  have ho : a.graph.options = a.options := by
    have : fromMillis (toMillis (fromMillis a.timeoutMs)) = fromMillis a.timeoutMs := by
      unfold fromMillis
      split
      · rfl
      · rename_i h
        have : toMillis (some (millis a.timeoutMs)) = a.timeoutMs := by
          unfold toMillis millis
          exact Int.mul_tdiv_cancel _ (by decide)
        rw [this, if_neg h]
    unfold DatasetAttrs.options DatasetAttrs.graph DatasetAttrs.graphTimeout
    simp only [DatasetAttrs.options, this]
  refine ⟨rfl, rfl, ho, ?_⟩
  have hc : a.graph.check = a.check := by
    unfold DatasetAttrs.check
    rw [ho]; rfl
  have hs : a.graph.outputSpec cached server table = a.outputSpec cached server table := rfl
  unfold DatasetCfg.make
  rw [hc, hs, ho]
  rfl

/-! ### Cases -/

namespace DatasetDemo
open SamplerDemo

/-- Datasets over a table of the same process, with a timeout of five seconds. -/
def cfg (kind : DatasetKind) : DatasetCfg := ⟨kind, SamplerDemo.here int64Max none⟩
/-- The same over a server. -/
def far (kind : DatasetKind) : DatasetCfg := ⟨kind, SamplerDemo.grpc int64Max 1 none⟩

theorem cfg_valid (kind : DatasetKind) : (cfg kind).sampler.Valid := here_valid (by decide) none

def own (e : ClientSampler.Event) : DataIter.Event := .inside e false

/-- A worker gets a sample of two timesteps. -/
def fill : List DataIter.Event := [.work 0, .work 0, .answer 0 (.ok [item2]), .work 0].map own
/-- `GetNext` takes it. -/
def get : List DataIter.Event := [.next, own (.pop 0), own (.finish 0), .leave]
/-- `GetNext` returns the next timestep. -/
def again : List DataIter.Event := [.next, own (.finish 0), .leave]
/-- `GetNext` waits until the rate limiter times out. -/
def wait : List DataIter.Event := [own (.work 0), .next, own (.tick 3000000000), own (.answer 0 (.err .deadlineExceeded)), own (.work 0),
  own (.tick 2000000000), own (.answer 0 (.err .deadlineExceeded)), own (.work 0), own (.pop 0), own (.finish 0), .leave]
/-- `Close` of the sampler goes on. -/
def closing : List DataIter.Event := [.closeStep, .closeStep, .work 0, .work 0, .closeStep].map own

/-- A dataset of batches of five rows of two, as declared. -/
def five (t : DType) : DatasetAttrs := ⟨.reverb false 5, 1, 1, -1, 5000, -1, List.replicate 4 ⟨.int64, some [some 5]⟩ ++ [⟨t, some [some 5, some 2]⟩]⟩

/-- What an iterator of a dataset of a table of the same process gives. -/
def gives (a : DatasetAttrs) (server : Res Signatures) (evs : List DataIter.Event) (log : List IterOut) : Prop :=
  ∃ c d, DatasetCfg.make a none server "t" (some 1) = .ok c ∧ Reach c 0 evs d ∧ d.log = log

theorem gives_of {a : DatasetAttrs} {server : Res Signatures} {evs : List DataIter.Event} {log : List IterOut}
    (h : (match DatasetCfg.make a none server "t" (some 1) with
      | .ok c => after c (DataIter.init c 0) (fun d => decide (d.log = log)) evs
      | _ => false) = true) : gives a server evs log := by
  split at h
  · rename_i c hc
    obtain ⟨d, g1, g2⟩ := after_init h
    exact ⟨c, d, hc, g1, by simpa using g2⟩
  · cases h

end DatasetDemo
open DatasetDemo

/-- C84: a sample of two timesteps, and then the end, twice. -/
example : ∃ d, Reach (cfg .timestep) 0 (fill ++ get ++ again ++ wait ++ get) d ∧
    d.log = [.element (.timestep [SampleDemo.row 1] false), .element (.timestep [SampleDemo.row 2] true), .endOfSequence, .endOfSequence] := by
  obtain ⟨d, h1, h2⟩ := after_init (c := cfg .timestep) (now := 0) (evs := fill ++ get ++ again ++ wait ++ get) (P := fun d => decide (d.log =
    [.element (.timestep [SampleDemo.row 1] false), .element (.timestep [SampleDemo.row 2] true), .endOfSequence, .endOfSequence]))
    (by decide +kernel)
  exact ⟨d, h1, by simpa using h2⟩

/-- C84: a whole sample. -/
example : ∃ d, Reach (cfg .trajectory) 0 (fill ++ get ++ wait) d ∧ d.log.map IterOut.isElement = [true, false] ∧
    d.log.getLast? = some .endOfSequence := by
  obtain ⟨d, h1, h2⟩ := after_init (c := cfg .trajectory) (now := 0) (evs := fill ++ get ++ wait) (P := fun d => decide (
    d.log.map IterOut.isElement = [true, false] ∧ d.log.getLast? = some .endOfSequence)) (by decide +kernel)
  exact ⟨d, h1, by simpa using h2⟩

/-- Where `C84_end_run_partial` begins. -/
example : ∃ d, Reach (far .trajectory) 0 [own (.work 0), own (.work 0), own (.write 0 none), .next] d ∧ d.sampler.dead = false ∧
    d.manager = .no ∧ d.sampler.workers[0]? = some ⟨false, .fetch 10000 0 (.reading 1 0 [])⟩ ∧ Waiting d ∧ d.sampler.status = none ∧
    d.sampler.returned ≠ int64Max := by
  obtain ⟨d, h1, h2⟩ := after_init (c := far .trajectory) (now := 0) (evs := [own (.work 0), own (.work 0), own (.write 0 none), .next])
    (P := fun d : DataIter => (d.sampler.workers[0]?).any (fun w : SWorker =>
      match w with
      | ⟨false, .fetch 10000 0 (.reading 1 0 [])⟩ => true
      | _ => false) && (match d.sampler.calls.get? 0 with
        | some (.popping _ _) => true
        | _ => false) && decide (d.sampler.dead = false ∧ d.manager = .no ∧ d.sampler.status = none ∧ d.sampler.returned ≠ int64Max))
    (by decide +kernel)
  simp only [Bool.and_eq_true, decide_eq_true_eq, Option.any_eq_true] at h2
  obtain ⟨⟨⟨w, hw, hw'⟩, hx⟩, g1, g2, g3, g4⟩ := h2
  refine ⟨d, h1, g1, g2, ?_, ?_, g3, g4⟩
  · rw [hw]
    split at hw'
    · rfl
    · cases hw'
  · split at hx
    · rename_i k t hk
      exact ⟨k, t, hk⟩
    · cases hx

/-- C85: a sample of two timesteps has the right length, and so is yielded, if `sequence_length` is 2; if it is 3 the second timestep is
rejected, if it is 1 the first one. -/
example : (∃ d, Reach (cfg (.reverb true 2)) 0 (fill ++ get ++ again) d ∧
      d.log = [.element (.timestep [SampleDemo.row 1] false), .element (.timestep [SampleDemo.row 2] true)]) ∧
    (∃ d, Reach (cfg (.reverb true 3)) 0 (fill ++ get ++ again) d ∧
      d.log = [.element (.timestep [SampleDemo.row 1] false), .error .invalidArgument]) ∧
    ∃ d, Reach (cfg (.reverb true 1)) 0 (fill ++ get) d ∧ d.log = [.error .invalidArgument] := by
  refine ⟨?_, ?_, ?_⟩
  · obtain ⟨d, h1, h2⟩ := after_init (c := cfg (.reverb true 2)) (now := 0) (evs := fill ++ get ++ again) (P := fun d => decide (d.log =
      [.element (.timestep [SampleDemo.row 1] false), .element (.timestep [SampleDemo.row 2] true)])) (by decide +kernel)
    exact ⟨d, h1, by simpa using h2⟩
  · obtain ⟨d, h1, h2⟩ := after_init (c := cfg (.reverb true 3)) (now := 0) (evs := fill ++ get ++ again) (P := fun d => decide (d.log =
      [.element (.timestep [SampleDemo.row 1] false), .error .invalidArgument])) (by decide +kernel)
    exact ⟨d, h1, by simpa using h2⟩
  · obtain ⟨d, h1, h2⟩ := after_init (c := cfg (.reverb true 1)) (now := 0) (evs := fill ++ get) (P := fun d => decide (d.log =
      [.error .invalidArgument])) (by decide +kernel)
    exact ⟨d, h1, by simpa using h2⟩

/-- C84 is false when timesteps are counted and `sequence_length` is 1: a timeout of the rate limiter is reported as `InvalidArgument`, as
if a sample had not ended in time, and not as the end of the sequence. -/
theorem C84_counted_false : ∃ evs d, Reach (cfg (.reverb true 1)) 0 evs d ∧ d.sampler.log = [.error .deadlineExceeded] ∧
    d.log = [.error .invalidArgument] := by
  obtain ⟨d, h1, h2⟩ := after_init (c := cfg (.reverb true 1)) (now := 0) (evs := own (.work 0) :: wait) (P := fun d => decide (
    d.sampler.log = [.error .deadlineExceeded] ∧ d.log = [.error .invalidArgument])) (by decide +kernel)
  exact ⟨_, d, h1, by simpa using h2⟩

/-- C85 is false without `emit_timesteps`: a batch of two timesteps is yielded where `sequence_length` is 5 and shapes with five rows are
declared. -/
theorem C85_batched_false : ∃ evs cols, gives (five .int32) (.ok .empty) evs [.element (.batched 2 cols)] ∧
    cols.map Tensor.shape = [[2, 2]] ∧ (five .int32).specs.drop 4 = [⟨.int32, some [some 5, some 2]⟩] := by
  refine ⟨fill ++ get, [Tensor.stack .int32 [2] [SampleDemo.row 1, SampleDemo.row 2]], gives_of (by decide +kernel), by decide +kernel, rfl⟩

/-- C86: cancelled while `GetNext` waits. -/
example : ∃ d d', Reach (cfg .trajectory) 0 ([own (.work 0), .next, .cancel]) d ∧ d.phase = .calling true ∧ d.manager ≠ .no ∧
    Later (cfg .trajectory) d (closing ++ [.cancelled, own (.pop 0), own (.finish 0), .leave]) d' ∧ d'.log = [.error .cancelled] := by
  obtain ⟨d, h1, h2⟩ := after_init (c := cfg .trajectory) (now := 0) (evs := [own (.work 0), .next, .cancel])
    (P := fun d => decide (d.phase = .calling true ∧ d.manager ≠ .no) && after (cfg .trajectory) d (fun d => decide (d.log = [.error .cancelled]))
      (closing ++ [.cancelled, own (.pop 0), own (.finish 0), .leave])) (by decide +kernel)
  simp only [Bool.and_eq_true, decide_eq_true_eq] at h2
  obtain ⟨d', g1, g2⟩ := after_later .refl h2.2
  exact ⟨d, d', h1, h2.1.1, h2.1.2, by simpa using g1, by simpa using g2⟩

/-- C86: cancelled between two calls. -/
example : ∃ d d', Reach (cfg .trajectory) 0 (fill ++ get ++ [.cancel]) d ∧ d.phase = .idle ∧ d.manager = .done ∧
    d.sampler.partlyRead = false ∧
    Later (cfg .trajectory) d ([.next] ++ closing ++ [.closed, own (.pop 0), own (.finish 0), .leave]) d' ∧
    d'.log.drop 1 = [.error .cancelled] := by
  obtain ⟨d, h1, h2⟩ := after_init (c := cfg .trajectory) (now := 0) (evs := fill ++ get ++ [.cancel])
    (P := fun d => decide (d.phase = .idle ∧ d.manager = .done ∧ d.sampler.partlyRead = false) &&
      after (cfg .trajectory) d (fun d => decide (d.log.drop 1 = [.error .cancelled]))
      ([.next] ++ closing ++ [.closed, own (.pop 0), own (.finish 0), .leave])) (by decide +kernel)
  simp only [Bool.and_eq_true, decide_eq_true_eq] at h2
  obtain ⟨d', g1, g2⟩ := after_later .refl h2.2
  exact ⟨d, d', h1, h2.1.1, h2.1.2.1, h2.1.2.2, by simpa using g1, by simpa using g2⟩

/-- C86 is false when a sample has been read partly: a call that begins after the context was cancelled, and after `Close` of the sampler has
returned, yields the next timestep. -/
theorem C86_false : ∃ evs evs' d d', Reach (cfg .timestep) 0 evs d ∧ d.phase = .idle ∧ d.manager = .done ∧
    Later (cfg .timestep) d evs' d' ∧ d'.log = d.log ++ [.element (.timestep [SampleDemo.row 2] true)] := by
  obtain ⟨d, h1, h2⟩ := after_init (c := cfg .timestep) (now := 0) (evs := fill ++ get ++ [.cancel])
    (P := fun d => decide (d.phase = .idle ∧ d.manager = .done) &&
      after (cfg .timestep) d (fun d' => decide (d'.log = d.log ++ [.element (.timestep [SampleDemo.row 2] true)]))
      ([.next] ++ closing ++ [.closed, own (.finish 0), .leave])) (by decide +kernel)
  simp only [Bool.and_eq_true, decide_eq_true_eq] at h2
  obtain ⟨d', g1, g2⟩ := after_later .refl h2.2
  exact ⟨_, _, d, d', h1, h2.1.1, h2.1.2, by simpa using g1, by simpa using g2⟩

/-- C87 is false when the signatures come too late: floats are declared and integers are yielded. -/
theorem C87_false : ∃ evs n cols, gives (five .float) (.err .deadlineExceeded) evs [.element (.batched n cols)] ∧
    cols.map Tensor.dtype = [.int32] ∧ ((five .float).specs.drop 4).map TensorSpec.dtype = [.float] := by
  refine ⟨fill ++ get, 2, [Tensor.stack .int32 [2] [SampleDemo.row 1, SampleDemo.row 2]], gives_of (by decide +kernel), by decide +kernel, by decide⟩

/-- C87: the hypotheses are met; with the wrong type the sample is rejected. -/
example : gives (five .int32) (.ok .empty) (fill ++ get) [.element (.batched 2 [Tensor.stack .int32 [2] [SampleDemo.row 1, SampleDemo.row 2]])] ∧
    gives (five .float) (.ok .empty) (fill ++ get) [.error .invalidArgument] :=
  ⟨gives_of (by decide +kernel), gives_of (by decide +kernel)⟩

/-- C88: a finite timeout and an infinite one. -/
example : (five .int32).graph.timeoutMs = 5000 ∧ { five .int32 with timeoutMs := -7 }.graph.timeoutMs = -1 ∧
    { five .int32 with timeoutMs := -7 }.options.timeout = none := by decide

end Verif
