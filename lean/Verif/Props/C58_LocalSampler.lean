import Verif.Proofs.ClientSamplerTime
import Verif.Props.C45_C68_ClientSampler
/-
C58: `rate_limiter_timeout` of a sampler that samples from a table of the same process.
-/
namespace Verif
namespace ClientSampler

/-- At the end of schedule `evs` a call waits, and for at least the timeout the table has given nothing to worker `i`. -/
def TimedOut (c : SamplerCfg) (now : Int) (P : ClientSampler → Event → Prop) (evs : List Event) (i : Nat) : Prop :=
  ∃ t evs1 evs2 v1 v2, c.timeout = some t ∧ evs = evs1 ++ evs2 ∧ Reach c now P evs1 v1 ∧ Reach c now P evs v2 ∧
    v1.clock + t ≤ v2.clock ∧ (∀ l, Event.answer i (.ok l) ∉ evs2) ∧ ∃ x, Waits v2 x

/-- The moment when worker `i` began to wait: it had just begun to fetch samples or got some from the table, or no call of the ones that
wait now had begun. -/
structure Began (c : SamplerCfg) (now : Int) (P : ClientSampler → Event → Prop) (evs : List Event) (v : ClientSampler) (i : Nat)
    (base : Int) : Prop where
  le : base ≤ v.clock
  since : ∃ evs1 evs2 v1, evs = evs1 ++ evs2 ∧ Reach c now P evs1 v1 ∧ v1.clock = base ∧ (∀ l, Event.answer i (.ok l) ∉ evs2) ∧
    ((evs1.getLast? = some (.work i) ∨ ∃ l, evs1.getLast? = some (.answer i (.ok l))) ∨
      ∀ x k since, v.calls.get? x = some (.popping k since) → base ≤ since)

theorem alive_of_step {c : SamplerCfg} {v v' : ClientSampler} {e : Event} (hs : step c v e = some v') : v.dead = false := by
  unfold ClientSampler.step at hs
  split at hs
  · cases hs
  · rename_i g
    simpa using g

theorem clock_le {c : SamplerCfg} {v v' : ClientSampler} {e : Event} (hs : step c v e = some v') : v.clock ≤ v'.clock := by
  have := (Eff.step hs).clock
  rw [this]
  split <;> omega

theorem clock_eq {c : SamplerCfg} {v v' : ClientSampler} {e : Event} (hs : step c v e = some v') (he : ∀ d, e ≠ .tick d) :
    v'.clock = v.clock := by
  have := (Eff.step hs).clock
  rw [this]
  split
  · rename_i d
    exact absurd rfl (he d)
  · rfl

theorem Reach.timed {c : SamplerCfg} {now : Int} {P : ClientSampler → Event → Prop} {evs : List Event} {v : ClientSampler}
    (h : Reach c now P evs v) (hd : v.dead = false) {i : Nat} {w : SWorker} (hw : v.workers[i]? = some w) {final : Duration} {base : Int}
    (ht : w.phase.timing = some (final, base)) : final = deadlineAt base c.timeout ∧ Began c now P evs v i base := by
  induction h generalizing w final base with
  | init =>
    exfalso
    have := List.eq_of_mem_replicate (List.mem_of_getElem? hw)
    subst this
    cases ht
  | @step evs e v0 v h0 hP hs ih =>
    have hreach := h0.step hP hs
    have hle := clock_le hs
    rcases (Timing.step hs hd hw).timing _ _ ht with ⟨w0, hw0, ht0, hne⟩ | ⟨hb, hf, he⟩ | ⟨hb, hf, hwait, st, he⟩
    · obtain ⟨g1, g2, evs1, evs2, v1, g3, g4, g5, g6, g7⟩ := ih (alive_of_step hs) hw0 ht0
      refine ⟨g1, by omega, evs1, evs2 ++ [e], v1, by rw [g3, List.append_assoc], g4, g5, ?_, ?_⟩
      · intro l hl
        rcases List.mem_append.mp hl with g | g
        · exact g6 l g
        · simp only [List.mem_singleton] at g
          exact hne l g.symm
      · rcases g7 with g7 | g7
        · exact .inl g7
        · right
          intro x k since hx
          rcases popping_step hs hx with g | g
          · exact g7 x k since g
          · omega
    · have hck : v.clock = v0.clock := clock_eq hs (by rcases he with rfl | ⟨l, rfl⟩ <;> simp)
      refine ⟨hb ▸ hf, by omega, evs ++ [e], [], v, by simp, hreach, by omega, by simp, .inl ?_⟩
      simpa using he
    · refine ⟨hb ▸ hf, by omega, evs, [e], v0, rfl, h0, hb.symm, ?_, .inr ?_⟩
      · simp [he]
      · intro x k since hx
        rcases popping_step hs hx with g | g
        · have := waitingToPop_pos g
          omega
        · omega

theorem Reach.causes {c : SamplerCfg} (hc : c.Valid) (hg : c.isGrpc = false) {now : Int} {P : ClientSampler → Event → Prop}
    (hP : ∀ v e, P v e → Faithful v e) {evs : List Event} {v : ClientSampler} (h : Reach c now P evs v) :
    (∀ (i : Nat) (w : SWorker) (n got : Int), v.workers[i]? = some w → w.phase = .report n got (some .deadlineExceeded) →
      ∃ evs1 evs2, evs = evs1 ++ evs2 ∧ TimedOut c now P evs1 i) ∧
    (v.status = some .deadlineExceeded → ∃ i evs1 evs2, evs = evs1 ++ evs2 ∧ TimedOut c now P evs1 i) := by
  induction h with
  | init =>
    refine ⟨?_, by intro g; cases g⟩
    intro i w n got hw hp
    have := List.eq_of_mem_replicate (List.mem_of_getElem? hw)
    subst this
    cases hp
  | @step evs e v0 v h0 hPe hs ih =>
    have hd0 := alive_of_step hs
    have hinv : SInv c v0 := by
      rcases SInv.reach hc hP h0 with g | g
      · rw [hd0] at g; cases g
      · exact g
    refine ⟨?_, ?_⟩
    · intro i w n got hw hp
      rcases Late.step hinv hg hs hw n got hp with ⟨w0, hw0, hp0⟩ | ⟨he, cl, n0, got0, final, base, batch, dl, hw0, hall, hwait⟩
      · obtain ⟨a, b, e1, g⟩ := ih.1 i w0 n got hw0 (hp0.trans hp)
        exact ⟨a, b ++ [e], by rw [e1, List.append_assoc], g⟩
      · obtain ⟨hf, _, evs1, evs2, v1, g3, g4, g5, g6, _⟩ := h0.timed hd0 hw0 (final := final) (base := base) rfl
        refine ⟨evs, [e], rfl, ?_⟩
        cases htm : c.timeout with
        | none =>
          rw [htm] at hf
          rw [hf] at hall
          cases hall
        | some t =>
          rw [htm] at hf
          rw [hf] at hall
          have hall : decide (v0.clock < base + t) = false := hall
          refine ⟨t, evs1, evs2, v1, v0, htm, g3, g4, h0, ?_, g6, waits_of_waitingToPop hwait⟩
          have := of_decide_eq_false hall
          omega
    · intro hst
      rcases status_step hs (by rw [hst]; simp) with g | ⟨i, w, n, got, hw, hp, _⟩
      · obtain ⟨i, a, b, e1, g⟩ := ih.2 (g.trans hst)
        exact ⟨i, a, b ++ [e], by rw [e1, List.append_assoc], g⟩
      · rw [hst] at hp
        obtain ⟨a, b, e1, g⟩ := ih.1 i w n got hw hp
        exact ⟨i, a, b ++ [e], by rw [e1, List.append_assoc], g⟩

end ClientSampler
open ClientSampler

/-- C58: a local sampler does not time out early. If it returns `DeadlineExceeded` to a call, then there was a time when a call waited and
the table had given nothing to a worker for at least the timeout. -/
theorem C58_local_not_early {c : SamplerCfg} (hc : c.Valid) (hg : c.isGrpc = false) {now : Int} {evs : List Event} {v : ClientSampler}
    (h : Reach c now Faithful evs v) (hl : SampleOut.error .deadlineExceeded ∈ v.log) :
    ∃ i evs1 evs2, evs = evs1 ++ evs2 ∧ TimedOut c now Faithful evs1 i := by
  induction h with
  | init => cases hl
  | @step evs e v0 v h0 hPe hs ih =>
    rcases (Eff.step hs).log with g | ⟨x, o, he, hlog, _, hr, _⟩
    · rw [g] at hl
      obtain ⟨i, a, b, e1, g⟩ := ih hl
      exact ⟨i, a, b ++ [e], by rw [e1, List.append_assoc], g⟩
    · rw [hlog] at hl
      rcases List.mem_append.mp hl with g | g
      · obtain ⟨i, a, b, e1, g⟩ := ih g
        exact ⟨i, a, b ++ [e], by rw [e1, List.append_assoc], g⟩
      · simp only [List.mem_singleton] at g
        subst g
        have hval : ∀ k spec d, SampleCall.validate k spec d ≠ some .deadlineExceeded := by
          intro k spec d
          unfold SampleCall.validate
          split
          · simp
          · split
            · simp
            · split <;> simp
        rcases hr with ⟨k, e', _, hp, ho⟩ | hr
        · cases ho
          have hst : v0.status = some .deadlineExceeded := by
            unfold popStatus at hp
            split at hp
            · cases hp
            · split at hp
              · cases hp
              · exact hp
          obtain ⟨i, a, b, e1, g⟩ := (h0.causes hc hg (fun _ _ g => g)).2 hst
          exact ⟨i, a, b ++ [e], by rw [e1, List.append_assoc], g⟩
        · exfalso
          rcases hr with ⟨s, _, ⟨e, g1, g2⟩ | ⟨n, cols, _, ⟨e, g1, g2⟩ | ⟨_, g2⟩⟩⟩ | ⟨s, _, ⟨e, g1, g2⟩ | ⟨cols, _, ⟨e, g1, g2⟩ | ⟨_, g2⟩⟩⟩ |
            ⟨s, _, _, ⟨e, g1, g2⟩ | ⟨rows, last, s', _, ⟨e, g1, g2⟩ | ⟨_, g2⟩⟩⟩ <;> cases g2
          · exact (Sample.asBatched_code g1).not_deadline rfl
          · exact hval _ _ _ g1
          · exact (Sample.asTrajectory_code g1).not_deadline rfl
          · exact hval _ _ _ g1
          · exact (Sample.deliver_code g1).not_deadline rfl
          · exact hval _ _ _ g1

/-- C58: with an infinite timeout a local sampler never returns `DeadlineExceeded`. -/
theorem C58_local_infinite {c : SamplerCfg} (hc : c.Valid) (hg : c.isGrpc = false) (ht : c.timeout = none) {now : Int} {evs : List Event}
    {v : ClientSampler} (h : Reach c now Faithful evs v) : SampleOut.error .deadlineExceeded ∉ v.log := by
  intro hl
  obtain ⟨i, a, b, _, t, _, _, _, _, e, _⟩ := C58_local_not_early hc hg h hl
  rw [ht] at e
  cases e

/-- C58: no call of the table waits past the timeout. Its deadline is at most the timeout after the moment when the worker began to wait
(it began to fetch samples, or the table gave it some, or a moment before all calls that now wait), and never more than three seconds away
when it is made. -/
theorem C58_local_deadline {c : SamplerCfg} {now : Int} {P : ClientSampler → Event → Prop} {evs : List Event} {v : ClientSampler}
    (h : Reach c now P evs v) (hd : v.dead = false) {i : Nat} {cl : Bool} {n got : Int} {final : Duration} {base batch deadline : Int}
    (hw : v.workers[i]? = some ⟨cl, .fetch n got (.sampling final base batch deadline)⟩) :
    deadline ≤ v.clock + 3000000000 ∧ Began c now P evs v i base ∧ ∀ t, c.timeout = some t → deadline ≤ base + t := by
  obtain ⟨hf, hb⟩ := h.timed hd hw (final := final) (base := base) rfl
  have hdl : deadline ≤ v.clock + wakeup ∧ ∀ f, final = some f → deadline ≤ f := by
    clear hb hf
    induction h generalizing cl n got final base batch deadline with
    | init =>
      exfalso
      have := List.eq_of_mem_replicate (List.mem_of_getElem? hw)
      cases this
    | @step evs e v0 v h0 hPe hs ih =>
      have hle := clock_le hs
      rcases (Timing.step hs hd hw).deadline deadline rfl with ⟨w0, hw0, hp0⟩ | ⟨f', b', hft, hdl⟩
      · obtain ⟨cl0, p0⟩ := w0
        simp only at hp0
        subst hp0
        obtain ⟨g1, g2⟩ := ih (alive_of_step hs) hw0
        exact ⟨by omega, g2⟩
      · cases hft
        unfold nextDeadline at hdl
        split at hdl
        · exact ⟨by omega, by simp⟩
        · refine ⟨by omega, ?_⟩
          intro f g
          cases g
          omega
  refine ⟨hdl.1, hb, ?_⟩
  intro t ht
  rw [ht] at hf
  exact hdl.2 _ hf

/-- A worker that reports a timeout ends the call that waits. -/
theorem report_ends {c : SamplerCfg} {v : ClientSampler} (hd : v.dead = false) {i : Nat} {cl : Bool} {n got : Int}
    (hw : v.workers[i]? = some ⟨cl, .report n got (some .deadlineExceeded)⟩) {x : Nat} (hx : Waits v x) (hst : v.status = none)
    (hcl : v.closed = false) (hm : v.returned ≠ c.max) :
    ∃ v', run c v [.work i, .pop x, .finish x] = some v' ∧ v'.log = v.log ++ [.error .deadlineExceeded] := by
  obtain ⟨k, since, hx⟩ := hx
  obtain ⟨v2, e2, hv2⟩ : ∃ v2, step c v (.work i) = some v2 ∧ v2.queueClosed = true ∧
      v2.status = some .deadlineExceeded ∧ v2.dead = false ∧ v2.closed = false ∧ v2.returned = v.returned ∧ v2.calls = v.calls ∧
      v2.log = v.log := by
    refine ⟨v.reported i n got (some .deadlineExceeded), ?_, ?_⟩
    · unfold ClientSampler.step ClientSampler.work
      rw [if_neg (by simp [hd])]
      simp only [hw]
    · unfold reported
      simp only
      rw [if_pos ⟨hst, by simp, by simp⟩]
      exact ⟨rfl, rfl, hd, hcl, rfl, rfl, rfl⟩
  obtain ⟨q1, q2, q3, q4, q5, q6, q7⟩ := hv2
  have h3 : step c v2 (.pop x) = some { v2 with calls := v2.calls.insert x (.failed k) } := by
    unfold ClientSampler.step ClientSampler.pop
    rw [if_neg (by simp [q3])]
    simp only [q6, hx, q1, if_true]
  have hps : ({ v2 with calls := v2.calls.insert x (.failed k) } : ClientSampler).popStatus c = some .deadlineExceeded := by
    unfold popStatus
    simp only
    rw [if_neg (by omega), if_neg (by simp [q4]), q2]
  have h4 : step c { v2 with calls := v2.calls.insert x (.failed k) } (.finish x) =
      some (({ v2 with calls := v2.calls.insert x (.failed k) } : ClientSampler).ret x (.error .deadlineExceeded)) := by
    unfold ClientSampler.step ClientSampler.finish
    rw [if_neg (by simp [q3])]
    simp only [AMap.get?_insert_self]
    rw [hps]
  refine ⟨({ v2 with calls := v2.calls.insert x (.failed k) } : ClientSampler).ret x (.error .deadlineExceeded), ?_, ?_⟩
  · simp only [run, e2, h3, h4, Option.bind_some]
  · show v2.log ++ _ = _
    rw [q7]

theorem setPhase_at {v : ClientSampler} {i : Nat} {cl : Bool} {p0 : SWPhase} (hw : v.workers[i]? = some ⟨cl, p0⟩) (p : SWPhase) :
    (v.setPhase i p).workers[i]? = some ⟨cl, p⟩ := by
  unfold setPhase
  simp [List.getElem?_modify, hw]

/-- C58: a local sampler times out in time. If the table call of a worker returns a timeout when the timeout has passed since the worker
began to wait, the call that waits returns `DeadlineExceeded`, and nothing else has to happen first. -/
theorem C58_local_report {c : SamplerCfg} {now : Int} {P : ClientSampler → Event → Prop} {evs : List Event} {v : ClientSampler}
    (h : Reach c now P evs v) (hd : v.dead = false) {i : Nat} {cl : Bool} {n got : Int} {final : Duration} {base batch deadline : Int}
    (hw : v.workers[i]? = some ⟨cl, .fetch n got (.sampling final base batch deadline)⟩) {t : Int} (ht : c.timeout = some t)
    (hlate : base + t ≤ v.clock) {x : Nat} (hx : Waits v x) (hst : v.status = none) (hcl : v.closed = false) (hm : v.returned ≠ c.max) :
    ∃ v', run c v [.answer i (.err .deadlineExceeded), .work i, .pop x, .finish x] = some v' ∧
      v'.log = v.log ++ [.error .deadlineExceeded] := by
  obtain ⟨hf, _⟩ := h.timed hd hw (final := final) (base := base) rfl
  rw [ht] at hf
  have hdl := (C58_local_deadline h hd hw).2.2 t ht
  have hwait : 1 ≤ v.waitingToPop := by
    obtain ⟨k, since, hx⟩ := hx
    exact waitingToPop_pos hx
  have h1 : step c v (.answer i (.err .deadlineExceeded)) = some (v.setPhase i (.report n got (some .deadlineExceeded))) := by
    unfold ClientSampler.step ClientSampler.answer
    rw [if_neg (by simp [hd])]
    simp only [hw, if_true]
    rw [if_neg (by omega), if_neg (by rw [hf]; simp [deadlineAt]; omega), if_neg (by omega)]
  obtain ⟨v', g1, g2⟩ := report_ends (c := c) (v := v.setPhase i (.report n got (some .deadlineExceeded))) hd (setPhase_at hw _) hx hst hcl hm
  refine ⟨v', ?_, g2⟩
  simp only [run, h1, Option.bind_some] at g1 ⊢
  exact g1

/-- C58: a sampler of a server reports timeouts: if the server ends the stream of a worker with a timeout while a call waits, the call
returns `DeadlineExceeded`, and nothing else has to happen first. -/
theorem C58_remote_report {c : SamplerCfg} {v : ClientSampler} (hd : v.dead = false) {i : Nat} {cl : Bool} {n got : Int} {want sampled : Int}
    {parts : List Entry} (hw : v.workers[i]? = some ⟨cl, .fetch n got (.reading want sampled parts)⟩) (limiter : Bool) {x : Nat}
    (hx : Waits v x) (hst : v.status = none) (hcl : v.closed = false) (hm : v.returned ≠ c.max) :
    ∃ v', run c v [.streamEnd i (some .deadlineExceeded) limiter, .work i, .pop x, .finish x] = some v' ∧
      v'.log = v.log ++ [.error .deadlineExceeded] := by
  have hwait : 1 ≤ v.waitingToPop := by
    obtain ⟨k, since, hx⟩ := hx
    exact waitingToPop_pos hx
  have h1 : step c v (.streamEnd i (some .deadlineExceeded) limiter) = some ({ v with
      abandoned := v.abandoned + (want - sampled) }.setPhase i (.report n got (some .deadlineExceeded))) := by
    unfold ClientSampler.step ClientSampler.streamEnd
    rw [if_neg (by simp [hd])]
    simp only [hw]
    rw [if_neg (by omega)]
  obtain ⟨v', g1, g2⟩ := report_ends (c := c) (v := ({ v with
      abandoned := v.abandoned + (want - sampled) } : ClientSampler).setPhase i (.report n got (some .deadlineExceeded))) hd
    (setPhase_at (v := { v with abandoned := v.abandoned + (want - sampled) }) hw _) hx hst hcl hm
  refine ⟨v', ?_, g2⟩
  simp only [run, h1, Option.bind_some] at g1 ⊢
  exact g1

/-- C58: if no call waits, the end of the stream because of the rate limiter is not an error: no call returns it, and the worker goes on to
fetch samples. -/
theorem C58_remote_quiet {c : SamplerCfg} {v : ClientSampler} (hd : v.dead = false) {i : Nat} {cl : Bool} {n got : Int} {want sampled : Int}
    {parts : List Entry} (hw : v.workers[i]? = some ⟨cl, .fetch n got (.reading want sampled parts)⟩) (hx : ∀ x, ¬ Waits v x) :
    ∃ v', run c v [.streamEnd i (some .deadlineExceeded) true, .work i] = some v' ∧ v'.log = v.log ∧ v'.status = v.status ∧
      v'.queueClosed = v.queueClosed ∧ v'.workers[i]? = some ⟨cl, .idle⟩ := by
  have hwait : v.waitingToPop < 1 := by
    rcases Nat.lt_or_ge v.waitingToPop 1 with g | g
    · exact g
    · obtain ⟨x, hx'⟩ := waits_of_waitingToPop g
      exact absurd hx' (hx x)
  have h1 : step c v (.streamEnd i (some .deadlineExceeded) true) = some ({ v with
      abandoned := v.abandoned + (want - sampled) }.setPhase i (.report n got none)) := by
    unfold ClientSampler.step ClientSampler.streamEnd
    rw [if_neg (by simp [hd])]
    simp only [hw]
    rw [if_pos ⟨trivial, trivial, hwait⟩]
  have h2 : step c (({ v with abandoned := v.abandoned + (want - sampled) } : ClientSampler).setPhase i (.report n got none)) (.work i) =
      some ((({ v with abandoned := v.abandoned + (want - sampled) } : ClientSampler).setPhase i (.report n got none)).reported i n got none) := by
    unfold ClientSampler.step ClientSampler.work
    rw [if_neg (by simp [setPhase, hd])]
    simp only [setPhase_at (v := { v with abandoned := v.abandoned + (want - sampled) }) hw]
  refine ⟨_, by simp only [run, h1, h2, Option.bind_some]; rfl, ?_⟩
  unfold reported
  simp only
  rw [if_neg (by simp)]
  exact ⟨rfl, rfl, rfl, setPhase_at (v := ({ v with
    abandoned := v.abandoned + (want - sampled) } : ClientSampler).setPhase i (.report n got none)) (setPhase_at
      (v := { v with abandoned := v.abandoned + (want - sampled) }) hw _) _⟩

open SamplerDemo

/-- The hypotheses of the theorems above are met: nobody waits at first, the deadline is moved; then a call waits for at most the timeout
and the three seconds before the worker notices that it waits. -/
example : ∃ v, Reach (here 1 none) 0 Faithful [.work 0, .work 0, .tick 3000000000, .answer 0 (.err .deadlineExceeded), .work 0, .tick 2000000000,
      .answer 0 (.err .deadlineExceeded), .work 0, .call 0 .trajectory, .tick 3000000000, .answer 0 (.err .deadlineExceeded), .work 0,
      .tick 2000000000, .answer 0 (.err .deadlineExceeded), .work 0, .pop 0, .finish 0] v ∧ v.log = [.error .deadlineExceeded] := by
  obtain ⟨v, h1, h2⟩ := after_init (c := here 1 none) (now := 0) (P := fun v => decide (v.log = [.error .deadlineExceeded]))
    (evs := [.work 0, .work 0, .tick 3000000000, .answer 0 (.err .deadlineExceeded), .work 0, .tick 2000000000,
      .answer 0 (.err .deadlineExceeded), .work 0, .call 0 .trajectory, .tick 3000000000, .answer 0 (.err .deadlineExceeded), .work 0,
      .tick 2000000000, .answer 0 (.err .deadlineExceeded), .work 0, .pop 0, .finish 0]) (by decide +kernel)
  exact ⟨v, h1, by simpa using h2⟩

/-- Where `C58_local_report` begins. -/
example : ∃ v w, Reach (here 1 none) 0 Faithful [.work 0, .call 0 .trajectory, .work 0, .tick 3000000000, .answer 0 (.err .deadlineExceeded),
      .work 0, .tick 2000000000] v ∧ v.dead = false ∧ v.workers[0]? = some w ∧ w.phase.timing = some (some 5000000000, 0) ∧
      0 + 5000000000 ≤ v.clock ∧ v.status = none ∧ v.closed = false ∧ v.returned ≠ 1 := by
  obtain ⟨v, h1, h2⟩ := after_init (c := here 1 none) (now := 0) (P := fun v : ClientSampler => (v.workers[0]?).any (fun w : SWorker => decide (w.phase.timing =
      some (some 5000000000, 0))) && decide (v.dead = false ∧ 0 + 5000000000 ≤ v.clock ∧ v.status = none ∧ v.closed = false ∧ v.returned ≠ 1))
    (evs := [.work 0, .call 0 .trajectory, .work 0, .tick 3000000000, .answer 0 (.err .deadlineExceeded), .work 0, .tick 2000000000])
    (by decide +kernel)
  simp only [Bool.and_eq_true, decide_eq_true_eq, Option.any_eq_true] at h2
  obtain ⟨⟨w, hw, ht⟩, hd, hc, hs, hcl, hr⟩ := h2
  exact ⟨v, w, h1, hd, hw, ht, hc, hs, hcl, hr⟩

/-- Where `C58_remote_report` begins. Without the call it is where `C58_remote_quiet` begins. -/
example : ∃ v, Reach (grpc 1 1 none) 0 Faithful [.work 0, .work 0, .write 0 none, .call 0 .trajectory] v ∧ v.dead = false ∧
    v.workers[0]? = some ⟨false, .fetch 1 0 (.reading 1 0 [])⟩ ∧ Waits v 0 ∧ v.status = none ∧ v.closed = false ∧ v.returned ≠ 1 := by
  obtain ⟨v, h1, h2⟩ := after_init (c := grpc 1 1 none) (now := 0) (P := fun v : ClientSampler => (v.workers[0]?).any (fun w : SWorker =>
      match w with
      | ⟨false, .fetch 1 0 (.reading 1 0 [])⟩ => true
      | _ => false) && (match v.calls.get? 0 with
        | some (.popping _ _) => true
        | _ => false) && decide (v.dead = false ∧ v.status = none ∧ v.closed = false ∧ v.returned ≠ 1))
    (evs := [.work 0, .work 0, .write 0 none, .call 0 .trajectory]) (by decide +kernel)
  simp only [Bool.and_eq_true, decide_eq_true_eq, Option.any_eq_true] at h2
  obtain ⟨⟨⟨w, hw, ht⟩, hx⟩, hd, hs, hcl, hr⟩ := h2
  refine ⟨v, h1, hd, ?_, ?_, hs, hcl, hr⟩
  · split at ht
    · exact hw
    · cases ht
  · split at hx
    · rename_i a b g
      exact ⟨a, b, g⟩
    · cases hx

end Verif
