import Verif.Proofs.SamplerDrop
/-
C119: an error of one stream does not lose samples that have arrived already: calls return them before the error.
False: the error closes the queue, and a closed queue gives nothing away.
-/
namespace Verif
namespace ClientSampler

/-- A schedule that goes on. -/
theorem Reach.append {c : SamplerCfg} {now : Int} {P : ClientSampler → Event → Prop} {evs evs' : List Event} {v v' : ClientSampler}
    (h : Reach c now P evs v) (hr : ClientSampler.run c v evs' = some v') (hP : ∀ e ∈ evs', ∀ v, P v e) : Reach c now P (evs ++ evs') v' := by
  induction evs' generalizing evs v with
  | nil =>
    cases hr
    simpa using h
  | cons e es ih =>
    simp only [ClientSampler.run] at hr
    cases hs : ClientSampler.step c v e with
    | none => rw [hs] at hr; cases hr
    | some v1 =>
      rw [hs] at hr
      have h1 := ih (h.step (hP e (by simp) v) hs) hr (fun e' g => hP e' (by simp [g]))
      simpa using h1

/-- The queue stays as it was when it was closed. -/
theorem closed_run {c : SamplerCfg} {now : Int} {evs evs' : List Event} {v v' : ClientSampler}
    (h : Reach c now (fun _ _ => True) evs v) (hq : v.queueClosed = true) (hr : ClientSampler.run c v evs' = some v') :
    v'.queue = v.queue ∧ v'.pushed = v.pushed := by
  induction evs' generalizing evs v with
  | nil => cases hr; exact ⟨rfl, rfl⟩
  | cons e es ih =>
    simp only [ClientSampler.run] at hr
    cases hs : step c v e with
    | none => rw [hs] at hr; cases hr
    | some v1 =>
      rw [hs] at hr
      obtain ⟨g1, g2, g3⟩ := closed_step hs h.holds hq
      obtain ⟨i1, i2⟩ := ih (h.step trivial hs) g1 hr
      exact ⟨i1.trans g2, i2.trans g3⟩

theorem dry_run {c : SamplerCfg} {now : Int} {evs evs' : List Event} {v v' : ClientSampler}
    (h : Reach c now (fun _ _ => True) evs v) (hq : Dry v) (hr : ClientSampler.run c v evs' = some v') :
    ∃ out, v'.log = v.log ++ out ∧ ∀ o ∈ out, SampleOut.isError o = true := by
  induction evs' generalizing evs v with
  | nil => cases hr; exact ⟨[], by simp, by simp⟩
  | cons e es ih =>
    simp only [ClientSampler.run] at hr
    cases hs : step c v e with
    | none => rw [hs] at hr; cases hr
    | some v1 =>
      rw [hs] at hr
      obtain ⟨g1, g2⟩ := dry_step hs h.holds hq
      obtain ⟨out, i1, i2⟩ := ih (h.step trivial hs) g1 hr
      rcases g2 with g2 | ⟨st, g2⟩
      · exact ⟨out, by rw [i1, g2], i2⟩
      · refine ⟨.error st :: out, by rw [i1, g2]; simp, ?_⟩
        intro o ho
        rcases List.mem_cons.mp ho with rfl | ho
        · rfl
        · exact i2 o ho

/-- C119: once a worker has reported an error, the samples that wait in the queue stay there for good, whatever is called: none is taken and
none arrives. -/
theorem C119_lost {c : SamplerCfg} (hc : c.Valid) {now : Int} {evs : List Event} {v : ClientSampler} (h : Reach c now Faithful evs v)
    (hd : v.dead = false) (hst : v.status ≠ none) {evs' : List Event} {v' : ClientSampler} (hr : run c v evs' = some v') :
    v'.queue = v.queue ∧ v'.arrived = v.arrived := by
  obtain ⟨g1, g2⟩ := closed_run (h.mono (fun _ _ _ => trivial)) ((h.inv hc (fun _ _ g => g) hd).bad hst) hr
  exact ⟨g1, by unfold arrived; rw [g2]⟩

/-- C119: if no call is going on and no sample is partly read when the error is reported, all later calls return errors, however many samples
wait in the queue. -/
theorem C119_errors {c : SamplerCfg} (hc : c.Valid) {now : Int} {evs : List Event} {v : ClientSampler} (h : Reach c now Faithful evs v)
    (hd : v.dead = false) (hst : v.status ≠ none) (hcalls : ∀ x, v.calls.get? x = none) (hpr : v.partlyRead = false)
    {evs' : List Event} {v' : ClientSampler} (hr : run c v evs' = some v') :
    ∃ out, v'.log = v.log ++ out ∧ ∀ o ∈ out, SampleOut.isError o = true :=
  dry_run (h.mono (fun _ _ _ => trivial)) ⟨(h.inv hc (fun _ _ g => g) hd).bad hst, (fun x p g => by rw [hcalls x] at g; cases g), hpr⟩ hr

/-- C119: the error is returned at once, by calls that wait and by new ones, before `max_samples` samples have been returned and before
`Close`; the queue is not looked at. -/
theorem C119_at_once {c : SamplerCfg} (hc : c.Valid) {now : Int} {evs : List Event} {v : ClientSampler} (h : Reach c now Faithful evs v)
    (hd : v.dead = false) {st : Code} (hst : v.status = some st) (hcl : v.closed = false) (hdel : (v.delivered : Int) ≠ c.max) :
    (∀ x, Waits v x → ∃ v', run c v [.pop x, .finish x] = some v' ∧ v'.log = v.log ++ [.error st] ∧ v'.queue = v.queue) ∧
    ∀ x k v1, step c v (.call x k) = some v1 → (k = .timestep → v.partlyRead = false) →
      ∃ v', run c v [.call x k, .pop x, .finish x] = some v' ∧ v'.log = v.log ++ [.error st] ∧ v'.queue = v.queue := by
  have g := h.inv hc (fun _ _ g => g) hd
  have hq : v.queueClosed = true := g.bad (by rw [hst]; simp)
  have hret : v.returned ≠ c.max := by rw [g.ret]; exact hdel
  have hwait : ∀ m : AMap Nat CallPhase, ∀ x k t, m.get? x = some (.popping k t) →
      ∃ v', run c { v with calls := m } [.pop x, .finish x] = some v' ∧ v'.log = v.log ++ [.error st] ∧ v'.queue = v.queue := by
    intro m x k t hx
    have hp : step c { v with calls := m } (.pop x) = some { v with calls := m.insert x (.failed k) } := by
      unfold ClientSampler.step ClientSampler.pop
      rw [if_neg (by simp [hd])]
      simp only [hx, hq, if_true]
    have hps : ({ v with calls := m.insert x (.failed k) } : ClientSampler).popStatus c = some st := by
      unfold popStatus
      simp [hret, hcl, hst]
    have hf : step c { v with calls := m.insert x (.failed k) } (.finish x) =
        some (({ v with calls := m.insert x (.failed k) } : ClientSampler).ret x (.error st)) := by
      unfold ClientSampler.step ClientSampler.finish
      rw [if_neg (by simp [hd])]
      simp only [AMap.get?_insert_self, hps]
    exact ⟨({ v with calls := m.insert x (.failed k) } : ClientSampler).ret x (.error st), by simp [run, hp, hf], rfl, rfl⟩
  refine ⟨?_, ?_⟩
  · rintro x ⟨k, t, hx⟩
    exact hwait v.calls x k t hx
  · intro x k v1 hs hk
    have hs0 := hs
    unfold ClientSampler.step ClientSampler.call at hs0
    rw [if_neg (by simp [hd])] at hs0
    simp only at hs0
    split at hs0
    · cases hs0
    · rw [if_neg (by
        rintro ⟨hk', ha⟩
        have hpr := hk hk'
        unfold partlyRead at hpr
        rw [hpr] at ha
        cases ha)] at hs0
      cases hs0
      obtain ⟨v', hr, hl, hqq⟩ := hwait (v.calls.insert x (.popping k v.clock)) x k v.clock (AMap.get?_insert_self _ _ _)
      refine ⟨v', ?_, hl, hqq⟩
      simp only [run] at hr ⊢
      rw [hs]
      exact hr

/-- C119, what is true of it: apart from the samples that are in the queue when the error is reported, which are at most as many as the queue
has room for, every sample that has arrived is returned once, also later (`GetNextSample` and `GetNextTrajectory`). Missing: that the samples
in the queue are returned, which is false. -/
theorem C119_rest_partial {c : SamplerCfg} (hc : c.Valid) {now : Int} {evs : List Event} {v : ClientSampler}
    (h : Reach c now (fun v e => Faithful v e ∧ NoTimesteps e) evs v) (hd : v.dead = false) (hst : v.status ≠ none) {evs' : List Event}
    {v' : ClientSampler} (hno : ∀ e ∈ evs', NoTimesteps e) (hr : run c v evs' = some v') :
    v.queue.length ≤ c.cap ∧
    ∃ taken done, v'.arrived = taken ++ v.queue ∧ Accounts c done v'.log ∧ taken.Perm (done.map Prod.snd ++ v'.held) := by
  refine ⟨h.cap, ?_⟩
  have h1 : Reach c now (fun _ e => NoTimesteps e) evs v := h.mono (fun _ _ g => g.2)
  obtain ⟨taken, done, g1, g2, g3⟩ := C69_once (h1.append hr (fun e he _ => hno e he))
  have hq := (C119_lost hc (h.mono (fun _ _ g => g.1)) hd hst hr).1
  exact ⟨taken, done, by rw [g1, hq], g2, g3⟩

/-! ### Where the claim fails -/

namespace DropDemo
open SampleDemo SamplerDemo

/-- A sampler of a server with one worker. -/
def cfg : SamplerCfg := ⟨10, 10000, 1, 1, some 0, .grpc "t" 2 (-1), none⟩

theorem cfg_valid : cfg.Valid :=
  ⟨(by decide : (0 : Int) < 10), (by decide : (0 : Int) < 10000), Nat.one_pos, Nat.one_pos,
    (by intro t a b g; cases g; exact (by decide : (0 : Int) < 2)), (by intro b g; cases g)⟩

/-- This is what the constructor makes of options with `rate_limiter_timeout` 0. -/
example : (match SamplerCfg.make ⟨10, 2, 1, -1, some 0, -1⟩ "t" none none with
  | .ok c => decide (c.max = 10 ∧ c.cap = 1 ∧ c.workers = 1 ∧ c.timeout = some 0 ∧ c.source = .grpc "t" 2 (-1))
  | _ => false) = true := by decide

/-- A sample arrives, then the stream fails. -/
def fails (st : Code) : List Event := [.work 0, .work 0, .write 0 none, .response 0 SamplerDemo.entries, .work 0,
  .streamEnd 0 (some st) false, .work 0]

end DropDemo
open DropDemo

/-- C119 is false: one sample has arrived, then the stream fails; the first call returns the error and the sample is never returned. -/
theorem C119_is_false : ∃ evs v, Reach cfg 0 Faithful evs v ∧ v.dead = false ∧ v.arrived.length = 1 ∧ v.queue = v.arrived ∧
    v.log = [.error .internal] ∧
    ∀ evs' v', run cfg v evs' = some v' → v'.queue = v.arrived ∧ ∀ o ∈ v'.log, SampleOut.isError o = true := by
  obtain ⟨v, h1, h2⟩ := after_init (c := cfg) (now := 0) (P := fun v => decide (v.dead = false ∧ v.arrived.length = 1 ∧
    v.queue.length = 1 ∧ v.log = [.error .internal] ∧ v.status = some .internal ∧ v.calls.entries = [] ∧ v.partlyRead = false))
    (evs := fails .internal ++ [.call 0 .trajectory, .pop 0, .finish 0]) (by decide +kernel)
  simp only [decide_eq_true_eq] at h2
  obtain ⟨a1, a2, a3, a4, a5, a6, a7⟩ := h2
  have hno : Reach cfg 0 (fun _ e => NoTimesteps e) (fails .internal ++ [.call 0 .trajectory, .pop 0, .finish 0]) v := by
    refine Reach.append .init h1.run ?_ |> fun g => by simpa using g
    intro e he _
    simp only [fails, List.cons_append, List.nil_append, List.mem_cons, List.not_mem_nil, or_false] at he
    rcases he with rfl | rfl | rfl | rfl | rfl | rfl | rfl | rfl | rfl | rfl <;> first | trivial | (intro g; cases g)
  have hq : v.queue = v.arrived := by
    obtain ⟨taken, done, g1, _⟩ := C69_once hno
    have : taken = [] := by
      apply List.eq_nil_of_length_eq_zero
      have := congrArg List.length g1
      simp only [List.length_append] at this
      omega
    rw [g1, this]
    rfl
  refine ⟨_, v, h1, a1, a2, hq, a4, ?_⟩
  intro evs' v' hr
  have hst : v.status ≠ none := by rw [a5]; simp
  refine ⟨(C119_lost cfg_valid h1 a1 hst hr).1.trans hq, ?_⟩
  obtain ⟨out, g1, g2⟩ := C119_errors cfg_valid h1 a1 hst (by intro x; simp [AMap.get?, a6]) a7 hr
  intro o ho
  rw [g1, a4] at ho
  rcases List.mem_append.mp ho with g | g
  · simp only [List.mem_singleton] at g
    rw [g]
    rfl
  · exact g2 o g

/-- The same with a timeout of the rate limiter, which is only meant to be reported to callers that have nothing to get: the call has begun to
wait, the sample arrives, the server runs into the timeout for the next one before the call has taken the sample. The call returns
`DeadlineExceeded`, which ends a dataset, and the sample is never returned. -/
theorem C119_timeout_is_false : ∃ evs v, Reach cfg 0 Faithful evs v ∧ v.dead = false ∧ v.arrived.length = 1 ∧ v.queue.length = 1 ∧
    v.log = [.error .deadlineExceeded] ∧
    ∀ evs' v', run cfg v evs' = some v' → v'.queue = v.queue ∧ ∀ o ∈ v'.log, SampleOut.isError o = true := by
  obtain ⟨v, h1, h2⟩ := after_init (c := cfg) (now := 0) (P := fun v => decide (v.dead = false ∧ v.arrived.length = 1 ∧
    v.queue.length = 1 ∧ v.log = [.error .deadlineExceeded] ∧ v.status = some .deadlineExceeded ∧ v.calls.entries = [] ∧
    v.partlyRead = false))
    (evs := [.call 0 .trajectory, .work 0, .work 0, .write 0 none, .response 0 SamplerDemo.entries, .work 0,
      .streamEnd 0 (some .deadlineExceeded) true, .work 0, .pop 0, .finish 0]) (by decide +kernel)
  simp only [decide_eq_true_eq] at h2
  obtain ⟨a1, a2, a3, a4, a5, a6, a7⟩ := h2
  refine ⟨_, v, h1, a1, a2, a3, a4, ?_⟩
  intro evs' v' hr
  have hst : v.status ≠ none := by rw [a5]; simp
  refine ⟨(C119_lost cfg_valid h1 a1 hst hr).1, ?_⟩
  obtain ⟨out, g1, g2⟩ := C119_errors cfg_valid h1 a1 hst (by intro x; simp [AMap.get?, a6]) a7 hr
  intro o ho
  rw [g1, a4] at ho
  rcases List.mem_append.mp ho with g | g
  · simp only [List.mem_singleton] at g
    rw [g]
    rfl
  · exact g2 o g

/-- Without the error the call returns the sample. -/
example : ∃ v, Reach cfg 0 Faithful [.work 0, .work 0, .write 0 none, .response 0 SamplerDemo.entries, .work 0, .call 0 .trajectory, .pop 0,
    .finish 0] v ∧ v.delivered = 1 ∧ v.queue = [] ∧ v.status = none := by
  obtain ⟨v, h1, h2⟩ := after_init (c := cfg) (now := 0) (P := fun v => decide (v.delivered = 1 ∧ v.queue.length = 0 ∧ v.status = none))
    (evs := [.work 0, .work 0, .write 0 none, .response 0 SamplerDemo.entries, .work 0, .call 0 .trajectory, .pop 0, .finish 0])
    (by decide +kernel)
  simp only [decide_eq_true_eq] at h2
  exact ⟨v, h1, h2.1, List.eq_nil_of_length_eq_zero h2.2.1, h2.2.2⟩

end ClientSampler
end Verif
