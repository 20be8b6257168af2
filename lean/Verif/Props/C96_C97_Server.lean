import Verif.Proofs.ServerLife
/-
C96: a `PeriodicClosure` runs its closure once per period, one run after the other and as soon as the last run has ended and a period has passed since it began; after `Stop` has returned it does
not run any more. It may be started again (documented, but false: `C96_again_is_false`).

C97: `Stop` of a server, called any number of times, closes its service once, and the server stays stopped. `Wait` returns only once the server has stopped, and true exactly if
SIGINT has stopped it; SIGINT stops a server that is waited for. False if two servers are waited for (`C97_two_is_false`), and the handler of the program is not put back
(`C97_ignored_is_false`).
-/
namespace Verif
namespace Periodic

/-- C96: runs do not overlap, and begin at least a period apart. -/
theorem C96_serial {period now : Int} {p p' : Periodic} {es : List Event} (hi : init period now = some p) (h : run p es = some p') :
    Serial period p'.log ∧ (∀ r ∈ p'.log, r.start ≤ p'.now) := by
  have hv := inv_run (inv_init hi) h
  have hp : p.period = period := by
    unfold init at hi
    split at hi <;> cases hi
    rfl
  rw [← hp, ← period_run h]
  exact ⟨hv.serial, fun r hr => (hv.past r hr).1⟩

/-- C96: the closure is due, that is the thread can run it, exactly when the last run has ended, a period has passed since it began, and `Stop` was not called. -/
theorem C96_due {period now : Int} {p p' : Periodic} {es : List Event} {l : List PRun} {r : PRun} (hi : init period now = some p) (h : run p es = some p')
    (hl : p'.log = l ++ [r]) : (∃ q, step p' .wake = some q) ↔ r.finish.isSome ∧ r.start + period ≤ p'.now ∧ p'.stopped = false := by
  have hv := inv_run (inv_init hi) h
  have hp : p.period = period := by
    unfold init at hi
    split at hi <;> cases hi
    rfl
  have hp' : p'.period = period := (period_run h).trans hp
  have hd : Due p' := due_run (inv_init hi) (by
    unfold init at hi
    split at hi <;> cases hi
    intro n _ l r hlr
    simp at hlr) h
  constructor
  · rintro ⟨q, hq⟩
    simp only [step] at hq
    split at hq
    · rename_i next hw
      split at hq
      · rename_i hc
        have := hd next (Or.inl hw) l r hl
        exact ⟨hv.done (by rw [hw]; simp) r (by rw [hl]; simp), by omega, hc.1⟩
      · cases hq
    · cases hq
  · rintro ⟨hf, ht, hst⟩
    cases hw : p'.worker with
    | none =>
      have := hv.fresh hw hst
      rw [hl] at this
      simp at this
    | sleeping next =>
      have := hd next (Or.inl hw) l r hl
      simp only [step, hw]
      rw [if_pos ⟨hst, by omega⟩]
      exact ⟨_, rfl⟩
    | running next =>
      obtain ⟨l', r', hl', hf', -⟩ := hv.open_ next hw
      have hr := congrArg List.getLast? (hl.symm.trans hl')
      simp at hr
      subst hr
      rw [hf'] at hf
      cases hf
    | ended => exact (hv.ended hw hst).elim

/-- C96: the first run is due a period after `Start`. -/
theorem C96_first {period now : Int} {p q q' : Periodic} {d : Nat} (hi : init period now = some p) (h : step p .start = some q) (hp : step q (.pass d) = some q') :
    (∃ x, step q' .wake = some x) ↔ period ≤ d := by
  unfold init at hi
  split at hi
  · cases hi
  · cases hi
    cases h
    cases hp
    simp only [step]
    constructor
    · rintro ⟨x, hx⟩
      split at hx
      · rename_i hc; have := hc.2; omega
      · cases hx
    · intro hd
      rw [if_pos ⟨trivial, by omega⟩]
      exact ⟨_, rfl⟩

/-- C96: once `Stop` has returned nothing runs, and nothing will. -/
theorem C96_stopped {period now : Int} {p p1 p2 : Periodic} {es fs : List Event} (hi : init period now = some p) (h1 : run p es = some p1) (hj : p1.joined = true)
    (h2 : run p1 fs = some p2) : p2.log = p1.log ∧ ∀ r ∈ p2.log, r.finish.isSome := by
  have hv := inv_run (inv_init hi) h1
  obtain ⟨a, b⟩ := joined_run hv hj h2
  refine ⟨b, fun r hr => ?_⟩
  rw [b] at hr
  exact hv.done (by rw [(hv.joined hj).2.2]; simp) r hr

/-- C96: a `Stop` that waits for the thread waits for at most the run that is under way: the thread ends it, then sees that it is stopped. -/
theorem C96_stop_returns {period now : Int} {p p' : Periodic} {es : List Event} (hi : init period now = some p) (h : run p es = some p') (hj : p'.joining = true) :
    ∃ fs q, fs.length ≤ 3 ∧ run p' fs = some q ∧ q.joined = true ∧ q.log.length = p'.log.length := by
  have hv := inv_run (inv_init hi) h
  have hst := hv.joining hj
  obtain ⟨per, st, w, now, log, ans, jg, jd⟩ := p'
  dsimp only at hst hj
  subst hst hj
  cases w with
  | none => exact ⟨[.join], _, by simp, rfl, rfl, rfl⟩
  | ended => exact ⟨[.join], _, by simp, rfl, rfl, rfl⟩
  | sleeping next => exact ⟨[.leave, .join], _, by simp, rfl, rfl, rfl⟩
  | running next =>
    obtain ⟨l, r, hl, -, -⟩ := hv.open_ next rfl
    dsimp only at hl
    subst hl
    exact ⟨[.finish, .leave, .join], _, by simp, rfl, rfl, by simp⟩

/-- C96 as documented is false: it cannot be started again after `Stop` has returned. -/
theorem C96_again_is_false : ((init 50 0).bind fun p => run p [.start, .stop, .leave, .join, .start]).map (fun p => p.answers) =
    some [none, none, some .invalidArgument] := by decide

/-- The example of the documentation: a period of 50 ms, and runs that take 75 and 25 ms. -/
theorem C96_demo : ((init 50 0).bind fun p => run p [.start, .pass 50, .wake, .pass 75, .finish, .wake, .pass 25, .finish, .pass 25, .wake, .stop, .pass 5, .finish, .leave, .join]).map
    (fun p => (p.log, p.joined)) = some ([⟨50, some 125⟩, ⟨125, some 150⟩, ⟨175, some 180⟩], true) := by decide

end Periodic

namespace Process

/-- C97: a server that has been stopped, in whatever way and however often, stays so and has closed its service once; one that runs has not closed it. -/
theorem C97_stop {n : Nat} {es : List Event} {p : Process} {i : Nat} {s : LiveServer} (h : run (init n) es = some p) (hs : p.servers[i]? = some s) :
    s.closed = (if s.running then 0 else 1) ∧
    (∀ q, step p (.stop i) = some q → ¬ q.Running i) ∧
    (s.running = false → ∀ fs q, run p fs = some q → ¬ q.Running i) := by
  have hv := inv_run (inv_init n) h
  refine ⟨hv.closed _ _ hs, fun q hq => ?_, fun hr fs q hq => ?_⟩
  · simp only [step] at hq
    split at hq
    · cases hq
      rintro ⟨s', hs', hr'⟩
      dsimp only at hs'
      rw [getElem?_stop, if_pos rfl] at hs'
      obtain ⟨s0, -, rfl⟩ := Option.map_eq_some_iff.1 hs'
      rw [stop_running] at hr'
      cases hr'
    · cases hq
  · refine stays_run ?_ hq
    rintro ⟨s', hs', hr'⟩
    rw [hs] at hs'
    cases hs'
    rw [hr] at hr'
    cases hr'

/-- C97: a `Wait` that has returned did so after the server had stopped; it returned true only if there was a signal. -/
theorem C97_wait {n : Nat} {es : List Event} {p : Process} {k i : Nat} {b : Bool} (h : run (init n) es = some p) (hr : p.Returned k i b) :
    (¬ p.Running i) ∧ (b = true → .sigint ∈ es) := by
  have hv := inv_run (inv_init n) h
  obtain ⟨h1, h2⟩ := hv.returned k i b hr
  refine ⟨h1, fun hb => ?_⟩
  have := h2 hb
  simp only [Bool.false_or, List.any_eq_true] at this
  obtain ⟨e, he, hs⟩ := this
  cases e <;> simp [isSig] at hs
  exact he

/-- C97: a `Wait` returns as soon as its server has stopped. -/
theorem C97_unblocked {n : Nat} {es : List Event} {p : Process} {k i : Nat} (h : run (init n) es = some p) (hw : p.Waiting k i) (hr : ¬ p.Running i) :
    ∃ q b, step p (.unblock k) = some q ∧ q.Returned k i b := by
  have hv := inv_run (inv_init n) h
  have hi : i < p.servers.length := by
    rw [hv.len]
    exact hv.waits _ (List.mem_of_getElem? hw)
  have hs : p.servers[i]? = some p.servers[i] := List.getElem?_eq_getElem hi
  have hrun : ¬ p.servers[i].running = true := fun h => hr ⟨_, hs, h⟩
  have hk : k < p.waits.length := (List.getElem?_eq_some_iff.1 hw).1
  unfold Waiting at hw
  simp only [step, hw, hs, if_neg hrun]
  exact ⟨_, _, rfl, by unfold Returned; dsimp only; rw [List.getElem?_set_self hk]⟩

/-- C97 for a process with one server: if a signal comes while somebody waits for the server, then the worker stops it the next time it wakes up, and the `Wait` returns true. -/
theorem C97_sigint_partial {es : List Event} {p p1 p2 : Process} {k : Nat} (h : run (init 1) es = some p) (hw : p.Waiting k 0) (hr : p.Running 0)
    (h1 : step p .sigint = some p1) (h2 : step p1 (.tick 0) = some p2) :
    (¬ p2.Running 0) ∧ ∃ p3, step p2 (.unblock k) = some p3 ∧ p3.Returned k 0 true := by
  have hone := one_run (inv_init 1) ⟨fun k hk => by simp [Waiting, init] at hk⟩ h
  obtain ⟨ht, hh⟩ := hone.target k hw hr
  obtain ⟨s, hs, hsr⟩ := hr
  have hk : k < p.waits.length := (List.getElem?_eq_some_iff.1 hw).1
  simp only [step, hh, ht] at h1
  simp at h1
  subst h1
  simp only [step] at h2
  split at h2
  · cases h2
    have e : ((p.servers.modify 0 fun s => { s with signalled := true }).modify 0 fun s => if s.signalled then stopServer s else s)[0]? =
        some (stopServer { s with signalled := true }) := by
      rw [getElem?_stop, if_pos rfl, getElem?_stop, if_pos rfl, hs]
      rfl
    have er : (stopServer { s with signalled := true }).running = false := stop_running
    refine ⟨?_, ?_⟩
    · rintro ⟨s', hs', hr'⟩
      dsimp only at hs'
      rw [e] at hs'
      cases hs'
      rw [er] at hr'
      cases hr'
    · unfold Waiting at hw
      simp only [step, hw, e]
      rw [if_neg (by rw [er]; simp)]
      refine ⟨_, rfl, ?_⟩
      unfold Returned
      dsimp only
      rw [List.getElem?_set_self hk, stop_signalled]
  · cases h2

/-- C97 as stated is false with two servers: both are waited for, SIGINT comes, the workers of both wake up, and the first server runs on. After the `Wait` for the other one has returned,
further signals are ignored. -/
theorem C97_two_is_false : (run (init 2) [.wait 0, .register 0, .wait 1, .register 1, .sigint, .tick 0, .tick 1, .unblock 1, .sigint, .tick 0]).map
    (fun p => (p.servers.map LiveServer.running, p.waits, p.ignored)) = some ([true, false], [(0, .waiting), (1, .returned true)], 1) := by decide

/-- C97: once a `Wait` has returned because of a `Stop`, the program does not get SIGINT any more. -/
theorem C97_ignored_is_false : (run (init 1) [.sigint, .wait 0, .register 0, .stop 0, .unblock 0, .sigint]).map (fun p => (p.waits, p.interrupted, p.ignored)) =
    some ([(0, .returned false)], 1, 1) := by decide

/-- C97: a server stopped by `Stop` after a signal is reported as stopped by the signal. -/
theorem C97_both : (run (init 1) [.wait 0, .register 0, .sigint, .stop 0, .unblock 0]).map (fun p => p.waits) = some [(0, .returned true)] := by decide

/-- A server that is stopped by a signal while two threads wait. -/
theorem C97_demo : (run (init 1) [.wait 0, .wait 0, .register 0, .register 1, .sigint, .tick 0, .stop 0, .unblock 1, .unblock 0, .wait 0]).map
    (fun p => (p.waits, p.servers)) = some ([(0, .returned true), (0, .returned true), (0, .returned false)], [⟨false, true, 1⟩]) := by decide

end Process
end Verif
