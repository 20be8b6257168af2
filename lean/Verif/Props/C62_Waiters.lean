import Verif.Props.TableDemo
import Verif.Proofs.Waiters
/-
C62, and the synchronous part of C28 and C29: any number of callers of `InsertOrAssign`, `SampleFlexibleBatch`,
`MutateItems`, `Reset` and `Close` on a table without table worker. A schedule says who runs next, which waiting thread a
signal wakes, and who times out; threads may also wake spuriously.
-/
namespace Verif
open Table (Op)
open Waiters (S Waiter Act Env Call Ending)

/-- A table and its callers after a schedule. -/
def Config.serves (c : Config) (as : List Act) (s : S) : Prop := Waiters.run (Waiters.init c.init) as = some s

/-- All priorities in the schedule are admitted by the selectors of the table. -/
def Config.AdmitsCalls (c : Config) (as : List Act) : Prop := ∀ a ∈ as, a.Ok c

theorem serves_base {c : Config} : ∀ as s, c.serves as s → Waiters.Base s :=
  Waiters.run_ind (fun _ s => Waiters.Base s) (.init c) fun _ _ _ _ _ h hs => h.step hs

theorem serves_sane {c : Config} : ∀ as s, c.serves as s → c.AdmitsCalls as → Waiters.Sane c s :=
  Waiters.run_ind (fun as s => c.AdmitsCalls as → Waiters.Sane c s) (fun _ => .init c) fun as s a s' _ h hs hok =>
    (h fun x hx => hok x (List.mem_append_left _ hx)).step (hok a (by simp)) hs

theorem serves_clean {c : Config} : ∀ as s, c.serves as s → c.AdmitsCalls as → Waiters.Clean c s :=
  Waiters.run_ind (fun as s => c.AdmitsCalls as → Waiters.Clean c s) (fun _ _ _ _ => rfl) fun as s a s' hr h hs hok =>
    have hok' : c.AdmitsCalls as := fun x hx => hok x (List.mem_append_left _ hx)
    (h hok').step (serves_sane as s hr hok') (hok a (by simp)) hs

/-! ### C62 -/

/-- C62: an operation that makes the condition true signals one of those who wait for it, or one was signalled
already. This holds in every state, whatever happened before. -/
theorem C62_signal {c : Config} {as : List Act} {s s' : S} {a : Act} (h : c.serves as s) (hs : Waiters.step s a = some s') :
    (s.table.limiter.canInsert 1 = false → s'.table.limiter.canInsert 1 = true →
      (∃ w ∈ s'.waiters, w.inserts = true) → ∃ w ∈ s'.waiters, w.inserts = true ∧ w.signalled = true) ∧
    (s.table.limiter.canSample 1 = false → s'.table.limiter.canSample 1 = true →
      (∃ w ∈ s'.waiters, w.samples = true) → ∃ w ∈ s'.waiters, w.samples = true ∧ w.signalled = true) := by
  obtain ⟨_, ht⟩ := Waiters.tr_of_step hs
  cases ht with
  | call id k e hk => exact Waiters.section_signal s id k _ e (Waiters.start_not_worker k e)
  | wake w e hw =>
    exact Waiters.section_signal { s with waiters := s.waiters.filter (fun v => v.id ≠ w.id) } w.id w.call
      (w.call.resume e) e (Waiters.resume_not_worker _ e)
  | timeout w hw => exact ⟨fun a b => absurd (a.symm.trans b) (by simp), fun a b => absurd (a.symm.trans b) (by simp)⟩

/-- Nobody times out who has been signalled and has not run yet. -/
def Config.NoLateTimeout (c : Config) (as : List Act) : Prop :=
  ∀ as1 id as2 s, as = as1 ++ .timeout id :: as2 → c.serves as1 s → ∀ w ∈ s.waiters, w.id = id → w.signalled = false

/-- C62 for whole schedules. Missing: schedules in which a caller times out between being signalled and
running (`C62_timeout_loses_signal`), and priorities that a selector refuses (`C62_error_loses_signal`). While the condition
holds and somebody waits for it, one of those who wait for it is signalled. -/
theorem C62_no_loss_partial {c : Config} : ∀ as s, c.serves as s → c.AdmitsCalls as → c.NoLateTimeout as →
    (s.table.limiter.canInsert 1 = true → (∃ w ∈ s.waiters, w.inserts = true) →
      ∃ w ∈ s.waiters, w.inserts = true ∧ w.signalled = true) ∧
    (s.table.limiter.canSample 1 = true → (∃ w ∈ s.waiters, w.samples = true) →
      ∃ w ∈ s.waiters, w.samples = true ∧ w.signalled = true) := by
  intro as s hr hok hnt
  have : Waiters.NoLost s := by
    refine Waiters.run_ind (fun as s => c.AdmitsCalls as → c.NoLateTimeout as → Waiters.NoLost s) (fun _ _ => .init _) ?_
      as s hr hok hnt
    intro as s a s' hr h hs hok hnt
    have hok' : c.AdmitsCalls as := fun x hx => hok x (List.mem_append_left _ hx)
    refine (h hok' fun as1 id as2 v e => hnt as1 id (as2 ++ [a]) v (by simp [e])).step (serves_base as s hr)
      (serves_sane as s hr hok') ?_ hs
    cases a with
    | timeout id => exact hnt as id [] s rfl hr
    | _ => trivial
  exact ⟨this.ins, this.smp⟩

/-! ### C28, synchronous -/

/-- C28: after `Close` every waiting caller is signalled, and when it runs it returns `Cancelled` and has no
effect. -/
theorem C28_sync {c : Config} {as : List Act} {s : S} (h : c.serves as s) (hd : s.dead = false) {id : Nat}
    (hc : (id, Op.close) ∈ s.trace) {w : Waiter} (hw : w ∈ s.waiters) :
    w.signalled = true ∧ ∀ e, ∃ s', Waiters.step s (.wake w.id e) = some s' ∧
      s'.ended = s.ended ++ [(w.id, .returned (.err .cancelled))] ∧ s'.table = s.table ∧
      s'.waiters = s.waiters.filter (fun v => v.id ≠ w.id) := by
  have hb := serves_base as s h
  have hcl := hb.close.mpr ⟨id, hc⟩
  refine ⟨hb.closed hcl w hw, fun e => ?_⟩
  have hstep : Waiters.step s (.wake w.id e) = some (Waiters.section_
      { s with waiters := s.waiters.filter (fun v => v.id ≠ w.id) } w.id w.call (w.call.resume e) e) := by
    have hf : s.waiters.find? (fun v => v.id = w.id) = some w := by
      cases hx : s.waiters.find? (fun v => v.id = w.id) with
      | none =>
        have := List.find?_eq_none.mp hx w hw
        simp at this
      | some v =>
        have h1 := List.find?_some hx
        simp only [decide_eq_true_eq] at h1
        rw [Waiters.map_inj hb.nodup (List.mem_of_find?_eq_some hx) hw h1]
    simp only [Waiters.step, hd, Bool.false_eq_true, if_false, hf]
  refine ⟨_, hstep, ?_⟩
  obtain ⟨h1, h2⟩ := Table.resume_cancelled (Waiters.resume_kind (hb.kind w hw) e) hcl
  have hnc : (w.call.resume e).isClose = false := by
    cases hx : (w.call.resume e).isClose with
    | false => rfl
    | true => exact absurd ((Waiters.isClose_iff _).mp hx) (Waiters.resume_not_close (hb.kind w hw) e)
  simp [Waiters.section_, h1, h2, hnc, Waiters.signalAt]

/-- C28: after `Close` nobody begins to wait. -/
theorem C28_sync_stays {c : Config} {as : List Act} {s s' : S} {a : Act} (h : c.serves as s) {id : Nat}
    (hc : (id, Op.close) ∈ s.trace) (hs : Waiters.step s a = some s') :
    s'.waiters.length ≤ s.waiters.length ∧ ∀ w' ∈ s'.waiters, ∃ w ∈ s.waiters, w.id = w'.id := by
  have hb := serves_base as s h
  have hcl := hb.close.mpr ⟨id, hc⟩
  have hsec : ∀ (s : S) (id : Nat) (k : Call) (op : Op) (e : Env), op.byWorker = false → s.table.limiter.cancelled = true →
      (Waiters.section_ s id k op e).waiters.map Waiter.id = s.waiters.map Waiter.id := by
    intro s id k op e hw hcl
    rcases Waiters.section_cases s id k op e with ⟨h1, _⟩ | ⟨_, he⟩ | ⟨_, _, he⟩
    · obtain ⟨_, _, h2, _⟩ := Table.blocked_iff hw h1
      rw [hcl] at h2; simp at h2
    · rw [he]; exact (Waiters.signals_woken s op e).ids
    · rw [he]; exact (Waiters.signals_woken s op e).ids
  have key : ∀ ws ws' : List Waiter, ws'.map Waiter.id = ws.map Waiter.id →
      ws'.length ≤ ws.length ∧ ∀ w' ∈ ws', ∃ w ∈ ws, w.id = w'.id := by
    intro ws ws' he
    refine ⟨by simpa using Nat.le_of_eq (congrArg List.length he), fun w' hw' => ?_⟩
    have : w'.id ∈ ws.map Waiter.id := he ▸ List.mem_map_of_mem hw'
    obtain ⟨w, hw, e⟩ := List.mem_map.mp this
    exact ⟨w, hw, e⟩
  obtain ⟨_, ht⟩ := Waiters.tr_of_step hs
  cases ht with
  | call id k e hk => exact key _ _ (hsec s id k _ e (Waiters.start_not_worker k e) hcl)
  | wake w e hw =>
    obtain ⟨h1, h2⟩ := key _ _ (hsec { s with waiters := s.waiters.filter (fun v => v.id ≠ w.id) } w.id w.call _ e
      (Waiters.resume_not_worker _ e) hcl)
    refine ⟨Nat.le_trans h1 (List.length_filter_le _ _), fun w' hw' => ?_⟩
    obtain ⟨v, hv, e⟩ := h2 w' hw'
    exact ⟨v, (List.mem_filter.mp hv).1, e⟩
  | timeout w hw =>
    exact ⟨List.length_filter_le _ _, fun w' hw' => ⟨w', (List.mem_filter.mp hw').1, rfl⟩⟩

/-! ### C29, synchronous -/

/-- A call that was answered with a timeout or with `Cancelled`. -/
def gaveUp (s : S) (id : Nat) : Bool := s.ended.any fun x => decide (x.1 = id) && match x.2 with
  | .timedOut => true
  | .returned (.err .cancelled) => true
  | _ => false

/-- C29, without table worker: the table is exactly what it would be if the calls that were answered with a timeout or
with `Cancelled` had never been made. -/
theorem C29_sync {c : Config} {as : List Act} {s : S} (h : c.serves as s) (ha : c.AdmitsCalls as) :
    c.init.run ((s.trace.filter fun x => !gaveUp s x.1).map Prod.snd) = some s.table := by
  refine serves_clean as s h ha (serves_sane as s h ha).alive (fun id => !gaveUp s id) ?_
  intro x hx he
  cases hg : gaveUp s x.1 with
  | false => rfl
  | true =>
    simp only [gaveUp, List.any_eq_true, Bool.and_eq_true, decide_eq_true_eq] at hg
    obtain ⟨y, hy, h1, h2⟩ := hg
    have hn := (serves_base as s h).once
    have : y = x := Waiters.map_inj hn hy hx h1
    subst this
    obtain ⟨i, en⟩ := y
    cases en with
    | timedOut => simp [Ending.effective] at he
    | returned r =>
      cases r with
      | ok v => simp at h2
      | died => simp at h2
      | err c => cases c <;> simp [Ending.effective] at h2 he

/-! ### A table with callers -/

/-- One more insert per sample; insertion blocks at two more inserts than samples. -/
def gateCfg (sampler : SelKind := .fifo) : Config := ⟨10, 0, sampler, .fifo, 1, 1, 0, 2, by decide⟩

/-- The clock, no random choices, signals go to the first that waits. -/
def gateEnv : Env := ⟨7, fun _ => draw 0, fun _ => 0⟩

/-- Caller `id` inserts an item with key `id`. -/
def put (id : Nat) (p : Rat := 1) : Act := .call id (.insert (demoItem id p id id)) gateEnv

/-- Two insertions succeed, two further ones wait; a sample lets one of them go on. -/
def gateActs : List Act := [put 1, put 2, put 3, put 4, .call 5 (.sample 1) gateEnv]

/-- The waiting callers, with whether they are signalled. -/
def waitList (s : S) : List (Nat × Bool) := s.waiters.map fun w => (w.id, w.signalled)

/-- The calls that have ended, with whether they succeeded. -/
def endList (s : S) : List (Nat × Bool) := s.ended.map fun x => (x.1, match x.2 with
  | .returned (.ok _) => true
  | _ => false)

theorem gate_admits (as : List Act) : (gateCfg).AdmitsCalls as := by
  intro a _
  have h : ∀ p, (gateCfg).admits p := fun p => ⟨rfl, rfl⟩
  cases a with
  | call id k e => cases k <;> simp [Act.Ok, Call.start, Config.Admissible, h]
  | _ => trivial

/-- A check on the state after a schedule. -/
def Config.callers (c : Config) (as : List Act) (P : S → Bool) : Bool := (Waiters.run (Waiters.init c.init) as).any P

theorem Config.callers_serves {c : Config} {as : List Act} {P : S → Bool} (h : c.callers as P = true) :
    ∃ s, c.serves as s ∧ P s = true := by
  unfold Config.callers at h
  unfold Config.serves
  cases hr : Waiters.run (Waiters.init c.init) as with
  | none => simp [hr] at h
  | some s => exact ⟨s, rfl, by simpa [hr] using h⟩

/-- The sample makes the condition true and one of the two is signalled. -/
example : (gateCfg).callers (gateActs.take 4) (fun s => decide (waitList s = [(3, false), (4, false)]) &&
      !s.table.limiter.canInsert 1) ∧
    (gateCfg).callers gateActs (fun s => decide (waitList s = [(3, true), (4, false)]) && s.table.limiter.canInsert 1) ∧
    (gateCfg).callers (gateActs ++ [.wake 3 gateEnv]) (fun s =>
      decide (waitList s = [(4, false)]) && !s.table.limiter.canInsert 1 &&
      decide (endList s = [(1, true), (2, true), (5, true), (3, true)])) := by decide +kernel

/-- The hypotheses of `C62_no_loss_partial`. -/
example : ∃ s, (gateCfg).serves gateActs s ∧ (gateCfg).AdmitsCalls gateActs ∧ (gateCfg).NoLateTimeout gateActs ∧
    s.table.limiter.canInsert 1 = true ∧ (∃ w ∈ s.waiters, w.inserts = true) := by
  obtain ⟨s, h1, h2⟩ := Config.callers_serves (c := gateCfg) (as := gateActs)
    (P := fun s => s.table.limiter.canInsert 1 && s.waiters.any Waiter.inserts) (by decide +kernel)
  simp only [Bool.and_eq_true, List.any_eq_true] at h2
  refine ⟨s, h1, gate_admits _, ?_, h2.1, h2.2⟩
  intro as1 id as2 v he
  have hm : Act.timeout id ∈ gateActs := by rw [he]; simp
  simp [gateActs, put] at hm

/-- C62 fails for callers with a deadline: the signal goes to a caller whose deadline passes before it runs
(`WaitWithDeadline` may then report the timeout, and the caller returns without looking at the condition again).
The other one waits for ever although it could insert. -/
theorem C62_timeout_loses_signal : ∃ s, (gateCfg).serves (gateActs ++ [.timeout 3]) s ∧
    (gateCfg).AdmitsCalls (gateActs ++ [.timeout 3]) ∧ s.table.limiter.canInsert 1 = true ∧
    waitList s = [(4, false)] := by
  obtain ⟨s, h1, h2⟩ := Config.callers_serves (c := gateCfg) (as := gateActs ++ [.timeout 3])
    (P := fun s => s.table.limiter.canInsert 1 && decide (waitList s = [(4, false)])) (by decide +kernel)
  simp only [Bool.and_eq_true, decide_eq_true_eq] at h2
  exact ⟨s, h1, gate_admits _, h2.1, h2.2⟩

/-- Caller 3 has a negative priority, which the prioritized selector refuses. -/
def gateRefused : List Act :=
  [put 1, put 2, put 3 (-1), put 4, .call 5 (.sample 1) gateEnv, .wake 3 gateEnv]

/-- C62 fails for priorities that the selectors refuse: the signalled caller finds its priority refused
and returns without passing on the signal. Nobody times out here. -/
theorem C62_error_loses_signal : ∃ s, (gateCfg (.prio powOne)).serves gateRefused s ∧
    s.table.limiter.canInsert 1 = true ∧ waitList s = [(4, false)] ∧
    endList s = [(1, true), (2, true), (5, true), (3, false)] := by
  obtain ⟨s, h1, h2⟩ := Config.callers_serves (c := gateCfg (.prio powOne)) (as := gateRefused)
    (P := fun s => s.table.limiter.canInsert 1 && decide (waitList s = [(4, false)]) &&
      decide (endList s = [(1, true), (2, true), (5, true), (3, false)])) (by decide +kernel)
  simp only [Bool.and_eq_true, decide_eq_true_eq] at h2
  exact ⟨s, h1, h2.1.1, h2.1.2, h2.2⟩

/-- Two callers wait, the table is closed, one of them runs, one more calls. -/
def gateClosed : List Act := gateActs.take 4 ++ [.call 6 .close gateEnv, .wake 4 gateEnv, put 7]

/-- The hypotheses of `C28_sync`, and what it says: caller 3 still waits, signalled; 4 and 7 have failed. -/
example : (gateCfg).callers gateClosed (fun s => !s.dead && s.trace.any (fun x => x.2.isClose) &&
    decide (waitList s = [(3, true)]) &&
    decide (endList s = [(1, true), (2, true), (6, true), (4, false), (7, false)])) := by decide +kernel

/-- The case of `C29_sync`: callers 3 (timed out) and 4 (cancelled) gave up. The table has the items 1 and 2. -/
example : (gateCfg).callers (gateActs.take 4 ++ [.timeout 3, .call 6 .close gateEnv, .wake 4 gateEnv]) (fun s =>
    gaveUp s 3 && gaveUp s 4 && !gaveUp s 2 && decide ((summary s.table).map Prod.fst = [2, 1] ∨ (summary s.table).map Prod.fst = [1, 2])) := by
  decide +kernel

end Verif
