import Verif.Props.TableDemo
import Verif.Proofs.WorkerProgress
import Verif.Proofs.WorkerBound
/-
C25-C29: the table with its worker thread. A run is a schedule of the critical sections of the worker, of callers
of `InsertOrAssignAsync`, `EnqueSampleRequest`, `MutateItems`, `Reset` and `Close`, and of wake-ups at any time. The words of
the statements (`applied`, `answers`, `callbacks`, `drawn`, `live`, `quiet`) are in `Spec/Worker.lean`.
-/
namespace Verif
open Table (Op)
open Worker (W Act Req Out applied answers callbacks drawn live)

/-- A table with an enabled worker after a schedule. -/
def Config.runs (c : Config) (as : List Act) (w : W) : Prop := Worker.run (Worker.init c.init) as = some w

/-- All priorities in the schedule are admitted by the selectors of the table. -/
def Config.AdmitsAll (c : Config) (as : List Act) : Prop := ∀ a ∈ as, a.Ok c

/-! ### C25 -/

theorem runs_seq {c : Config} {as : List Act} {w : W} (h : c.runs as w) : Worker.Seq c.init w :=
  Worker.run_inv (Worker.Seq c.init) (fun _ => True) (.init rfl) (fun _ _ _ h _ hs => h.step hs) (fun _ _ => trivial) h

theorem runs_order {c : Config} {as : List Act} {w : W} (h : c.runs as w) : Worker.Order w :=
  Worker.run_inv Worker.Order (fun _ => True) (.init _) (fun _ _ _ h _ hs => h.step hs) (fun _ _ => trivial) h

theorem runs_calls {c : Config} {as : List Act} {w : W} (h : c.runs as w) : Worker.Calls w :=
  Worker.run_inv Worker.Calls (fun _ => True) (.init _) (fun _ _ _ h _ hs => h.step hs) (fun _ _ => trivial) h

theorem runs_served {c : Config} {as : List Act} {w : W} (h : c.runs as w) : Worker.Served w :=
  Worker.run_inv Worker.Served (fun _ => True) (.init _) (fun _ _ _ h _ hs => h.step hs) (fun _ _ => trivial) h

theorem runs_waits {c : Config} {as : List Act} {w : W} (h : c.runs as w) : Worker.Waits w :=
  (Worker.run_inv (fun w => Worker.Waits w ∧ Worker.Calls w) (fun _ => True) ⟨.init _, .init _⟩
    (fun _ _ _ h _ hs => ⟨h.1.step h.2 hs, h.2.step hs⟩) (fun _ _ => trivial) h).1

/-- C25, effect: the table is what one gets by executing, one after the other and without any concurrency, the
operations that were executed. -/
theorem C25_sequential {c : Config} {as : List Act} {w : W} (h : c.runs as w) (hd : w.dead = false) :
    c.init.run w.trace = some w.table :=
  (runs_seq h).run hd

/-- C25, order: the items that the worker has applied are the first of those that were accepted, in the order in
which they were accepted and none of them twice; the others are still queued, also in order. After `Close` queued
items may be dropped. -/
theorem C25_order {c : Config} {as : List Act} {w : W} (h : c.runs as w) :
    (Op.close ∉ w.trace → applied w.trace ++ w.inserts ++ w.pendingInserts = w.accepted) ∧
    (applied w.trace ++ w.inserts ++ w.pendingInserts).Sublist w.accepted := by
  refine ⟨fun hc => (runs_order h).all ?_, (runs_order h).sub⟩
  cases hs : w.cancelSeen with
  | false => rfl
  | true => exact absurd ((runs_seq h).seen hs) hc

/-- C25, progress: left alone, the worker gets to the point where it waits (or has been told to end), whatever the
clock and the random numbers are. -/
theorem C25_settles {c : Config} {as : List Act} {w : W} (h : c.runs as w) (ha : c.AdmitsAll as)
    (clock : Nat → Int × Draw) :
    ∃ n w', Worker.run w ((List.range n).map fun i => .work (clock i).1 (clock i).2) = some w' ∧
      (w'.pc = .waiting ∨ w'.pc = .exited) :=
  Worker.Sound.settles _ w (.run ha h) (Nat.le_refl _) clock

/-- C25: with admitted priorities the worker never fails and never ends unless the table is destroyed. -/
theorem C25_survives {c : Config} {as : List Act} {w : W} (h : c.runs as w) (ha : c.AdmitsAll as) :
    w.dead = false ∧ (w.pc = .exited → w.stop = true) :=
  ⟨(Worker.Sound.run ha h).fine.alive, (Worker.Sound.run ha h).fine.stays⟩

/-- No `MutateItems` or `Reset` changes the table after the worker has left its last critical section and before it
waits (or looks again). -/
def Config.NoMutationInGap (c : Config) (as : List Act) : Prop :=
  ∀ as1 a as2 w, as = as1 ++ a :: as2 → c.runs as1 w → w.pc = .queues → a ≠ .reset ∧ ∀ us ds, a ≠ .mutate us ds

theorem runs_noLoss {c : Config} : ∀ as w, c.runs as w → c.AdmitsAll as → c.NoMutationInGap as →
    Worker.NoLoss w ∧ Worker.Sound c w := by
  refine Worker.run_ind' _ (fun _ _ => ⟨.init _, .init c⟩) ?_
  intro as w a w' hr ih hs ha hg
  have ha' : c.AdmitsAll as := fun x hx => ha x (List.mem_append_left _ hx)
  obtain ⟨h1, h2⟩ := ih ha' fun as1 b as2 v e => hg as1 b (as2 ++ [a]) v (by simp [e])
  have hok : a.Ok c := ha a (by simp)
  exact ⟨h1.step h2.fine h2.seq hok (hg as a [] w rfl hr) hs, h2.step hok hs⟩

/-- C25, eventually applied. Missing: the property claims it for all schedules, here those are left out in which
`MutateItems` or `Reset` runs in the gap between two critical sections of the worker (see `C25_lost_wakeup`) and those with
priorities that a selector refuses (see `C25_worker_ends`). If the worker waits and no wake-up is under way then, unless the
table was closed, every accepted item has been applied except for a rest which the rate limiter does not
let in. -/
theorem C25_applied_partial {c : Config} {as : List Act} {w : W} (h : c.runs as w) (ha : c.AdmitsAll as)
    (hg : c.NoMutationInGap as) (hq : w.quiet) (hc : Op.close ∉ w.trace) :
    ∃ rest, w.accepted = applied w.trace ++ rest ∧ (rest ≠ [] → w.table.limiter.canInsert 1 = false) := by
  obtain ⟨hl, hs⟩ := runs_noLoss as w h ha hg
  refine ⟨w.inserts ++ w.pendingInserts, ?_, ?_⟩
  · rw [← List.append_assoc]; exact ((C25_order h).1 hc).symm
  · intro hne
    refine (hl.waiting hq.1 hq.2.1 hq.2.2.1).inserts fun he => hne ?_
    have hcs : w.cancelSeen = false := by
      cases e : w.cancelSeen with
      | false => rfl
      | true => exact absurd (hs.seq.seen e) hc
    rw [he, hs.waits.inserts hq.1 hq.2.1 hcs he]
    rfl

/-- C25/C26: what a waiting worker has not done, it cannot do: as `C25_applied_partial`, for sample requests. -/
theorem C26_blocked_partial {c : Config} {as : List Act} {w : W} (h : c.runs as w) (ha : c.AdmitsAll as)
    (hg : c.NoMutationInGap as) (hq : w.quiet) (hne : live w.sampling ≠ []) :
    w.table.limiter.canSample 1 = false :=
  ((runs_noLoss as w h ha hg).1.waiting hq.1 hq.2.1 hq.2.2.1).sampling hne

/-! Concrete runs. -/

/-- A worker step at time `n`. -/
def wk (n : Int) : Act := .work n (draw 0)

/-- First-in first-out, room for ten items (so at most one pending insert), one more insert per sample. -/
def workerCfg : Config := ⟨10, 0, .fifo, .fifo, 1, 1, 0, 1, by decide⟩

theorem worker_admits (as : List Act) : workerCfg.AdmitsAll as := by
  intro a _
  have h : ∀ p, workerCfg.admits p := fun p => ⟨rfl, rfl⟩
  cases a <;> simp [Act.Ok, h]

/-- A check on the state after a schedule. -/
def Config.after' (c : Config) (as : List Act) (P : W → Bool) : Bool := (Worker.run (Worker.init c.init) as).any P

theorem Config.after'_runs {c : Config} {as : List Act} {P : W → Bool} (h : c.after' as P = true) :
    ∃ w, c.runs as w ∧ P w = true := by
  unfold Config.after' at h
  unfold Config.runs
  cases hr : Worker.run (Worker.init c.init) as with
  | none => simp [hr] at h
  | some w => exact ⟨w, rfl, by simpa [hr] using h⟩

/-- Two inserts of which the second has to wait, and the worker until it waits. -/
def twoInserts : List Act :=
  [.insert (demoItem 1 1 10 100) 7, .insert (demoItem 2 1 11 101) 8] ++ List.replicate 14 (wk 5)

/-- After that a request for one sample, which lets the second item in. -/
def thenSample : List Act := twoInserts ++ [.request 1 1 none, .wake] ++ List.replicate 17 (wk 6)

/-- Meets the hypotheses of the theorems above: both items are applied, in order, and the worker waits. -/
example : ∃ w, workerCfg.runs thenSample w ∧ workerCfg.AdmitsAll thenSample ∧ workerCfg.NoMutationInGap thenSample ∧ w.quiet ∧ Op.close ∉ w.trace ∧
    (applied w.trace).map Item.key = [1, 2] ∧ w.accepted.map Item.key = [1, 2] ∧
    (answers w.out).map (fun a => (a.1.id, a.1.samples.map fun s => s.item.key, a.2)) = [(1, [1], none)] := by
  obtain ⟨w, h1, h2⟩ := Config.after'_runs (c := workerCfg) (as := thenSample) (P := fun w =>
      decide (w.pc = .waiting) && !w.woken && decide (w.signals = 0) && !w.dead && (w.trace.all fun op => match op with | .close => false | _ => true) &&
      decide ((applied w.trace).map Item.key = [1, 2]) && decide (w.accepted.map Item.key = [1, 2]) &&
      decide ((answers w.out).map (fun a => (a.1.id, a.1.samples.map fun s => s.item.key, a.2)) = [(1, [1], none)]))
    (by decide +kernel)
  simp only [Bool.and_eq_true, decide_eq_true_eq, Bool.not_eq_true', List.all_eq_true] at h2
  obtain ⟨⟨⟨⟨⟨⟨⟨a, b⟩, c⟩, d⟩, e⟩, f⟩, g⟩, i⟩ := h2
  refine ⟨w, h1, worker_admits _, ?_, ⟨a, b, c, d⟩, fun hc => by have := e _ hc; simp at this, f, g, i⟩
  intro as1 x as2 v he _ _
  have hm : x ∈ thenSample := by rw [he]; simp
  constructor
  · rintro rfl; simp [thenSample, twoInserts, wk] at hm
  · rintro us ds rfl; simp [thenSample, twoInserts, wk] at hm

/-- The state in the middle: the second item is the rest that the limiter does not let in. -/
example : workerCfg.after' twoInserts (fun w => decide (w.pc = .waiting) && !w.woken && decide (w.signals = 0) &&
    decide ((applied w.trace).map Item.key = [1]) && decide (w.inserts.map Item.key = [2]) &&
    !w.table.limiter.canInsert 1) = true := by decide +kernel

/-- The worker has looked for the last time and is about to wait, when `MutateItems` deletes the only item. -/
def mutationInGap : List Act :=
  [.insert (demoItem 1 1 10 100) 7, .insert (demoItem 2 1 11 101) 8] ++ List.replicate 13 (wk 5) ++
  [.mutate [] [1], .signal, wk 5]

/-- C25 fails: `MutateItems` can run in the gap between the critical sections of the worker. Its signal is lost and the
worker waits, with nobody about to wake it, although it could insert the item it has. -/
theorem C25_lost_wakeup : ∃ w, workerCfg.runs mutationInGap w ∧ workerCfg.AdmitsAll mutationInGap ∧ w.quiet ∧
    w.inserts.map Item.key = [2] ∧ w.wakeAt = none ∧ w.table.limiter.canInsert 1 = true ∧ Op.close ∉ w.trace := by
  obtain ⟨w, h1, h2⟩ := Config.after'_runs (c := workerCfg) (as := mutationInGap) (P := fun w =>
      decide (w.pc = .waiting) && !w.woken && decide (w.signals = 0) && !w.dead &&
      decide (w.inserts.map Item.key = [2]) && decide (w.wakeAt = none) && w.table.limiter.canInsert 1 &&
      (w.trace.all fun op => match op with | .close => false | _ => true))
    (by decide +kernel)
  simp only [Bool.and_eq_true, decide_eq_true_eq, Bool.not_eq_true', List.all_eq_true] at h2
  obtain ⟨⟨⟨⟨⟨⟨⟨a, b⟩, c⟩, d⟩, e⟩, f⟩, g⟩, i⟩ := h2
  exact ⟨w, h1, worker_admits _, ⟨a, b, c, d⟩, e, f, g, fun hc => by have := i _ hc; simp at this⟩

/-- A worker that has ended does nothing any more. -/
theorem worker_gone {w w' : W} {as : List Act} (hr : Worker.run w as = some w') (hp : w.pc = .exited) :
    w'.pc = .exited ∧ w'.out = w.out ∧ applied w'.trace = applied w.trace := by
  refine Worker.run_inv (w0 := w) (fun v => v.pc = .exited ∧ v.out = w.out ∧ applied v.trace = applied w.trace) (fun _ => True)
    ⟨hp, rfl, rfl⟩ ?_ (fun _ _ => trivial) hr
  intro v a v' ⟨h1, h2, h3⟩ _ hs
  obtain ⟨_, ht⟩ := Worker.tr_of_step hs
  cases ht
  case sectionOk op r hl e ho => exact ⟨h1, h2, by rw [← h3, Worker.applied_snoc, Worker.Act.op_applied ho]; simp⟩
  case sectionErr op r hl e ho => exact ⟨h1, h2, by rw [← h3, Worker.applied_snoc, Worker.Act.op_applied ho]; simp⟩
  case sectionDied op hl e ho => exact ⟨h1, h2, by rw [← h3, Worker.applied_snoc, Worker.Act.op_applied ho]; simp⟩
  all_goals first | exact ⟨h1, h2, h3⟩ | (rename_i hpc; simp [h1] at hpc; done) | (simp_all; done)

/-- One item with a priority that the prioritized sampler refuses, then a good one and a request. -/
def badPriority : List Act :=
  [.insert { demoItem 1 1 10 100 with priority := .val (-1) } 7, .request 1 1 none, .insert (demoItem 2 1 11 101) 8] ++
  List.replicate 6 (wk 5)

/-- C25 and C26 fail for priorities that a selector refuses: the error ends the worker thread. Whatever happens
afterwards, the item accepted after the bad one is never applied and the sample request never answered. -/
theorem C25_worker_ends : ∃ w, demoCfg.runs badPriority w ∧ w.pc = .exited ∧ w.stop = false ∧
    w.accepted.map Item.key = [1, 2] ∧ w.asked.length = 1 ∧
    ∀ as w', Worker.run w as = some w' → (applied w'.trace).map Item.key = [1] ∧ answers w'.out = [] := by
  obtain ⟨w, h1, h2⟩ := Config.after'_runs (c := demoCfg) (as := badPriority) (P := fun w =>
      decide (w.pc = .exited) && !w.stop && decide (w.accepted.map Item.key = [1, 2]) && decide (w.asked.length = 1) &&
      decide ((applied w.trace).map Item.key = [1]) && decide (answers w.out = []))
    (by decide +kernel)
  simp only [Bool.and_eq_true, decide_eq_true_eq, Bool.not_eq_true'] at h2
  obtain ⟨⟨⟨⟨⟨a, b⟩, c⟩, d⟩, e⟩, f⟩ := h2
  refine ⟨w, h1, a, b, c, d, ?_⟩
  intro as w' hr
  obtain ⟨_, h3, h4⟩ := worker_gone hr a
  exact ⟨by rw [h4, e], by rw [h3, f]⟩

/-! ### C26 -/

/-- The requests that have not been answered yet. -/
def _root_.Verif.Worker.W.open (w : W) : List Req := w.terminate ++ live w.sampling ++ live w.pendingSampling

/-- C26, at most once: the answered requests together with those not yet answered are exactly the requests that
were made, each as often as it was made. -/
theorem C26_once {c : Config} {as : List Act} {w : W} (h : c.runs as w) :
    (((answers w.out).map fun a => a.1.bare) ++ w.open.map Req.bare).Perm w.asked := by
  rw [List.perm_iff_count]
  intro x
  have := (runs_served h).count x
  simp only [W.open, List.map_append, List.count_append]
  omega

/-- C26, the answer: OK exactly if the batch is complete; otherwise timeout, or cancellation if the table was
closed. (A request for 0 samples is treated as one for 1.) -/
theorem C26_status {c : Config} {as : List Act} {w : W} (h : c.runs as w) {r : Req} {s : Worker.Status}
    (ha : (r, s) ∈ answers w.out) :
    (s = none ↔ r.samples.length = max r.num 1) ∧
    (s ≠ none → r.samples.length < max r.num 1 ∧
      (s = some .deadlineExceeded ∨ s = some .cancelled ∧ Op.close ∈ w.trace)) := by
  have hw : r.want = max r.num 1 := rfl
  rcases (runs_served h).ok r s ha with ⟨h1, h2⟩ | ⟨h1, h2⟩
  · exact ⟨⟨fun _ => h2, fun _ => h1⟩, fun e => absurd h1 e⟩
  · have hne : s ≠ none := by rcases h1 with rfl | ⟨rfl, _⟩ <;> simp
    refine ⟨⟨fun e => absurd e hne, fun e => ?_⟩, fun _ => ⟨h2, ?_⟩⟩
    · rw [hw] at h2; omega
    · exact h1.imp id fun ⟨e, hc⟩ => ⟨e, (runs_seq h).seen hc⟩

/-- C26, order: requests are served in the order in which they were made. -/
theorem C26_order {c : Config} {as : List Act} {w : W} (h : c.runs as w) :
    ((((answers w.out).filter fun a => a.2 = none).map fun a => a.1.bare) ++ (live w.sampling).map Req.bare ++
      (live w.pendingSampling).map Req.bare).Sublist w.asked :=
  (runs_served h).order

/-- C26, contents: every sample that the table has produced is in exactly one request, and requests contain no other
samples. -/
theorem C26_samples {c : Config} {as : List Act} {w : W} (h : c.runs as w) (hd : w.dead = false) :
    (((answers w.out).flatMap fun a => a.1.samples) ++ w.open.flatMap Req.samples).Perm (drawn c.init w.trace) := by
  have hsh : Worker.Shared c.init w :=
    (Worker.run_inv (fun w => Worker.Shared c.init w ∧ Worker.Seq c.init w) (fun _ => True) ⟨.init _, .init rfl⟩
      (fun _ _ _ h _ hs => ⟨h.1.step h.2 hs, h.2.step hs⟩) (fun _ _ => trivial) h).1
  rw [List.perm_iff_count]
  intro x
  have := hsh hd x
  simp only [W.open, List.flatMap_append, List.count_append]
  omega

/-- C26, timeouts: a request is answered with a timeout only if it has a deadline and the worker has looked at the
clock after that deadline. -/
theorem C26_timeout {c : Config} {as : List Act} {w : W} (h : c.runs as w) {r : Req}
    (ha : (r, some Code.deadlineExceeded) ∈ answers w.out) :
    ∃ dl now d, r.deadline = some dl ∧ Act.work now d ∈ as ∧ dl ≤ now :=
  (Worker.run_ind Worker.Timely (.init _) (fun _ _ _ _ h hs => h.step hs) as w h).out r ha

/-- C26, timeouts: while the worker waits, unless a signal is under way, it has asked to be woken no later than at the
deadline of any request. -/
theorem C26_alarm {c : Config} {as : List Act} {w : W} (h : c.runs as w) (hp : w.pc = .waiting) (hw : w.woken = false)
    {r : Req} (hr : r ∈ w.open) {dl : Int} (hd : r.deadline = some dl) : ∃ x, w.wakeAt = some x ∧ x ≤ dl := by
  refine (runs_waits h).alarm hp hw r ?_ dl hd
  have ht : w.terminate = [] :=
    Classical.byContradiction fun e => by have := (runs_served h).term e; simp [hp] at this
  simpa [W.open, ht] using hr

/-- A request for two samples that gets only one before its deadline, then one that is served. -/
def timeoutActs : List Act :=
  [.insert (demoItem 1 1 10 100) 7, .request 1 2 (some 9), .request 2 1 none] ++ List.replicate 15 (wk 5) ++ [.wake] ++
  List.replicate 10 (wk 10) ++ [.insert (demoItem 2 1 10 100) 7, .wake] ++ List.replicate 15 (wk 12)

/-- Timeouts and answers, and while the worker waits for the first request its alarm is set. -/
example : workerCfg.after' timeoutActs (fun w =>
      decide ((answers w.out).map (fun a => (a.1.id, a.1.samples.length, a.2)) =
        [(1, 1, some .deadlineExceeded), (2, 1, none)]) && decide (w.open = []) && decide (w.pc = .waiting)) = true ∧
    workerCfg.after' (timeoutActs.take 18) (fun w => decide (w.pc = .waiting) && !w.woken && decide (w.wakeAt = some 9) &&
      decide (w.open.map (fun r => (r.id, r.samples.length)) = [(1, 1), (2, 0)]) && !w.table.limiter.canSample 1) = true := by
  decide +kernel

/-! ### C27 -/

/-- C27, exactly once: the callbacks called are, in order and without repetition, the first of those that were
registered because `InsertOrAssignAsync` answered that no more inserts are accepted. When the worker waits, a callback that
has not been called belongs to inserts that the worker has not taken over because it still has others. -/
theorem C27_once {c : Config} {as : List Act} {w : W} (h : c.runs as w) :
    ∃ rest, w.refused = (callbacks w.out).map Prod.fst ++ rest ∧
      (w.quiet → rest ≠ [] → w.pendingInserts ≠ [] ∧ w.inserts ≠ []) := by
  refine ⟨w.notify ++ w.notifyList, by rw [← List.append_assoc]; exact (runs_calls h).all, ?_⟩
  intro hq hne
  have hn : w.notify = [] := (runs_calls h).none (by simp [hq.1]) (by simp [hq.1])
  have hl : w.notifyList ≠ [] := by simpa [hn] using hne
  have hp := (runs_calls h).pend hl
  refine ⟨hp, fun hi => ?_⟩
  cases hcs : w.cancelSeen with
  | false => exact hp ((runs_waits h).inserts hq.1 hq.2.1 hcs hi)
  | true =>
    have hcl := (runs_seq h).closed.mpr ((runs_seq h).seen hcs)
    exact hl ((runs_waits h).cancelled hq.1 hq.2.1 hq.2.2.1 hcl).2.2.1

/-- C27, liveness. Missing: as for `C25_applied_partial`. When the worker waits, a callback is still to be called only if
the rate limiter lets no item in. -/
theorem C27_resumes_partial {c : Config} {as : List Act} {w : W} (h : c.runs as w) (ha : c.AdmitsAll as)
    (hg : c.NoMutationInGap as) (hq : w.quiet) (hi : w.table.limiter.canInsert 1 = true) :
    (callbacks w.out).map Prod.fst = w.refused := by
  obtain ⟨rest, h1, h2⟩ := C27_once h
  by_cases hr : rest = []
  · rw [h1, hr, List.append_nil]
  · have := ((runs_noLoss as w h ha hg).1.waiting hq.1 hq.2.1 hq.2.2.1).inserts (h2 hq hr).2
    rw [hi] at this
    exact absurd this (by simp)

theorem accepted_step {w w' : W} {a : Act} (hs : Worker.step w a = some w') :
    w.accepted <+: w'.accepted ∧ (w.pendingInserts <:+ w.accepted → w'.pendingInserts <:+ w'.accepted) := by
  obtain ⟨_, ht⟩ := Worker.tr_of_step hs
  cases ht
  case insertOk => exact ⟨List.prefix_append _ _, fun ⟨l, h⟩ => ⟨l, by simp [← h]⟩⟩
  case insertFull => exact ⟨List.prefix_append _ _, fun ⟨l, h⟩ => ⟨l, by simp [← h]⟩⟩
  case swapI => exact ⟨List.prefix_refl _, fun _ => List.nil_suffix⟩
  case swapB => exact ⟨List.prefix_refl _, fun _ => List.nil_suffix⟩
  all_goals exact ⟨List.prefix_refl _, id⟩

theorem accepted_prefix {w w' : W} {as : List Act} (hr : Worker.run w as = some w') : w.accepted <+: w'.accepted :=
  Worker.run_inv (w0 := w) (fun v => w.accepted <+: v.accepted) (fun _ => True) (List.prefix_refl _)
    (fun _ _ _ h _ hs => h.trans (accepted_step hs).1) (fun _ _ => trivial) hr

theorem pending_suffix {c : Config} {as : List Act} {w : W} (h : c.runs as w) :
    ∃ l, w.accepted = l ++ w.pendingInserts := by
  obtain ⟨l, hl⟩ := Worker.run_inv (fun v => v.pendingInserts <:+ v.accepted) (fun _ => True)
    (List.nil_suffix) (fun _ _ _ h _ hs => (accepted_step hs).2 h) (fun _ _ => trivial) h
  exact ⟨l, hl.symm⟩

/-- What is needed for `C27_taken_over`: either the first `n` accepted items are no longer pending, or the callback
number `k` is not about to be called, or it is called with an error. -/
theorem taken_over {n k : Nat} {w w' : W} {as : List Act} (hca : Worker.Calls w) (hr : Worker.run w as = some w')
    (hn : n ≤ w.accepted.length) (hk : (callbacks w.out).length + w.notify.length ≤ k) :
    w'.pendingInserts.length + n ≤ w'.accepted.length ∨ (callbacks w'.out).length + w'.notify.length ≤ k ∨
      (w'.cancelSeen = true ∧ ∀ c, (callbacks w'.out)[k]? = some c → c.2 ≠ none) := by
  refine (Worker.run_inv (w0 := w) (fun v => (n ≤ v.accepted.length ∧ Worker.Calls v) ∧
    (v.pendingInserts.length + n ≤ v.accepted.length ∨ (callbacks v.out).length + v.notify.length ≤ k ∨
      (v.cancelSeen = true ∧ ∀ c, (callbacks v.out)[k]? = some c → c.2 ≠ none))) (fun _ => True)
    ⟨⟨hn, hca⟩, .inr (.inl hk)⟩ ?_ (fun _ _ => trivial) hr).2
  intro v a v' ⟨⟨h0, hca⟩, h1⟩ _ hs
  have hca' := hca.step hs
  obtain ⟨_, ht⟩ := Worker.tr_of_step hs
  have hlk : ∀ now, v.pc = .queues →
      (v.pendingInserts.length + n ≤ v.accepted.length ∨ (callbacks v.out).length + (Worker.looked v now).notify.length ≤ k ∨
        ((Worker.looked v now).cancelSeen = true ∧ ∀ c, (callbacks v.out)[k]? = some c → c.2 ≠ none)) := by
    intro now hpc
    have hnn := hca.none (by simp [hpc]) (by simp [hpc])
    rcases h1 with h1 | h1 | ⟨h1, h2⟩
    · exact .inl h1
    · cases hcl : v.table.limiter.cancelled with
      | false => exact .inr (.inl (by simpa [Worker.looked, hcl] using h1))
      | true =>
        refine .inr (.inr ⟨by simp [Worker.looked, hcl], fun c hc => ?_⟩)
        have : (callbacks v.out).length ≤ k := by omega
        rw [List.getElem?_eq_none this] at hc
        exact absurd hc (by simp)
    · exact .inr (.inr ⟨by simp [Worker.looked, h1], h2⟩)
  refine ⟨⟨?_, hca'⟩, ?_⟩
  · exact Nat.le_trans h0 (accepted_step hs).1.length_le
  · cases ht
    case insertOk => exact h1.imp (fun h => by simp; omega) id
    case insertFull => exact h1.imp (fun h => by simp; omega) id
    case top =>
      rcases h1 with h1 | h1 | ⟨h1, h2⟩
      · exact .inl h1
      · exact .inr (.inl (by simpa [Worker.callbacks_append, Worker.callbacks_notify] using h1))
      · refine .inr (.inr ⟨h1, fun c hc => ?_⟩)
        rw [Worker.callbacks_append, Worker.callbacks_notify, List.getElem?_append] at hc
        split at hc
        · exact h2 c hc
        · rw [List.getElem?_map] at hc
          obtain ⟨x, _, rfl⟩ := Option.map_eq_some_iff.mp hc
          simp [W.insertStatus, h1]
    case smpFull => simpa [Worker.callbacks_append, callbacks] using h1
    case finish => simpa [Worker.callbacks_append, Worker.callbacks_answer] using h1
    case swapI => left; simpa using h0
    case swapB => left; simpa using h0
    case idleStop now d hpc _ _ _ _ _ _ => exact hlk now hpc
    case idleWait now d hpc _ _ _ _ _ _ => exact hlk now hpc
    case idleFinish now d hpc _ _ _ _ => exact hlk now hpc
    all_goals exact h1

/-- C27, not too early: if an insert was answered with "no more inserts" and its callback has been called with OK,
then neither that item nor any accepted before it is pending any more. (The callback is the one at the position that
the refusal has among all refusals, see `C27_once`.) -/
theorem C27_taken_over {c : Config} {as1 as2 : List Act} {i : Item} {cb : Nat} {w1 w2 w : W} (h1 : c.runs as1 w1)
    (h2 : Worker.step w1 (.insert i cb) = some w2) (hf : w2.refused = w1.refused ++ [cb])
    (h3 : Worker.run w2 as2 = some w) (hc : (callbacks w.out)[w1.refused.length]? = some (cb, none)) :
    ∃ taken, w.accepted = taken ++ w.pendingInserts ∧ w2.accepted <+: taken := by
  have hr2 : c.runs (as1 ++ [.insert i cb]) w2 := by
    unfold Config.runs; rw [Worker.run_append, h1]; simp [Worker.run, h2]
  have hr : c.runs (as1 ++ [.insert i cb] ++ as2) w := by
    unfold Config.runs; rw [Worker.run_append, hr2]; exact h3
  have hca := runs_calls h1
  have hlen := congrArg List.length hca.all
  simp only [List.length_append, List.length_map] at hlen
  have hsame : callbacks w2.out = callbacks w1.out ∧ w2.notify = w1.notify := by
    obtain ⟨_, ht⟩ := Worker.tr_of_step h2
    generalize ha : Act.insert i cb = a at ht
    cases ht <;> first | exact ⟨rfl, rfl⟩ | simp at ha
  have key := taken_over (n := w2.accepted.length) (k := w1.refused.length) (runs_calls hr2) h3 (Nat.le_refl _)
    (by rw [hsame.1, hsame.2]; omega)
  have hle : w.pendingInserts.length + w2.accepted.length ≤ w.accepted.length := by
    rcases key with k | k | ⟨_, k⟩
    · exact k
    · have : (callbacks w.out).length ≤ w1.refused.length := by omega
      rw [List.getElem?_eq_none this] at hc
      exact absurd hc (by simp)
    · exact absurd rfl (k _ hc)
  obtain ⟨l, hl⟩ := pending_suffix hr
  refine ⟨l, hl, ?_⟩
  have hp : w2.accepted <+: w.accepted := accepted_prefix h3
  have := congrArg List.length hl
  simp only [List.length_append] at this
  exact List.prefix_of_prefix_length_le hp (hl ▸ List.prefix_append _ _) (by omega)

/-- C27, the bound: if every insert comes from one of `streams`, which do not insert between an answer "no more
inserts" and the callback with OK, then fewer than the limit plus one per stream are pending. -/
theorem C27_bound {c : Config} {as : List Act} {w : W} (h : c.runs as w) {streams : List Nat}
    (hs : Worker.Obeys streams (Worker.init c.init) as) :
    w.pendingInserts.length < w.maxEnqueued + streams.length := by
  have hb := (Worker.run_inv (fun w => Worker.Bound w ∧ Worker.Calls w) (fun _ => True) ⟨.init _, .init _⟩
    (fun _ _ _ h _ hs => ⟨h.1.step h.2 hs, h.2.step hs⟩) (fun _ _ => trivial) h).1
  obtain ⟨h1, h2⟩ := Worker.refused_streams as w h hs
  have := Worker.stopped_le (runs_calls h) h1 h2
  have := hb.len
  omega

/-- Three inserts by three streams into a table that takes one. The first is taken over at once, so that its stream may
go on; the others are called back when the worker has taken theirs over. -/
def threeStreams : List Act :=
  [.insert (demoItem 1 1 10 100) 1] ++ List.replicate 5 (wk 5) ++
  [.insert (demoItem 2 1 11 101) 2, .insert (demoItem 3 1 11 101) 3]

theorem threeStreams_obeys : Worker.Obeys [1, 2, 3] (Worker.init workerCfg.init) threeStreams := by
  intro as1 i cb as2 w he hr
  have hlen : as1.length ∈ [0, 6, 7] := by
    have h1 : threeStreams[as1.length]? = some (.insert i cb) := by rw [he]; simp
    have h2 : as1.length < 8 := by have := congrArg List.length he; simp [threeStreams] at this; omega
    generalize as1.length = n at h1 h2
    have : n = 0 ∨ n = 1 ∨ n = 2 ∨ n = 3 ∨ n = 4 ∨ n = 5 ∨ n = 6 ∨ n = 7 := by omega
    rcases this with rfl | rfl | rfl | rfl | rfl | rfl | rfl | rfl <;> simp [threeStreams, wk, List.replicate] at h1 ⊢
  have h1 : as1 = threeStreams.take as1.length := by rw [he]; simp
  have h2 : threeStreams[as1.length]? = some (.insert i cb) := by rw [he]; simp
  have key : ∀ n ∈ [0, 6, 7], workerCfg.after' (threeStreams.take n) (fun w => match threeStreams[n]? with
      | some (.insert _ cb) => decide (cb ∈ [1, 2, 3]) && decide (w.refused.count cb = (Worker.okCalls w.out).count cb)
      | _ => false) = true := by decide +kernel
  have hk := key _ hlen
  rw [← h1, h2] at hk
  unfold Config.after' at hk
  rw [hr] at hk
  simpa using hk

/-- Meets the hypotheses of `C27_bound`: two are pending (the bound is 1 + 3); and those of `C27_once`. -/
example : workerCfg.after' threeStreams (fun w => decide (w.pendingInserts.length = 2) && decide (w.maxEnqueued = 1) &&
    decide (w.refused = [1, 2, 3]) && decide (callbacks w.out = [(1, none)])) = true ∧
    workerCfg.after' (threeStreams ++ List.replicate 9 (wk 6)) (fun w => decide (w.pendingInserts.length = 0) &&
    decide (callbacks w.out = [(1, none), (2, none), (3, none)]) && decide (w.inserts.length = 2) &&
    decide (w.pc = .waiting)) = true := by
  decide +kernel

/-! ### C28 -/

/-- C28, for asynchronous requests: after `Close`, once the worker waits again, no sample request is without an answer and
no callback is outstanding. (By `C25_settles` the worker gets there.) -/
theorem C28_async {c : Config} {as : List Act} {w : W} (h : c.runs as w) (hc : Op.close ∈ w.trace) (hq : w.quiet) :
    (((answers w.out).map fun a => a.1.bare)).Perm w.asked ∧ (callbacks w.out).map Prod.fst = w.refused := by
  have hcl := (runs_seq h).closed.mpr hc
  obtain ⟨h1, h2, h3, h4⟩ := (runs_waits h).cancelled hq.1 hq.2.1 hq.2.2.1 hcl
  have hn : w.notify = [] := (runs_calls h).none (by simp [hq.1]) (by simp [hq.1])
  have ht : w.terminate = [] :=
    Classical.byContradiction fun e => by have := (runs_served h).term e; simp [hq.1] at this
  constructor
  · have := C26_once h
    simpa [W.open, ht, h1, h2] using this
  · rw [(runs_calls h).all, hn, h3]; simp

/-- C28, for asynchronous requests: a request that is answered after `Close` is answered with `Cancelled`, except if it
is served completely, or if it had already been found to be too late before. -/
theorem C28_status {c : Config} {as1 as2 : List Act} {w1 w : W} (h1 : c.runs as1 w1) (hc : Op.close ∈ w1.trace)
    (h2 : Worker.run w1 as2 = some w) : ∃ new, answers w.out = answers w1.out ++ new ∧
      ∀ r s, (r, s) ∈ new → s = none ∨ s = some .cancelled ∨ (s = some .deadlineExceeded ∧ r ∈ w1.terminate) := by
  refine (Worker.run_inv (w0 := w1) (fun v => (Worker.Seq c.init v ∧ Op.close ∈ v.trace ∧
      (∀ r ∈ v.terminate, v.cancelSeen = true ∨ r ∈ w1.terminate)) ∧ ∃ new, answers v.out = answers w1.out ++ new ∧
      ∀ r s, (r, s) ∈ new → s = none ∨ s = some .cancelled ∨ (s = some .deadlineExceeded ∧ r ∈ w1.terminate))
    (fun _ => True) ⟨⟨runs_seq h1, hc, fun r hr => .inr hr⟩, [], by simp, by simp⟩ ?_ (fun _ _ => trivial) h2).2
  intro v a v' ⟨⟨hseq, hcl, hterm⟩, new, hnew, hst⟩ _ hs
  have hseq' := hseq.step hs
  have hcan := hseq.closed.mpr hcl
  obtain ⟨_, ht⟩ := Worker.tr_of_step hs
  have hlk : ∀ now, (Worker.looked v now).cancelSeen = true := by intro now; simp [Worker.looked, hcan]
  cases ht
  case sectionOk => exact ⟨⟨hseq', List.mem_append_left _ hcl, hterm⟩, new, hnew, hst⟩
  case sectionErr => exact ⟨⟨hseq', List.mem_append_left _ hcl, hterm⟩, new, hnew, hst⟩
  case sectionDied => exact ⟨⟨hseq', List.mem_append_left _ hcl, hterm⟩, new, hnew, hst⟩
  case top => exact ⟨⟨hseq', hcl, hterm⟩, new, by simp [Worker.answers_append, Worker.answers_notify, hnew], hst⟩
  case insOk => exact ⟨⟨hseq', List.mem_append_left _ hcl, hterm⟩, new, hnew, hst⟩
  case insErr => exact ⟨⟨hseq', List.mem_append_left _ hcl, hterm⟩, new, hnew, hst⟩
  case insDied => exact ⟨⟨hseq', List.mem_append_left _ hcl, hterm⟩, new, hnew, hst⟩
  case smpErr => exact ⟨⟨hseq', List.mem_append_left _ hcl, hterm⟩, new, hnew, hst⟩
  case smpDied => exact ⟨⟨hseq', List.mem_append_left _ hcl, hterm⟩, new, hnew, hst⟩
  case smpMore => exact ⟨⟨hseq', List.mem_append_left _ hcl, hterm⟩, new, hnew, hst⟩
  case smpFull =>
    refine ⟨⟨hseq', List.mem_append_left _ hcl, hterm⟩, new ++ [_], by rw [Worker.answers_append, hnew, List.append_assoc]; rfl, ?_⟩
    intro r s hm
    rcases List.mem_append.mp hm with hm | hm
    · exact hst r s hm
    · simp only [List.mem_singleton, Prod.mk.injEq] at hm; exact .inl hm.2
  case idleStop now d _ _ _ _ _ _ _ => exact ⟨⟨hseq', hcl, fun _ _ => .inl (hlk now)⟩, new, hnew, hst⟩
  case idleWait now d _ _ _ _ _ _ _ => exact ⟨⟨hseq', hcl, fun _ _ => .inl (hlk now)⟩, new, hnew, hst⟩
  case idleFinish now d _ _ _ _ _ => exact ⟨⟨hseq', hcl, fun _ _ => .inl (hlk now)⟩, new, hnew, hst⟩
  case finish =>
    refine ⟨⟨hseq', hcl, by simp⟩, new ++ v.terminate.map (·, v.samplingStatus), ?_, ?_⟩
    · rw [Worker.answers_append, hnew, List.append_assoc, Worker.answers_answer]
    · intro r s hm
      rcases List.mem_append.mp hm with hm | hm
      · exact hst r s hm
      · obtain ⟨x, hx, he⟩ := List.mem_map.mp hm
        simp only [Prod.mk.injEq] at he
        obtain ⟨rfl, rfl⟩ := he
        cases hcs : v.cancelSeen with
        | true => right; left; simp [W.samplingStatus, hcs]
        | false =>
          right; right
          refine ⟨by simp [W.samplingStatus, hcs], (hterm x hx).resolve_left (by simp [hcs])⟩
  all_goals exact ⟨⟨hseq', hcl, hterm⟩, new, hnew, hst⟩

/-- A request for nine samples of which the limiter allows only some, a waiting insert, and then `Close`. -/
def closeActs : List Act :=
  [.insert (demoItem 1 1 10 100) 7, .insert (demoItem 2 1 11 101) 8, .request 1 9 none] ++ List.replicate 18 (wk 5) ++
  [.insert (demoItem 3 1 11 101) 9, .close, .signal, .wake] ++ List.replicate 21 (wk 6)

/-- Meets the hypotheses of `C28_async` and `C28_status`. -/
example : workerCfg.after' closeActs (fun w => decide (w.pc = .waiting) && !w.woken && decide (w.signals = 0) &&
      decide ((answers w.out).map (fun a => (a.1.id, a.2)) = [(1, some .cancelled)]) &&
      decide (w.asked.length = 1) && decide (w.refused = [7, 8, 9])) = true ∧
    workerCfg.after' (closeActs.take 24) (fun w => decide (answers w.out = []) && w.trace.any fun op => match op with
      | .close => true
      | _ => false) = true := by
  decide +kernel

/-- Two items may be sampled, and the request arrives after `Close`. -/
def afterClose : List Act :=
  [.insert (demoItem 1 1 10 100) 7, .close, .signal] ++ List.replicate 14 (wk 5) ++ [.request 1 1 none, .wake] ++
  List.replicate 15 (wk 6)

/-- C28 does not hold literally: also after `Close` the worker serves a request if it can. -/
theorem C28_served_after_close : ∃ w, workerCfg.runs afterClose w ∧ Op.close ∈ w.trace ∧
    (answers w.out).map (fun a => (a.1.id, a.2)) = [(1, none)] := by
  obtain ⟨w, h1, h2⟩ := Config.after'_runs (c := workerCfg) (as := afterClose) (P := fun w =>
      w.table.limiter.cancelled && decide ((answers w.out).map (fun a => (a.1.id, a.2)) = [(1, none)]))
    (by decide +kernel)
  simp only [Bool.and_eq_true, decide_eq_true_eq] at h2
  exact ⟨w, h1, (runs_seq h1).closed.mp h2.1, h2.2⟩

/-! ### C29 -/

/-- C29, without worker: an attempt to insert or sample that finds it has to wait, or that is cancelled, does not change
the table. (A request that times out has made only such attempts.) -/
theorem C29_attempt {c : Config} {t : Table} (h : c.Reachable t) {op : Op} (ho : c.Admissible op)
    (hr : (t.step op).2 = .ok .blocked ∨ (t.step op).2 = .err .cancelled) : (t.step op).1 = t := by
  obtain ⟨mvs, hp⟩ := h.inv.step op (c.okFor ho)
  rcases hp.res with ⟨e, _⟩ | ⟨_, e, _⟩ | ⟨l, e, _⟩ | ⟨_, _, _, e, _⟩
  · rcases hr with hr | hr <;> simp [hr] at e
  · exact e
  · rcases hr with hr | hr <;> simp [hr] at e
  · exact e

/-- C29 for asynchronous requests. Missing: requests for more than one sample (see `C29_lost_samples`). -/
theorem C29_single_partial {c : Config} {as : List Act} {w : W} (h : c.runs as w) {r : Req} {s : Worker.Status}
    (ha : (r, s) ∈ answers w.out) (hn : r.num ≤ 1) (hs : s ≠ none) : r.samples = [] := by
  have := ((C26_status h ha).2 hs).1
  have h1 : max r.num 1 = 1 := by omega
  rw [h1] at this
  exact List.eq_nil_of_length_eq_zero (by omega)

/-- C29 fails for batches: the samples collected for a request are lost when it times out, although the table
has counted them. -/
theorem C29_lost_samples : ∃ w r, workerCfg.runs timeoutActs w ∧ workerCfg.AdmitsAll timeoutActs ∧
    (r, some .deadlineExceeded) ∈ answers w.out ∧ r.samples.map (fun s => s.item.key) = [1] ∧
    r.samples ⊆ drawn workerCfg.init w.trace := by
  obtain ⟨w, h1, h2⟩ := Config.after'_runs (c := workerCfg) (as := timeoutActs) (P := fun w =>
      !w.dead && (answers w.out).any (fun a => decide (a.2 = some .deadlineExceeded) &&
        decide (a.1.samples.map (fun s => s.item.key) = [1])))
    (by decide +kernel)
  simp only [Bool.and_eq_true, decide_eq_true_eq, Bool.not_eq_true', List.any_eq_true] at h2
  obtain ⟨hd, ⟨r, s⟩, hm, h3, h4⟩ := h2
  simp only at h3 h4
  subst h3
  refine ⟨w, r, h1, worker_admits _, hm, h4, fun x hx => ?_⟩
  exact (C26_samples h1 hd).subset (List.mem_append_left _ (List.mem_flatMap.mpr ⟨_, hm, hx⟩))

/-- C29 fails for `InsertOrAssign` on a table with a worker: when the worker waits and the second item cannot be inserted, a
caller whose timeout passes gets `RateLimiterTimeout` (`W.done` is false), and yet the item is inserted afterwards. -/
theorem C29_late_insert : ∃ w1 w2 more, workerCfg.runs twoInserts w1 ∧ w1.quiet ∧ w1.done = false ∧
    w1.table.data.contains 2 = false ∧ Worker.run w1 more = some w2 ∧ (∀ i cb, Act.insert i cb ∉ more) ∧
    w2.table.data.contains 2 = true := by
  let more : List Act := [.request 1 1 none, .wake] ++ List.replicate 17 (wk 6)
  obtain ⟨w1, h1, h2⟩ := Config.after'_runs (c := workerCfg) (as := twoInserts) (P := fun w =>
      decide (w.pc = .waiting) && !w.woken && decide (w.signals = 0) && !w.dead && !w.done && !w.table.data.contains 2 &&
      (Worker.run w more).any fun w2 => w2.table.data.contains 2)
    (by decide +kernel)
  simp only [Bool.and_eq_true, decide_eq_true_eq, Bool.not_eq_true', Option.any_eq_true] at h2
  obtain ⟨⟨⟨⟨⟨⟨a, b⟩, c⟩, d⟩, e⟩, f⟩, w2, h3, h4⟩ := h2
  refine ⟨w1, w2, more, h1, ⟨a, b, c, d⟩, e, f, h3, ?_, h4⟩
  intro i cb hm
  simp [more, wk] at hm

/-- An item that has to wait when the table is closed. -/
def dropped : List Act := twoInserts ++ [.close, .signal, .wake] ++ List.replicate 5 (wk 6)

/-- C29 fails for `InsertOrAssign` on a closed table with a worker: the waiting item is dropped, and its caller finds the
worker done and returns OK. -/
theorem C29_dropped_ok : ∃ w, workerCfg.runs dropped w ∧ w.done = true ∧ w.accepted.map Item.key = [1, 2] ∧
    (applied w.trace).map Item.key = [1] ∧ w.table.data.contains 2 = false := by
  obtain ⟨w, h1, h2⟩ := Config.after'_runs (c := workerCfg) (as := dropped) (P := fun w =>
      w.done && decide (w.accepted.map Item.key = [1, 2]) && decide ((applied w.trace).map Item.key = [1]) &&
      !w.table.data.contains 2)
    (by decide +kernel)
  simp only [Bool.and_eq_true, decide_eq_true_eq, Bool.not_eq_true'] at h2
  obtain ⟨⟨⟨a, b⟩, c⟩, d⟩ := h2
  exact ⟨w, h1, a, b, c, d⟩

/-- Meets the hypotheses of `C29_attempt`: an insert that has to wait, and one that is cancelled. -/
example : (workerCfg.init.step (.sample 1 fun _ => draw 0)).2 = .ok .blocked ∧
    ((workerCfg.init.step .close).1.step (.insert (demoItem 1 1 10 100) 3 (draw 0))).2 = .err .cancelled := by
  decide +kernel

end Verif
