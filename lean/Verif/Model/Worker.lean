import Verif.Model.Table
/-
Model of the table worker: table.cc:95-129 (requests), 183-344 (`TableWorkerLoop`), 544-572
(`InsertOrAssignAsync`), 612-633, 642-669 (`EnqueSampleRequest`), 819-829, 921-960.

A state is a state of the table, of the local variables of the worker thread, and of the members guarded by
`worker_mu_`. A step is one critical section of some thread, or a part of one of the worker thread while it
holds `mu_` (then no other thread can enter a section under `mu_`).
-/
namespace Verif.Worker
open Table (Op)

/-- A status; `none` is OK (table.h:130-140; only the code is kept). -/
abbrev Status := Option Code

/-- `Table::SampleRequest` (table.h:129-149), with an identity. A missing deadline is `InfiniteFuture`. -/
structure Req where
  id : Nat
  num : Nat
  deadline : Option Int
  samples : List Sampled
  deriving DecidableEq

/-- How many samples a request is to collect: the capacity of `samples` after `reserve(num_samples)`
(table.cc:653-655). For 0 nothing is reserved and the first `emplace_back` allocates room for one. -/
def Req.want (r : Req) : Nat := max r.num 1

/-- What is handed to `callback_executor_`: an answered sample request (table.cc:95-107) or the callback of an
insert stream (table.cc:218-229). -/
inductive Out where
  | answer (r : Req) (status : Status)
  | notify (cb : Nat) (status : Status)
  deriving DecidableEq

/-- Where the worker thread is. `top`: start of the outer loop (line 216). `tryInsert`, `trySample`: in the
inner loop, holding `mu_` (239, 247). `queues`: between the two sections (268). `waiting`: in
`WaitWithDeadline` (334). `finish`: line 338. `exited`: the thread has returned (table.cc:183-344). -/
inductive Pc where
  | top | tryInsert | trySample | queues | waiting | finish | exited
  deriving DecidableEq, Repr

/-- The state. Of `current_inserts` and `current_sampling` only the part from `insert_idx`/`sample_idx` on is
kept; the entries before are done and never looked at again. The last five fields are history, not read by
any step (table.h:482-521 and the locals of table.cc:183-344). -/
structure W where
  table : Table
  /-- `max_enqueued_inserts_` -/
  maxEnqueued : Nat
  pc : Pc
  /-- the process has died -/
  dead : Bool
  /-- `current_inserts` -/
  inserts : List Item
  /-- `current_sampling`; `none` is a null pointer -/
  sampling : List (Option Req)
  rateLimited : Bool
  /-- `progress != last_progress` -/
  progress : Bool
  /-- `prev_progress < progress` at the end of a pass of the inner loop -/
  again : Bool
  /-- `notify_inserts_ok` -/
  notify : List Nat
  /-- `to_terminate` -/
  terminate : List Req
  /-- `insert_status` and `sampling_status` have been changed to Cancelled -/
  cancelSeen : Bool
  /-- `pending_inserts_` -/
  pendingInserts : List Item
  /-- `pending_sampling_` -/
  pendingSampling : List (Option Req)
  /-- `notify_inserts_ok_` -/
  notifyList : List Nat
  stop : Bool
  /-- the waiting worker has been signalled -/
  woken : Bool
  /-- the deadline the waiting worker has given to `WaitWithDeadline`; `none` is `InfiniteFuture` -/
  wakeAt : Option Int
  /-- number of callers that have left `mu_` and are about to signal (612-633, 819-829, 921-960) -/
  signals : Nat
  /-- everything scheduled on `callback_executor_` -/
  out : List Out
  /-- items taken by `InsertOrAssignAsync` -/
  accepted : List Item
  /-- callbacks registered by `InsertOrAssignAsync` -/
  refused : List Nat
  /-- requests enqueued -/
  asked : List Req
  /-- critical sections of the table that have been executed -/
  trace : List Op

/-- table.cc:142-144: `max(1, min(max_size * 0.1, 1000))`, rounded towards zero. -/
def maxEnqueuedInserts (maxSize : Nat) : Nat := max 1 (min (maxSize / 10) 1000)

/-- A table with an enabled worker (table.cc:419-447). -/
def init (t : Table) : W where
  table := t
  maxEnqueued := maxEnqueuedInserts t.maxSize
  pc := .top
  dead := false
  inserts := []
  sampling := []
  rateLimited := false
  progress := false
  again := false
  notify := []
  terminate := []
  cancelSeen := false
  pendingInserts := []
  pendingSampling := []
  notifyList := []
  stop := false
  woken := false
  wakeAt := none
  signals := 0
  out := []
  accepted := []
  refused := []
  asked := []
  trace := []

/-- table.cc:187-192, 306-309: the status for callbacks of inserters. -/
def W.insertStatus (w : W) : Status := if w.cancelSeen then some .cancelled else none

/-- table.cc:187-192, 306-309: the status for terminated requests. -/
def W.samplingStatus (w : W) : Status := if w.cancelSeen then some .cancelled else some .deadlineExceeded

/-- The worker holds `mu_` (table.cc:215-344). -/
def W.locked (w : W) : Bool := w.pc = .tryInsert ∨ w.pc = .trySample

/-- table.cc:216-229: callbacks are handed to the executor, then `mu_` is taken. -/
def workTop (w : W) : W :=
  { w with
    out := w.out ++ w.notify.map (Out.notify · w.insertStatus)
    notify := []
    again := false
    pc := .tryInsert }

/-- table.cc:239-245: the attempt to insert one item. -/
def workInsert (w : W) (now : Int) (d : Draw) : W :=
  match w.inserts with
  | [] => { w with pc := .trySample }
  | i :: rest =>
    if w.table.limiter.canInsert 1 then
      let op := Op.workerInsert i now d
      let r := w.table.step op
      let w1 := { w with
        table := r.1
        inserts := rest
        trace := w.trace ++ [op] }
      match r.2 with
      | .ok _ => { w1 with
          progress := true
          again := true
          pc := .trySample }
      | .err _ => { w1 with pc := .exited }
      | .died => { w1 with dead := true }
    else { w with pc := .trySample }

/-- table.cc:235-236: the end of a pass of the inner loop. -/
def endPass (w : W) : W :=
  if w.again then { w with
    again := false
    pc := .tryInsert }
  else { w with pc := .queues }

/-- table.cc:246-265: requests that have been terminated are skipped, then one sample is attempted for the
first request. -/
def workSample (w : W) (d : Draw) : W :=
  match w.sampling.dropWhile Option.isNone with
  | [] => endPass { w with sampling := [] }
  | none :: rest => endPass { w with sampling := none :: rest }
  | some r :: rest =>
    if w.table.limiter.canSample 1 then
      let op := Op.workerSample w.rateLimited d
      let x := w.table.step op
      let w1 := { w with
        table := x.1
        trace := w.trace ++ [op]
        sampling := some r :: rest
        progress := true
        again := true }
      match x.2 with
      | .ok (.samples l) =>
        let r' := { r with samples := r.samples ++ l }
        if r'.samples.length = r'.want then
          endPass { w1 with
            sampling := rest
            out := w.out ++ [Out.answer r' none] }
        else { w1 with sampling := some r' :: rest }
      | .ok _ => { w1 with dead := true }
      | .err _ => { w1 with pc := .exited }
      | .died => { w1 with dead := true }
    else endPass { w with sampling := some r :: rest }

/-- table.cc:269-280. -/
def swapInserts (w : W) : W :=
  if w.inserts = [] ∧ w.pendingInserts ≠ [] then
    { w with
      inserts := w.pendingInserts
      pendingInserts := []
      notify := w.notifyList
      notifyList := w.notify
      progress := true }
  else w

/-- table.cc:281-292. -/
def swapSampling (w : W) : W :=
  if w.sampling = [] ∧ w.pendingSampling ≠ [] then
    { w with
      sampling := w.pendingSampling
      pendingSampling := []
      rateLimited := false
      progress := true }
  else w

/-- table.cc:300-318. -/
def seeCancel (w : W) : W :=
  if w.table.limiter.cancelled then
    { w with
      cancelSeen := true
      notify := if w.notify = [] then w.notifyList else w.notify
      notifyList := if w.notify = [] then [] else w.notifyList
      inserts := [] }
  else w

/-- table.cc:117-128: is the request to be terminated? When the limiter is cancelled the deadline to compare
with is `InfiniteFuture`, which no deadline exceeds. -/
def expired (cancelled : Bool) (now : Int) (r : Req) : Bool :=
  cancelled || match r.deadline with
    | none => false
    | some d => decide (d ≤ now)

/-- table.cc:113-129 `GetExpiredRequests`: what is left, with null pointers for the requests taken. -/
def keepUnexpired (p : Req → Bool) (l : List (Option Req)) : List (Option Req) :=
  l.map fun o => o.bind fun r => if p r then none else some r

/-- table.cc:113-129 `GetExpiredRequests`: the requests taken. -/
def takeExpired (p : Req → Bool) (l : List (Option Req)) : List Req :=
  (l.filterMap id).filter p

/-- table.cc:125-127: `min` of two deadlines. -/
def earlier : Option Int → Option Int → Option Int
  | none, b => b
  | a, none => a
  | some a, some b => some (min a b)

/-- table.cc:125-127 `next_deadline`: the earliest deadline of the requests that are left. -/
def nextDeadline : List (Option Req) → Option Int → Option Int
  | [], acc => acc
  | none :: l, acc => nextDeadline l acc
  | some r :: l, acc => nextDeadline l (earlier acc r.deadline)

/-- table.cc:319-336: expired requests are collected; if there are none and no callback is due the thread
ends, or waits. -/
def collect (w : W) (now : Int) : W :=
  let p := expired w.table.limiter.cancelled now
  let w1 := { w with
    terminate := w.terminate ++ takeExpired p w.sampling ++ takeExpired p w.pendingSampling
    sampling := keepUnexpired p w.sampling
    pendingSampling := keepUnexpired p w.pendingSampling }
  if w1.terminate = [] ∧ w1.notify = [] then
    if w1.stop then { w1 with pc := .exited }
    else { w1 with
      rateLimited := !w1.sampling.isEmpty
      woken := false
      wakeAt := nextDeadline w1.pendingSampling (nextDeadline w1.sampling none)
      pc := .waiting }
  else { w1 with pc := .finish }

/-- table.cc:268-337: the section under `worker_mu_` (and, inside, `mu_`). -/
def workQueues (w : W) (now : Int) : W :=
  let w := swapSampling (swapInserts w)
  if w.progress then { w with
    progress := false
    pc := .top }
  else collect (seeCancel w) now

/-- table.cc:338-342. -/
def workFinish (w : W) : W :=
  { w with
    out := w.out ++ w.terminate.map (Out.answer · w.samplingStatus)
    terminate := []
    pc := .top }

/-- The worker thread goes on; `none` if it waits or is gone (table.cc:183-344). -/
def work (w : W) (now : Int) (d : Draw) : Option W :=
  match w.pc with
  | .top => some (workTop w)
  | .tryInsert => some (workInsert w now d)
  | .trySample => some (workSample w d)
  | .queues => some (workQueues w now)
  | .finish => some (workFinish w)
  | .waiting => none
  | .exited => none

/-- `wakeup_worker_.Signal()`: without effect unless the worker waits (table.cc:560-570, 660-668). -/
def signalled (w : W) : W := { w with woken := w.woken || decide (w.pc = .waiting) }

/-- table.cc:544-572 `InsertOrAssignAsync`; `cb` identifies the callback. The answer `can_insert_more` is
`false` exactly if the callback is added to `refused`. -/
def enqueueInsert (w : W) (i : Item) (cb : Nat) : W :=
  if Table.itemValid i then
    let w1 := signalled { w with
      pendingInserts := w.pendingInserts ++ [i]
      accepted := w.accepted ++ [i] }
    if w.pendingInserts.length + 1 < w.maxEnqueued then w1
    else { w1 with
      notifyList := w1.notifyList ++ [cb]
      refused := w1.refused ++ [cb] }
  else w

/-- table.cc:642-669 `EnqueSampleRequest`. -/
def enqueueSample (w : W) (id num : Nat) (deadline : Option Int) : W :=
  let r : Req := ⟨id, num, deadline, []⟩
  signalled { w with
    pendingSampling := w.pendingSampling ++ [some r]
    asked := w.asked ++ [r] }

/-- A section under `mu_` of another thread; `signal` tells whether it goes on to signal the worker
(table.cc:612-633, 819-829, 921-960). -/
def tableSection (w : W) (op : Op) : Option W :=
  if w.locked then none
  else
    let r := w.table.step op
    let w1 := { w with
      table := r.1
      trace := w.trace ++ [op] }
    match r.2 with
    | .ok _ => some { w1 with signals := w1.signals + 1 }
    | .err _ => some w1
    | .died => some { w1 with dead := true }

/-- table.cc:480-486 `worker_done`, what a caller of `InsertOrAssign` waits for when the table has a worker.
`worker_state_` is `kSleeping` exactly while the thread waits with both queues done (326-332). -/
def W.done (w : W) : Bool := w.pc = .waiting ∧ w.sampling = [] ∧ w.inserts = [] ∧ w.pendingInserts = []

/-- What can happen next (table.cc:183-344, 544-572, 642-669, 819-829). -/
inductive Act where
  /-- `InsertOrAssignAsync` -/
  | insert (i : Item) (cb : Nat)
  /-- `EnqueSampleRequest` -/
  | request (id num : Nat) (deadline : Option Int)
  /-- `MutateItems`, the section under `mu_` (612-623) -/
  | mutate (updates : List (Key × Pri)) (deletes : List Key)
  /-- `Reset`, the section under `mu_` (922-950) -/
  | reset
  /-- `Close`, the section under `mu_` (820-823) -/
  | close
  /-- the second section of one of these three, under `worker_mu_` -/
  | signal
  /-- the destructor asks the worker to end (160-164) -/
  | stop
  /-- `WaitWithDeadline` returns: signalled, timed out or spuriously -/
  | wake
  /-- the worker thread goes on -/
  | work (now : Int) (d : Draw)

/-- One step; `none` if it is not possible (table.cc:183-344, 544-572, 642-669, 819-829). -/
def step (w : W) (a : Act) : Option W :=
  if w.dead then none
  else
    match a with
    | .insert i cb => some (enqueueInsert w i cb)
    | .request id num dl => some (enqueueSample w id num dl)
    | .mutate us ds => tableSection w (.mutate us ds)
    | .reset => tableSection w .reset
    | .close => tableSection w .close
    | .signal => if w.signals = 0 then none else some (signalled { w with signals := w.signals - 1 })
    | .stop => some (signalled { w with stop := true })
    | .wake => if w.pc = .waiting then some { w with pc := .finish } else none
    | .work now d => work w now d

/-- A schedule (model only) of the worker of table.cc:183-344 and its callers. -/
def run (w : W) : List Act → Option W
  | [] => some w
  | a :: as =>
    match step w a with
    | none => none
    | some w' => run w' as

end Verif.Worker
