import Verif.Model.Timeout
import Verif.Model.TensorSpec
/-
Model of `Sampler` and its workers, reverb/cc/sampler.cc:168-702 and sampler.h:184-460: any number of workers and callers, and what the
server or the table answers. A step is what one thread does between two calls that may block or two critical sections. `mu_` may be
held while the queue is closed (533, 549, 566, 696); as operations of the queue do not look at what `mu_` guards, the two are one
step. The clock stands still during a step.
-/
namespace Verif

/-- `INT64_MAX` (as used in sampler.cc:405 and 476). -/
def int64Max : Int := 9223372036854775807

/-- sampler.h:225-283 `Sampler::Options`. -/
structure SamplerOptions where
  maxSamples : Int
  inFlight : Int
  numWorkers : Int
  perStream : Int
  timeout : Duration
  flexible : Int
  deriving DecidableEq

namespace SamplerOptions

/-- sampler.h:207 `kUnlimitedMaxSamples`. -/
def unlimited : Int := -1

/-- sampler.cc:882-915 `Options::Validate`: `none` is OK. -/
def validate (o : SamplerOptions) : Option Code :=
  if o.maxSamples < 1 ∧ o.maxSamples ≠ unlimited then some .invalidArgument
  else if o.inFlight < 1 then some .invalidArgument
  else if o.numWorkers < 1 ∧ o.numWorkers ≠ autoSelect then some .invalidArgument
  else if o.perStream < 1 ∧ o.perStream ≠ unlimited then some .invalidArgument
  else if o.timeout.any (· < 0) then some .invalidArgument
  else if o.flexible < 1 ∧ o.flexible ≠ autoSelect then some .invalidArgument
  else none

/-- sampler.cc:404-406 and 475-477. -/
def max (o : SamplerOptions) : Int := if o.maxSamples = unlimited then int64Max else o.maxSamples

/-- sampler.cc:403-417 `GetNumWorkers`. Integers are divided with rounding towards zero. -/
def workers (o : SamplerOptions) : Int :=
  min (if o.numWorkers = autoSelect then 1 else o.numWorkers) (Max.max 1 (o.max.tdiv o.inFlight))

end SamplerOptions

/-- Where the workers get samples: a server, or a table of the same process (sampler.cc:168-401). -/
inductive SampleSource where
  /-- sampler.cc:286-298: the name of the table, `samples_per_request_` and `flexible_batch_size_` -/
  | grpc (table : String) (perRequest flexible : Int)
  /-- sampler.cc:397-398: `flexible_batch_size_` -/
  | here (batch : Int)
  deriving DecidableEq

/-- The constants of a sampler (sampler.h:379-435). -/
structure SamplerCfg where
  /-- `max_samples_` -/
  max : Int
  /-- `max_samples_per_stream_` -/
  perStream : Int
  /-- the capacity of `samples_` -/
  cap : Nat
  /-- the number of workers -/
  workers : Nat
  /-- `rate_limiter_timeout_` -/
  timeout : Duration
  source : SampleSource
  /-- `dtypes_and_shapes_`, with the four entries in front that stand for key, probability, table size and priority -/
  spec : Option (List TensorSpec)

/-- sampler.cc:419-433 `MakeGrpcWorkers`, 435-461 `MakeLocalWorkers` (`local` is `DefaultFlexibleBatchSize` of the table, if there is one)
and 471-498, the constructor. A failed check is `died`. -/
def SamplerCfg.make (o : SamplerOptions) (table : String) (localDefault : Option Int) (spec : Option (List TensorSpec)) :
    Res SamplerCfg :=
  if o.inFlight = 0 then .died
  else if o.workers < 1 then .died
  else
    let source : SampleSource :=
      match localDefault with
      | none => .grpc table o.inFlight o.flexible
      | some d => .here (min (if o.flexible = autoSelect then d else o.flexible) o.inFlight)
    let tooSmall : Bool :=
      match source with
      | .grpc _ _ _ => false
      | .here b => decide (b < 1)
    if tooSmall then .died
    else if ¬ 0 < o.max then .died
    else if ¬ 0 < o.inFlight then .died
    else if ¬ (o.numWorkers = autoSelect ∨ 0 < o.numWorkers) then .died
    else if ¬ (o.flexible = autoSelect ∨ 0 < o.flexible) then .died
    else .ok ⟨o.max, if o.perStream = autoSelect then 10000 else o.perStream, (Max.max o.numWorkers 1).toNat, o.workers.toNat,
      o.timeout, source, spec⟩

/-- sampler.h:344-356 `ValidationMode`, which is also what is called. -/
inductive SampleCall where
  /-- `GetNextTimestep` -/
  | timestep
  /-- `GetNextSample` -/
  | batched
  /-- `GetNextTrajectory` -/
  | trajectory
  deriving DecidableEq, Repr

/-- sampler.cc:587-621: the check of one tensor. -/
def SampleCall.fits (k : SampleCall) (want : TensorSpec) (t : Tensor) : Bool :=
  match k with
  | .batched =>
    match t.shape with
    | [] => false
    | _ :: shape => want.accepts ⟨t.dtype, .ofShape shape⟩
  | _ => want.accepts ⟨t.dtype, .ofShape t.shape⟩

/-- sampler.cc:587-621: the loop over the tensors after the first four. -/
def SampleCall.fitAll (k : SampleCall) : List TensorSpec → List Tensor → Bool
  | w :: ws, t :: ts => if k.fits w t then fitAll k ws ts else false
  | _, _ => true

/-- sampler.cc:570-623 `ValidateAgainstOutputSpec` for four tensors of `info` and the data. `none` is OK. -/
def SampleCall.validate (k : SampleCall) (spec : Option (List TensorSpec)) (data : List Tensor) : Option Code :=
  match spec with
  | none => none
  | some specs =>
    if 4 + data.length ≠ specs.length then some .invalidArgument
    else if k.fitAll (specs.drop 4) data then none
    else some .invalidArgument

/-- What a call returns. The data comes without the four tensors in front (sampler.cc:507-568). -/
inductive SampleOut where
  /-- the next timestep, and `end_of_sequence` -/
  | timestep (rows : List Tensor) (last : Bool)
  /-- the number of timesteps, and the columns -/
  | batched (n : Int) (columns : List Tensor)
  | trajectory (columns : List Tensor)
  | error (c : Code)
  deriving DecidableEq, Repr

/-- Where a worker is in `FetchSamples` (sampler.cc:195-283 and 322-394). -/
inductive Fetch where
  /-- sampler.cc:201: before the stream is opened -/
  | opening
  /-- sampler.cc:212: at the condition of the loop, or in `Write` -/
  | asking
  /-- sampler.cc:229: in `Read`; the number of samples asked for, how many of them have come, and the parts of the next one -/
  | reading (want sampled : Int) (parts : List Entry)
  /-- sampler.cc:257: in `Push`; then come the other entries of the response -/
  | pushing (want sampled : Int) (s : Sample) (rest : List Entry)
  /-- sampler.cc:329: at the condition of the loop of the local worker, with `final_deadline`; `base` is history: when that was set -/
  | checking (final : Duration) (base : Int)
  /-- sampler.cc:350: in `SampleFlexibleBatch` with a deadline -/
  | sampling (final : Duration) (base : Int) (batch : Int) (deadline : Int)
  /-- sampler.cc:379: in `Push` of the local worker; then come the other items -/
  | pushingHere (final : Duration) (base : Int) (s : Sample) (rest : List SampledItem)

/-- Where the thread of a worker is in `RunWorker` (sampler.cc:665-702). -/
inductive SWPhase where
  /-- sampler.cc:671: in `LockWhen` -/
  | idle
  /-- sampler.cc:683: in `FetchSamples` for `n` samples, of which `got` have been pushed -/
  | fetch (n got : Int) (f : Fetch)
  /-- sampler.cc:686: `FetchSamples` has returned -/
  | report (n got : Int) (status : Option Code)
  | stopped

/-- A worker: its `closed_`, and its thread (sampler.cc:301-306 and 397-400). -/
structure SWorker where
  closed : Bool
  phase : SWPhase

/-- Where a call is (sampler.cc:507-568 and 644-663). -/
inductive CallPhase where
  /-- in `Pop`, since `since` -/
  | popping (k : SampleCall) (since : Int)
  /-- sampler.cc:655: `Pop` has returned false -/
  | failed (k : SampleCall)
  /-- `GetNextSample` or `GetNextTrajectory` with a sample -/
  | holding (k : SampleCall) (s : Sample)
  /-- sampler.cc:511: `GetNextTimestep` with an active sample -/
  | stepping

/-- Where `Close` is: before the call of `Cancel` of worker `i`, before the call of `samples_.Close`, joining the threads, or at the
end (sampler.cc:629-642). -/
inductive ClosePhase where
  | notCalled
  | cancelling (i : Nat)
  | joining
  | done
  deriving DecidableEq

/-- A sampler (sampler.h:379-435). -/
structure ClientSampler where
  /-- `requested_` -/
  requested : Int
  /-- `returned_` -/
  returned : Int
  /-- `worker_status_` -/
  status : Option Code
  /-- `closed_` -/
  closed : Bool
  /-- the contents of `samples_`, see C47 -/
  queue : List Sample
  /-- `samples_.closed_` -/
  queueClosed : Bool
  workers : List SWorker
  calls : AMap Nat CallPhase
  /-- `active_sample_` -/
  active : Option Sample
  closing : ClosePhase
  clock : Int
  dead : Bool
  /-- history: what has been pushed, with the index of the worker -/
  pushed : List (Nat × Sample)
  /-- history: what calls have returned -/
  log : List SampleOut
  /-- history: the requests that have been sent -/
  sent : List SampleReq
  /-- history: the number of samples asked for that had not come when the stream was given up -/
  abandoned : Int

namespace ClientSampler

/-- sampler.cc:471-498: a new sampler at time `now`. -/
def init (c : SamplerCfg) (now : Int) : ClientSampler :=
  ⟨0, 0, none, false, [], false, List.replicate c.workers ⟨false, .idle⟩, .empty, none, .notCalled, now, false, [], [], [], 0⟩

/-- sampler.cc:625-627 `should_stop_workers`. -/
def shouldStop (c : SamplerCfg) (v : ClientSampler) : Bool := v.closed || decide (v.returned = c.max) || v.status.isSome

/-- Change of the phase of a worker (model only, for the threads of sampler.cc:665-702). -/
def setPhase (v : ClientSampler) (i : Nat) (p : SWPhase) : ClientSampler := { v with
  workers := v.workers.modify i fun w => { w with phase := p } }

/-- queue.h:178 `num_waiting_to_pop`: calls that are in `Pop`. -/
def waitingToPop (v : ClientSampler) : Nat := (v.calls.entries.filter fun e =>
  match e.2 with
  | .popping _ _ => true
  | _ => false).length

/-! ### The workers -/

/-- sampler.cc:671-684: an idle worker; `none` if it waits. -/
def take (c : SamplerCfg) (v : ClientSampler) (i : Nat) : Option ClientSampler :=
  if v.shouldStop c then some (v.setPhase i .stopped)
  else if v.requested < c.max then
    let n := min c.perStream (c.max - v.requested)
    let f : Fetch :=
      match c.source with
      | .grpc _ _ _ => .opening
      | .here _ => .checking (deadlineAt v.clock c.timeout) v.clock
    some ({ v with requested := v.requested + n }.setPhase i (.fetch n 0 f))
  else none

/-- sampler.cc:685-701: `FetchSamples` has returned. -/
def reported (v : ClientSampler) (i : Nat) (n got : Int) (status : Option Code) : ClientSampler :=
  let v := { v with requested := v.requested - (n - got) }
  if v.status = none ∧ status ≠ none ∧ status ≠ some .unavailable then
    { v with
      status := status
      queueClosed := true }.setPhase i .stopped
  else v.setPhase i .idle

/-- sampler.cc:241-273: the entries of a response from one on. -/
def entries (v : ClientSampler) (i : Nat) (n got want sampled : Int) (parts : List Entry) : List Entry → ClientSampler
  | [] =>
    if sampled < want then v.setPhase i (.fetch n got (.reading want sampled parts))
    else if parts ≠ [] then v.setPhase i (.report n got (some .internal))
    else v.setPhase i (.fetch n got .asking)
  | e :: rest =>
    if e.last then
      match asSampleGrpc (parts ++ [e]) with
      | .died => { v with dead := true }
      | .err st => { v with abandoned := v.abandoned + (want - sampled) }.setPhase i (.report n got (some st))
      | .ok s => v.setPhase i (.fetch n got (.pushing want sampled s rest))
    else entries v i n got want sampled (parts ++ [e]) rest

/-- sampler.cc:373-385: the items from one on. -/
def items (v : ClientSampler) (i : Nat) (n got : Int) (final : Duration) (base : Int) : List SampledItem → ClientSampler
  | [] => v.setPhase i (.fetch n got (.checking final base))
  | x :: rest =>
    match asSampleLocal x with
    | .died => { v with dead := true }
    | .err st => v.setPhase i (.report n got (some st))
    | .ok s => v.setPhase i (.fetch n got (.pushingHere final base s rest))

/-- queue.h:65-79 `Push` by worker `i`: `none` if it waits, otherwise the answer. -/
def push (c : SamplerCfg) (v : ClientSampler) (i : Nat) (s : Sample) : Option (ClientSampler × Bool) :=
  if v.queueClosed then some (v, false)
  else if v.queue.length < c.cap then
    some ({ v with
      queue := v.queue ++ [s]
      pushed := v.pushed ++ [(i, s)] }, true)
  else none

/-- `kWakeupTimeout` (sampler.cc:325). -/
def wakeup : Int := 3000000000

/-- sampler.cc:341-342: the deadline of the next call of the table. -/
def nextDeadline (now : Int) : Duration → Int
  | none => now + wakeup
  | some final => min final (now + wakeup)

/-- sampler.cc:276-282 and 387-393: the loop is over. -/
def loopDone (v : ClientSampler) (i : Nat) (n got : Int) : ClientSampler :=
  v.setPhase i (.report n got (if got ≠ n then some .internal else none))

/-- A step of worker `i` that waits for nothing outside of the sampler (sampler.cc:195-283, 322-394 and
665-702). -/
def work (c : SamplerCfg) (v : ClientSampler) (i : Nat) : Option ClientSampler :=
  match v.workers[i]? with
  | none => none
  | some w =>
    match w.phase with
    | .idle => take c v i
    | .report n got st => some (v.reported i n got st)
    | .stopped => none
    | .fetch n got f =>
      match f with
      | .opening =>
        if w.closed then some (v.setPhase i (.report n 0 (some .cancelled))) else some (v.setPhase i (.fetch n got .asking))
      | .asking => if got < n then none else some (v.loopDone i n got)
      | .reading _ _ _ => none
      | .pushing want sampled s rest =>
        match push c v i s with
        | none => none
        | some (v, true) => some (entries v i n (got + 1) want (sampled + 1) [] rest)
        | some (v, false) => some ({ v with abandoned := v.abandoned + (want - sampled) }.setPhase i (.report n got (some .cancelled)))
      | .checking final base =>
        if got < n then
          if w.closed then some (v.setPhase i (.report n 0 (some .cancelled)))
          else
            match c.source with
            | .grpc _ _ _ => none
            | .here b => some (v.setPhase i (.fetch n got (.sampling final base (min b (n - got)) (nextDeadline v.clock final))))
        else some (v.loopDone i n got)
      | .sampling _ _ _ _ => none
      | .pushingHere final base s rest =>
        match push c v i s with
        | none => none
        | some (v, true) => some (items v i n (got + 1) final base rest)
        | some (v, false) => some (v.setPhase i (.report n got (some .cancelled)))

/-- sampler.cc:212-224: `Write` of worker `i` returns true (`none`), or false and `Finish` returns `some status`. -/
def write (c : SamplerCfg) (v : ClientSampler) (i : Nat) (result : Option (Option Code)) : Option ClientSampler :=
  match v.workers[i]? with
  | some ⟨_, .fetch n got .asking⟩ =>
    match c.source with
    | .here _ => none
    | .grpc table perRequest flexible =>
      if got < n then
        let want := min perRequest (n - got)
        match result with
        | none => some ({ v with sent := v.sent ++ [clientRequest table want c.timeout flexible] }.setPhase i
            (.fetch n got (.reading want 0 [])))
        | some st => some (v.setPhase i (.report n got st))
      else none
  | _ => none

/-- sampler.cc:229, 241: `Read` of worker `i` returns a response. -/
def response (v : ClientSampler) (i : Nat) (es : List Entry) : Option ClientSampler :=
  match v.workers[i]? with
  | some ⟨_, .fetch n got (.reading want sampled parts)⟩ => some (entries v i n got want sampled parts es)
  | _ => none

/-- sampler.cc:229-240: `Read` of worker `i` returns false and `Finish` a status; `limiter` tells if its message is that of the rate
limiter. -/
def streamEnd (v : ClientSampler) (i : Nat) (st : Option Code) (limiter : Bool) : Option ClientSampler :=
  match v.workers[i]? with
  | some ⟨_, .fetch n got (.reading want sampled _)⟩ =>
    some ({ v with abandoned := v.abandoned + (want - sampled) }.setPhase i (.report n got
      (if st = some Code.deadlineExceeded ∧ limiter = true ∧ v.waitingToPop < 1 then none else st)))
  | _ => none

/-- sampler.cc:350-371: `SampleFlexibleBatch` for worker `i` returns. A timeout is only possible when the deadline has passed
(rate_limiter.cc:131-140). -/
def answer (c : SamplerCfg) (v : ClientSampler) (i : Nat) (r : Res (List SampledItem)) : Option ClientSampler :=
  match v.workers[i]? with
  | some ⟨_, .fetch n got (.sampling final base _ deadline)⟩ =>
    match r with
    | .died => none
    | .ok l => some (items v i n got (deadlineAt v.clock c.timeout) v.clock l)
    | .err st =>
      if st = Code.deadlineExceeded then
        if v.clock < deadline then none
        else if final.all (v.clock < ·) then some (v.setPhase i (.fetch n got (.checking final base)))
        else if v.waitingToPop < 1 then some (v.setPhase i (.fetch n got (.checking (deadlineAt v.clock c.timeout) v.clock)))
        else some (v.setPhase i (.report n got (some .deadlineExceeded)))
      else some (v.setPhase i (.report n got (some st)))
  | _ => none

/-! ### The callers -/

/-- Call `x` returns (sampler.cc:507-568). -/
def ret (v : ClientSampler) (x : Nat) (o : SampleOut) : ClientSampler := { v with
  calls := v.calls.erase x
  log := v.log ++ [o] }

/-- sampler.cc:529-530, 548-549 and 565-566: a sample has been returned completely. -/
def finished (c : SamplerCfg) (v : ClientSampler) : ClientSampler :=
  let v := { v with returned := v.returned + 1 }
  if v.returned = c.max then { v with queueClosed := true } else v

/-- Is a call of `GetNextTimestep` going on? (model only, for the rule of sampler.h:172-173). -/
def inTimestep (v : ClientSampler) : Bool := v.calls.entries.any fun e =>
  match e.2 with
  | .popping k _ => decide (k = .timestep)
  | .failed k => decide (k = .timestep)
  | .holding k _ => decide (k = .timestep)
  | .stepping => true

/-- A call begins: sampler.cc:507-510, 536-539, 553-556 and 644-650 up to `Pop`. `GetNextTimestep` must not be called concurrently with
anything (sampler.h:172-173). -/
def call (v : ClientSampler) (x : Nat) (k : SampleCall) : Option ClientSampler :=
  if v.calls.contains x ∨ v.inTimestep ∨ (k = .timestep ∧ v.calls.size ≠ 0) then none
  else
    some { v with
      calls := v.calls.insert x (if k = .timestep ∧ v.active.any (fun s => !s.isEndOfSample) then .stepping else .popping k v.clock) }

/-- queue.h:157-170 `Pop` for call `x`. -/
def pop (v : ClientSampler) (x : Nat) : Option ClientSampler :=
  match v.calls.get? x with
  | some (.popping k _) =>
    if v.queueClosed then some { v with calls := v.calls.insert x (.failed k) }
    else
      match v.queue with
      | [] => none
      | s :: q =>
        match k with
        | .timestep => some { v with
            queue := q
            active := some s
            calls := v.calls.insert x .stepping }
        | _ => some { v with
            queue := q
            calls := v.calls.insert x (.holding k s) }
  | _ => none

/-- sampler.cc:655-662: the status when `Pop` has returned false. If it is OK the caller goes on with a sample that it does not
have. -/
def popStatus (c : SamplerCfg) (v : ClientSampler) : Option Code :=
  if v.returned = c.max then some .outOfRange
  else if v.closed then some .cancelled
  else v.status

/-- sampler.cc:511-534: the rest of `GetNextTimestep`. -/
def finishTimestep (c : SamplerCfg) (v : ClientSampler) (x : Nat) (s : Sample) : ClientSampler :=
  match s.deliver with
  | .died => { v with dead := true }
  | .err e => v.ret x (.error e)
  | .ok (rows, last, s') =>
    let v := { v with active := some s' }
    match SampleCall.timestep.validate c.spec rows with
    | some e => v.ret x (.error e)
    | none => (if last then v.finished c else v).ret x (.timestep rows last)

/-- sampler.cc:540-550 and 557-567: the rest of `GetNextSample` and `GetNextTrajectory`. -/
def finishSample (c : SamplerCfg) (v : ClientSampler) (x : Nat) (k : SampleCall) (s : Sample) : ClientSampler :=
  match k with
  | .timestep => v
  | .batched =>
    match s.asBatchedTimesteps with
    | .died => { v with dead := true }
    | .err e => v.ret x (.error e)
    | .ok (n, cols) =>
      match SampleCall.batched.validate c.spec cols with
      | some e => v.ret x (.error e)
      | none => (v.finished c).ret x (.batched n cols)
  | .trajectory =>
    match s.asTrajectory with
    | .died => { v with dead := true }
    | .err e => v.ret x (.error e)
    | .ok cols =>
      match SampleCall.trajectory.validate c.spec cols with
      | some e => v.ret x (.error e)
      | none => (v.finished c).ret x (.trajectory cols)

/-- The rest of call `x` after `Pop` (sampler.cc:507-568 and 652-663). -/
def finish (c : SamplerCfg) (v : ClientSampler) (x : Nat) : Option ClientSampler :=
  match v.calls.get? x with
  | some (.failed _) =>
    match v.popStatus c with
    | some e => some (v.ret x (.error e))
    | none => some { v with dead := true }
  | some (.holding k s) => some (v.finishSample c x k s)
  | some .stepping =>
    match v.active with
    | none => some { v with dead := true }
    | some s => some (v.finishTimestep c x s)
  | _ => none

/-! ### Closing -/

/-- sampler.cc:630-634: the first call of `Close`; others return at once. -/
def close (v : ClientSampler) : Option ClientSampler :=
  if v.closed then some v
  else some { v with
    closed := true
    closing := .cancelling 0 }

/-- Has the thread ended? (sampler.cc:641). -/
def SWorker.isStopped (w : SWorker) : Bool :=
  match w.phase with
  | .stopped => true
  | _ => false

/-- sampler.cc:636-641: the next step of `Close`. -/
def closeStep (v : ClientSampler) : Option ClientSampler :=
  match v.closing with
  | .notCalled => none
  | .cancelling i =>
    if i < v.workers.length then
      some { v with
        workers := v.workers.modify i fun w => { w with closed := true }
        closing := .cancelling (i + 1) }
    else some { v with
      queueClosed := true
      closing := .joining }
  | .joining => if v.workers.all SWorker.isStopped then some { v with closing := .done } else none
  | .done => none

/-! ### Schedules -/

/-- What can happen next (sampler.cc:195-283, 322-394, 507-568 and 629-702). -/
inductive Event where
  /-- time passes -/
  | tick (d : Nat)
  /-- a call begins -/
  | call (x : Nat) (k : SampleCall)
  /-- `Pop` returns -/
  | pop (x : Nat)
  /-- a call returns -/
  | finish (x : Nat)
  | close
  | closeStep
  | work (i : Nat)
  | write (i : Nat) (result : Option (Option Code))
  | response (i : Nat) (es : List Entry)
  | streamEnd (i : Nat) (st : Option Code) (limiter : Bool)
  | answer (i : Nat) (r : Res (List SampledItem))

/-- One step; `none` if it is not possible (sampler.cc:195-283, 322-394, 507-568 and 629-702). -/
def step (c : SamplerCfg) (v : ClientSampler) (e : Event) : Option ClientSampler :=
  if v.dead then none
  else
    match e with
    | .tick d => some { v with clock := v.clock + d }
    | .call x k => v.call x k
    | .pop x => v.pop x
    | .finish x => v.finish c x
    | .close => v.close
    | .closeStep => v.closeStep
    | .work i => v.work c i
    | .write i result => v.write c i result
    | .response i es => v.response i es
    | .streamEnd i st limiter => v.streamEnd i st limiter
    | .answer i r => v.answer c i r

end ClientSampler
end Verif
