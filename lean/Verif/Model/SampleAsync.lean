import Verif.Model.SampleReq
import Verif.Model.InsertAsync
/-
Model of the sample streams of the asynchronous server: reverb_service_async_impl.cc:438-662 and reverb_server_table_reactor.h, with
the tables of the server, their workers, and any number of streams. A step is one section of a reactor that is executed with its
`mu_`, called by gRPC or by the callback executor, or one step of the worker of a table.
-/
namespace Verif

/-- reverb_service_async_impl.cc:478 `kMaxQueuedResponses`. -/
def maxQueuedResponses : Nat := 3

/-- task_worker.h:44-60 `SampleTaskInfo`. -/
structure SampTask where
  timeout : Duration
  table : String
  batch : Int
  fetched : Int
  requested : Int

/-- task_worker.h:56-59 `NextSampleSize`. -/
def SampTask.next (t : SampTask) : Int := min t.batch (t.requested - t.fetched)

/-- `ReverbServerTableReactor` with the members of `WorkerlessSampleReactor`. `out` are the responses. `finished` is `is_finished_`
with the status given to `Finish`. `reading` and `writing` say that a read or write has been started and its completion has not been
reported. `waiting` is `waiting_for_enqueued_sample_`. `task` is `none` until the first good request, when `task_info_` is not
initialised; it is not used then (writes and callbacks come only after a request). `resume`: the callback has left its section and is
about to call `MaybeStartRead` (514). `after`: how many calls of `OnWriteDone` are between the section of the base class and that of
`MaybeStartSampling` (530-534). `gone`: the reactor has been deleted
(reverb_server_table_reactor.h:92-117, reverb_service_async_impl.cc:643-658). -/
structure SampReactor where
  out : Reactor
  stillReading : Bool
  finished : Option (Option Code)
  cancelled : Bool
  reading : Bool
  writing : Bool
  task : Option SampTask
  waiting : Bool
  resume : Bool
  after : Nat
  gone : Bool
  /-- history: the samples given to `ProcessSample`, with the names of the tables -/
  got : List (String × Sampled)

/-- A call of `EnqueSampleRequest` (reverb_service_async_impl.cc:589-590, table.cc:642-669). -/
structure Ask where
  table : String
  num : Nat
  timeout : Duration

namespace SampReactor

/-- `StartRead`. gRPC allows one read at a time; a second one is taken as the death of the process (gRPC;
called in reverb_server_table_reactor.h:211). -/
def startRead (r : SampReactor) : Res SampReactor := if r.reading then .died else .ok { r with reading := true }

/-- reverb_server_table_reactor.h:122-132 `MaybeSendNextResponse`. gRPC allows one write at a time. -/
def maybeSend (r : SampReactor) : Res SampReactor :=
  if r.out.queue = [] ∨ r.finished.isSome then .ok r
  else if r.writing then .died
  else .ok { r with
    writing := true
    out := r.out.sendNext }

/-- reverb_server_table_reactor.h:215-229 `SetReactorAsFinished`. -/
def setFinished (r : SampReactor) (status : Option Code) : Res SampReactor :=
  if r.finished.isSome ∨ (r.out.queue ≠ [] ∧ status = none) then .died
  else .ok { r with
    out := { r.out with queue := [] }
    finished := some status }

/-- reverb_server_table_reactor.h:206-213 `MaybeStartRead`. -/
def maybeStartRead (r : SampReactor) : Res SampReactor :=
  if r.stillReading ∧ ¬ r.cancelled ∧ r.finished = none then r.startRead else .ok r

/-- reverb_server_table_reactor.h:140-154: no more requests. -/
def readEnd (r : SampReactor) : Res SampReactor :=
  let r := { r with stillReading := false }
  if r.out.queue = [] ∧ r.finished = none then r.setFinished none else .ok r

/-- reverb_server_table_reactor.h:160-187 `OnWriteDone` of the base class. -/
def onWrite (r : SampReactor) (ok : Bool) : Res SampReactor :=
  let r := { r with
    writing := false
    after := r.after + 1 }
  if r.finished.isSome then .ok r
  else if !ok then r.setFinished (some .internal)
  else
    let r := { r with out := { r.out with queue := r.out.queue.tail } }
    if !r.stillReading ∧ r.out.queue = [] then r.setFinished none
    else r.maybeSend

/-- reverb_server_table_reactor.h:199-204 `OnCancel`. -/
def onCancel (r : SampReactor) : SampReactor := { r with
  stillReading := false
  cancelled := true }

/-- reverb_service_async_impl.cc:574-591 `MaybeStartSampling`, with the call of `EnqueSampleRequest`. -/
def maybeSample (r : SampReactor) : SampReactor × Option Ask :=
  match r.task with
  | none => (r, none)
  | some t =>
    if t.next = 0 ∨ r.waiting ∨ maxQueuedResponses ≤ r.out.queue.length then (r, none)
    else ({ r with waiting := true }, some ⟨t.table, t.next.toNat, t.timeout⟩)

/-- reverb_service_async_impl.cc:536-571 `ProcessIncomingRequest` up to `MaybeStartSampling`; `default` is `DefaultFlexibleBatchSize`
of the table, `none` if there is no such table. In the code a request for an unknown table also changes the timeout and the table of
`task_info_`, of which no use is made then: the previous request has been completed and no other is read. -/
def process (r : SampReactor) (req : SampleReq) (default : Option Int) : SampReactor ⊕ Code :=
  if req.valid then
    match default with
    | none => .inr .notFound
    | some d => .inl { r with task := some ⟨req.asyncTimeout, req.table, req.batch d, 0, req.num⟩ }
  else .inr .invalidArgument

/-- reverb_service_async_impl.cc:500-505: the samples are put into responses and the first one is sent. -/
def deliverSamples (w : Wire) (r : SampReactor) (samples : List Sampled) : Res SampReactor :=
  let already := !r.out.queue.isEmpty
  let r := { r with out := samples.foldl (fun o s => o.processSample w.bytes w.max already (s.sent w)) r.out }
  if already then .ok r else r.maybeSend

/-- reverb_service_async_impl.cc:499-512: the samples of a request are there; whether more are to be asked for is told by
`maybeSample`, otherwise the callback goes on to `MaybeStartRead`. -/
def onSamples (w : Wire) (r : SampReactor) (samples : List Sampled) : Res (SampReactor × Option Ask) :=
  match r.task with
  | none => .died
  | some t =>
    let t := { t with fetched := t.fetched + samples.length }
    match deliverSamples w { r with
        task := some t
        got := r.got ++ samples.map (t.table, ·) } samples with
    | .ok r => if t.next ≠ 0 then .ok r.maybeSample else .ok ({ r with resume := true }, none)
    | .err c => .err c
    | .died => .died

/-- reverb_service_async_impl.cc:489-512: the callback. -/
def onAnswer (w : Wire) (r : SampReactor) (samples : List Sampled) (status : Worker.Status) : Res (SampReactor × Option Ask) :=
  let r := { r with waiting := false }
  match status with
  | some e =>
    if r.finished.isSome then .ok (r, none)
    else
      match r.setFinished (some e) with
      | .ok r => .ok (r, none)
      | .err c => .err c
      | .died => .died
  | none => r.onSamples w samples

/-- The constructor, which starts to read (reverb_service_async_impl.cc:485-518). -/
def make : SampReactor := ⟨⟨[], [], 0⟩, true, none, false, true, false, none, false, false, 0, false, []⟩

end SampReactor

/-- A table with its worker and the callbacks that have been handed to the executor and have not begun to run. The executor has several
threads (reverb_service_async_impl.cc:51, 128-133), so any of them may be next. The callbacks that are handed over together run one
after the other on one thread; here they are independent. The calls of insert streams (`calling`) are not looked at here. -/
abbrev SampTable := AsyncTable

/-- The server (reverb_service_async_impl.h:40-160). -/
structure AsyncSampler where
  tables : AMap String SampTable
  streams : AMap Nat SampReactor
  dead : Bool

namespace AsyncSampler

/-- A server without streams (reverb_service_async_impl.cc:96-139). -/
def init (tables : AMap String Table) : AsyncSampler :=
  ⟨⟨tables.entries.map fun e => (e.1, ⟨Worker.init e.2, [], []⟩), by simpa [Function.comp_def] using tables.nodup⟩, .empty, false⟩

/-- The identity that the requests of a stream have in the tables. The other numbers are for other
callers (model only: stands for the pointer `sampling_done_` of reverb_service_async_impl.cc:589). -/
def reqId (s : Nat) : Nat := 2 * s

/-- The outcome of a section of a reactor (model only: the reactor after a section of
reverb_service_async_impl.cc:438-662; a failed `REVERB_CHECK` ends the process). -/
def put (v : AsyncSampler) (s : Nat) : Res SampReactor → AsyncSampler
  | .ok r => { v with streams := v.streams.insert s r }
  | _ => { v with dead := true }

/-- `EnqueSampleRequest` (table.cc:642-669) at time `now`, called by a reactor. -/
def ask (v : AsyncSampler) (s : Nat) (now : Int) (a : Ask) : AsyncSampler :=
  match v.tables.get? a.table with
  | none => { v with dead := true }
  | some t => { v with
    tables := v.tables.insert a.table { t with w := Worker.enqueueSample t.w (reqId s) a.num (deadlineAt now a.timeout) } }

/-- The outcome of a section that may end with a sample request (reverb_service_async_impl.cc:569, 509
and 533). -/
def putAsk (v : AsyncSampler) (s : Nat) (now : Int) : SampReactor × Option Ask → AsyncSampler
  | (r, none) => v.put s (.ok r)
  | (r, some a) => (v.put s (.ok r)).ask s now a

/-- The outcome of a section of the callback (reverb_service_async_impl.cc:489-512). -/
def putRes (v : AsyncSampler) (s : Nat) (now : Int) : Res (SampReactor × Option Ask) → AsyncSampler
  | .ok x => v.putAsk s now x
  | _ => { v with dead := true }

/-- reverb_server_table_reactor.h:134-158 `OnReadDone`; `none` if there is no request. -/
def onRead (v : AsyncSampler) (s : Nat) (r : SampReactor) (req : Option SampleReq) (now : Int) : AsyncSampler :=
  let r := { r with reading := false }
  match req with
  | none => v.put s r.readEnd
  | some q =>
    if r.finished.isSome then v.put s r.readEnd
    else
      match r.process q ((v.tables.get? q.table).map fun t => t.w.table.defaultBatch) with
      | .inr c => v.put s (r.setFinished (some c))
      | .inl r => v.putAsk s now r.maybeSample

/-- What can happen next (reverb_server_table_reactor.h:134-204, reverb_service_async_impl.cc:485-534,
table.cc:95-107). -/
inductive Event where
  /-- a client opens a stream -/
  | start (s : Nat)
  /-- a read is done, with a request or not, at time `now` -/
  | read (s : Nat) (req : Option SampleReq) (now : Int)
  /-- a write is done: the section of the base class -/
  | write (s : Nat) (ok : Bool)
  /-- a write is done: the section of the sample reactor -/
  | more (s : Nat) (now : Int)
  /-- the callback calls `MaybeStartRead` -/
  | next (s : Nat)
  /-- the stream is cancelled by the client (or the connection is lost) -/
  | cancel (s : Nat)
  /-- gRPC has no more to do for a finished stream: `OnDone`, and the destructor comes to its end -/
  | done (s : Nat)
  /-- a step of the worker of a table or of another call of the table -/
  | table (name : String) (a : Worker.Act)
  /-- a thread of the executor runs a callback of a table -/
  | deliver (name : String) (i : Nat) (now : Int)

/-- A request with the identity of a stream (model only, see `reqId`; reverb_service_async_impl.cc:589).
-/
def isOwn : Worker.Act → Bool
  | .request id _ _ => id % 2 = 0
  | _ => false

/-- table.cc:95-107: an answer is given to the callback of the stream, if the weak pointer to it can be locked. The destructor of the
reactor waits until no thread has locked it (reverb_service_async_impl.cc:520-528), so that locking and the section of the callback can
be taken as one step. -/
def deliver (w : Wire) (v : AsyncSampler) (now : Int) : Worker.Out → AsyncSampler
  | .notify _ _ => v
  | .answer q st =>
    if q.id % 2 = 0 then
      match v.streams.get? (q.id / 2) with
      | none => v
      | some r => if r.gone then v else v.putRes (q.id / 2) now (r.onAnswer w q.samples st)
    else v

/-- One step; `none` if it is not possible (model only: dispatches to the sections named in `Event`,
reverb_server_table_reactor.h:134-204, reverb_service_async_impl.cc:485-591). -/
def step (w : Wire) (v : AsyncSampler) (e : Event) : Option AsyncSampler :=
  if v.dead then none
  else
    match e with
    | .start s => if v.streams.contains s then none else some { v with streams := v.streams.insert s .make }
    | .read s req now =>
      match v.streams.get? s with
      | none => none
      | some r => if r.reading then some (v.onRead s r req now) else none
    | .write s ok =>
      match v.streams.get? s with
      | none => none
      | some r => if r.writing then some (v.put s (r.onWrite ok)) else none
    | .more s now =>
      match v.streams.get? s with
      | none => none
      | some r => if r.after = 0 then none else some (v.putAsk s now { r with after := r.after - 1 }.maybeSample)
    | .next s =>
      match v.streams.get? s with
      | none => none
      | some r => if r.resume then some (v.put s { r with resume := false }.maybeStartRead) else none
    | .cancel s =>
      match v.streams.get? s with
      | none => none
      | some r => if r.gone then none else some (v.put s (.ok r.onCancel))
    | .done s =>
      match v.streams.get? s with
      | none => none
      | some r =>
        if r.finished.isSome ∧ ¬ r.reading ∧ ¬ r.writing ∧ r.after = 0 ∧ ¬ r.resume ∧ ¬ r.gone then
          some (v.put s (.ok { r with gone := true }))
        else none
    | .table name a =>
      match v.tables.get? name with
      | none => none
      | some t =>
        if isOwn a then none
        else
          match Worker.step t.w a with
          | none => none
          | some w => some { v with
            tables := v.tables.insert name ⟨w, t.todo ++ w.out.drop t.w.out.length, t.calling⟩
            dead := w.dead }
    | .deliver name i now =>
      match v.tables.get? name with
      | none => none
      | some t =>
        match t.todo[i]? with
        | none => none
        | some o => some (deliver w { v with tables := v.tables.insert name { t with todo := t.todo.eraseIdx i } } now o)

/-- A schedule (model only: an execution of the sections of reverb_service_async_impl.cc:485-591 in any
order). -/
def run (w : Wire) (v : AsyncSampler) : List Event → Option AsyncSampler
  | [] => some v
  | e :: es =>
    match step w v e with
    | none => none
    | some v' => run w v' es

end AsyncSampler
end Verif
