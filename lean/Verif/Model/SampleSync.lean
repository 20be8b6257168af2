import Verif.Model.SampleReq
/-
Model of the sample streams of the synchronous server, reverb_service_impl.cc:276-386, with the tables of the server and any number of
streams. A step is what one handler does between two calls that may block, or one critical section of a table. The tables of this
server have no worker.
-/
namespace Verif
open Table (Op)

/-- Where the handler of a stream is: in `Read` (281, 383); at the condition of the inner loop (308), with the default batch size and
the number of samples so far; in `WaitWithDeadline` below `SampleFlexibleBatch` (316) with the deadline; in `Write` (363) with the
responses that are still to be written, each of which has one entry; or it has returned
(reverb_service_impl.cc:276-386). -/
inductive SampPhase where
  | reading
  | ready (req : SampleReq) (default count : Int)
  | waiting (req : SampleReq) (default count : Int) (deadline : Duration)
  | writing (req : SampleReq) (default count : Int) (todo : List Entry)
  | ended (status : Option Code)

/-- The local variables of `SampleStreamInternal`; `timeout` is set by the first request. `written` is what has been written, and
`got` is history: the samples got from tables, with the names of the tables
(reverb_service_impl.cc:276-289). -/
structure SampStream where
  timeout : Option Duration
  cancelled : Bool
  phase : SampPhase
  written : List Entry
  got : List (String × Sampled)

/-- The server (reverb_service_impl.h:88-125). -/
structure SyncSampler where
  tables : AMap String Table
  streams : AMap Nat SampStream
  dead : Bool

namespace SyncSampler

/-- A server without streams (reverb_service_impl.cc:84-118). -/
def init (tables : AMap String Table) : SyncSampler := ⟨tables, .empty, false⟩

/-- Change of a stream (model only: the locals of one call of `SampleStreamInternal`,
reverb_service_impl.cc:276-386). -/
def setStream (v : SyncSampler) (s : Nat) (x : SampStream) : SyncSampler := { v with streams := v.streams.insert s x }

/-- reverb_service_impl.cc:284-305: a request has been read. -/
def take (v : SyncSampler) (x : SampStream) (req : SampleReq) : SampStream :=
  let x := { x with timeout := some (x.timeout.getD req.syncTimeout) }
  if req.valid then
    match v.tables.get? req.table with
    | none => { x with phase := .ended (some .notFound) }
    | some t => { x with phase := .ready req t.defaultBatch 0 }
  else { x with phase := .ended (some .invalidArgument) }

/-- reverb_service_impl.cc:310-314 `max_batch_size`. -/
def batchSize (req : SampleReq) (default count : Int) : Nat := (min (req.batch default) (req.num - count)).toNat

/-- What of the responses is left to write after the last one has been written
(reverb_service_impl.cc:320-379). -/
def afterWrite (req : SampleReq) (default count : Int) : List Entry → SampPhase
  | [] => .ready req default count
  | e :: es => .writing req default count (e :: es)

/-- reverb_service_impl.cc:315-379: the result of a critical section of `SampleFlexibleBatch`. After a first one that has to wait the
deadline is set (rate_limiter.cc:131). -/
def sampled (w : Wire) (v : SyncSampler) (s : Nat) (x : SampStream) (req : SampleReq) (default count : Int) (deadline : Duration) :
    Res Table.Reply → SyncSampler
  | .ok (.samples l) => v.setStream s { x with
      got := x.got ++ l.map (req.table, ·)
      phase := afterWrite req default (count + l.length) (l.flatMap fun y => splitSync w.size w.max (y.sent w)) }
  | .ok .blocked => v.setStream s { x with phase := .waiting req default count deadline }
  | .ok .done => { v with dead := true }
  | .err c => v.setStream s { x with phase := .ended (some c) }
  | .died => { v with dead := true }

/-- What can happen next (reverb_service_impl.cc:276-386). -/
inductive Event where
  /-- a client opens a stream -/
  | start (s : Nat)
  /-- `Read` returns a request -/
  | request (s : Nat) (req : SampleReq)
  /-- `Read` returns false: the client has closed its side, or the stream is broken -/
  | eof (s : Nat)
  /-- the stream is cancelled -/
  | cancel (s : Nat)
  /-- the inner loop is left -/
  | next (s : Nat)
  /-- a critical section of `SampleFlexibleBatch` for this stream -/
  | sample (s : Nat) (now : Int) (ds : Nat → Draw)
  /-- `WaitWithDeadline` returns because of the deadline -/
  | timeout (s : Nat) (now : Int)
  /-- `Write` returns `ok` -/
  | write (s : Nat) (ok : Bool)
  /-- a critical section of a table for another call -/
  | table (name : String) (op : Op)

/-- The deadline has passed (rate_limiter.cc:126-140). -/
def passed (now : Int) : Duration → Bool
  | none => false
  | some d => d ≤ now

/-- A critical section of the table of a request (reverb_service_impl.cc:315-319, table.cc:671-754). -/
def section_ (w : Wire) (v : SyncSampler) (s : Nat) (x : SampStream) (req : SampleReq) (default count : Int) (deadline : Duration)
    (op : Op) : Option SyncSampler :=
  match v.tables.get? req.table with
  | none => none
  | some t =>
    let r := t.step op
    some (sampled w { v with tables := v.tables.insert req.table r.1 } s x req default count deadline r.2)

/-- One step; `none` if it is not possible (reverb_service_impl.cc:276-386). -/
def step (w : Wire) (v : SyncSampler) (e : Event) : Option SyncSampler :=
  if v.dead then none
  else
    match e with
    | .start s => if v.streams.contains s then none else some (v.setStream s ⟨none, false, .reading, [], []⟩)
    | .request s req =>
      match v.streams.get? s with
      | some ⟨tm, cn, .reading, wr, got⟩ => some (v.setStream s (v.take ⟨tm, cn, .reading, wr, got⟩ req))
      | _ => none
    | .eof s =>
      match v.streams.get? s with
      | some ⟨tm, cn, .reading, wr, got⟩ =>
        some (v.setStream s ⟨tm, cn, .ended (if tm.isNone then some .internal else none), wr, got⟩)
      | _ => none
    | .cancel s =>
      match v.streams.get? s with
      | some x => some (v.setStream s { x with cancelled := true })
      | none => none
    | .next s =>
      match v.streams.get? s with
      | some ⟨tm, cn, .ready req _ count, wr, got⟩ =>
        if cn ∨ count = req.num then some (v.setStream s ⟨tm, cn, .reading, wr, got⟩) else none
      | _ => none
    | .sample s now ds =>
      match v.streams.get? s with
      | some ⟨tm, cn, .ready req default count, wr, got⟩ =>
        if cn ∨ count = req.num then none
        else section_ w v s ⟨tm, cn, .ready req default count, wr, got⟩ req default count (deadlineAt now (tm.getD none))
          (.sample (batchSize req default count) ds)
      | some ⟨tm, cn, .waiting req default count dl, wr, got⟩ =>
        section_ w v s ⟨tm, cn, .waiting req default count dl, wr, got⟩ req default count dl
          (.sampleResume (batchSize req default count) ds)
      | _ => none
    | .timeout s now =>
      match v.streams.get? s with
      | some ⟨tm, cn, .waiting _ _ _ dl, wr, got⟩ =>
        if passed now dl then some (v.setStream s ⟨tm, cn, .ended (some .deadlineExceeded), wr, got⟩) else none
      | _ => none
    | .write s ok =>
      match v.streams.get? s with
      | some ⟨tm, cn, .writing req default count (e :: es), wr, got⟩ =>
        if ok then some (v.setStream s ⟨tm, cn, afterWrite req default count es, wr ++ [e], got⟩)
        else some (v.setStream s ⟨tm, cn, .ended (some .internal), wr, got⟩)
      | _ => none
    | .table name op =>
      match v.tables.get? name with
      | none => none
      | some t =>
        let r := t.step op
        some { v with
          tables := v.tables.insert name r.1
          dead := decide (r.2 = .died) }

/-- A schedule (model only: the handlers of reverb_service_impl.cc:276-386 in any order). -/
def run (w : Wire) (v : SyncSampler) : List Event → Option SyncSampler
  | [] => some v
  | e :: es =>
    match step w v e with
    | none => none
    | some v' => run w v' es

end SyncSampler
end Verif
