import Verif.Model.SampleAsync
/-
Model of the asynchronous server as a whole: insert streams and sample streams share the tables and their workers
(reverb_service_async_impl.cc:96-662).
-/
namespace Verif

/-- `ReverbServiceAsyncImpl`: the tables with their workers, and the reactors of all streams (reverb_service_async_impl.h:40-160). -/
structure AsyncService where
  tables : AMap String AsyncTable
  inserts : AMap Nat InsReactor
  samples : AMap Nat SampReactor
  dead : Bool

namespace AsyncService

/-- A server without streams (reverb_service_async_impl.cc:96-139). -/
def init (tables : AMap String Table) : AsyncService :=
  ⟨(AsyncServer.init tables).tables, .empty, .empty, false⟩

/-- The server as its insert streams see it (model only; reverb_service_async_impl.cc:166-308). -/
def asServer (v : AsyncService) : AsyncServer := ⟨v.tables, v.inserts, v.dead⟩

/-- The server as its sample streams see it (model only; reverb_service_async_impl.cc:438-662). -/
def asSampler (v : AsyncService) : AsyncSampler := ⟨v.tables, v.samples, v.dead⟩

/-- The outcome of a section of an insert stream (model only; reverb_service_async_impl.cc:166-308). -/
def withServer (v : AsyncService) (x : AsyncServer) : AsyncService := { v with
  tables := x.tables
  inserts := x.streams
  dead := x.dead }

/-- The outcome of a section of a sample stream (model only; reverb_service_async_impl.cc:438-662). -/
def withSampler (v : AsyncService) (x : AsyncSampler) : AsyncService := { v with
  tables := x.tables
  samples := x.streams
  dead := x.dead }

/-- What can happen next: a section of an insert stream, a section of a sample stream, a step of the worker of a table or of another
call of the table (`MutatePriorities` and `Reset`, reverb_service_async_impl.cc:404-436), or a thread of the executor begins with a
callback of a table (table.cc:95-107, 216-227). -/
inductive Event where
  | insert (e : AsyncServer.Event)
  | sample (e : AsyncSampler.Event)
  | table (name : String) (a : Worker.Act)
  | deliver (name : String) (i : Nat) (now : Int)

/-- The event of the insert streams is one of a stream (reverb_service_async_impl.cc:166-308). -/
def ofStream : AsyncServer.Event → Bool
  | .table _ _ => false
  | .deliver _ _ => false
  | _ => true

/-- The event of the sample streams is one of a stream (reverb_service_async_impl.cc:438-662). -/
def ofSampleStream : AsyncSampler.Event → Bool
  | .table _ _ => false
  | .deliver _ _ _ => false
  | _ => true

/-- The callback concerns an insert stream (table.cc:216-227) and not a sample request (table.cc:95-107). -/
def isNotify : Worker.Out → Bool
  | .notify _ _ => true
  | .answer _ _ => false

/-- A thread of the executor begins with a callback (table.cc:95-107, 216-227). -/
def deliver (w : Wire) (v : AsyncService) (name : String) (i : Nat) (now : Int) : Option AsyncService :=
  match v.tables.get? name with
  | none => none
  | some t =>
    match t.todo[i]? with
    | none => none
    | some o =>
      if isNotify o then (v.asServer.step (.deliver name i)).map v.withServer
      else (v.asSampler.step w (.deliver name i now)).map v.withSampler

/-- One step; `none` if it is not possible (reverb_service_async_impl.cc:96-662). -/
def step (w : Wire) (v : AsyncService) : Event → Option AsyncService
  | .insert e => if ofStream e then (v.asServer.step e).map v.withServer else none
  | .sample e => if ofSampleStream e then (v.asSampler.step w e).map v.withSampler else none
  | .table name a =>
    if AsyncServer.isInsert a then none else (v.asSampler.step w (.table name a)).map v.withSampler
  | .deliver name i now => v.deliver w name i now

/-- A schedule (model only: an execution of the sections of reverb_service_async_impl.cc:96-662 in any order). -/
def run (w : Wire) (v : AsyncService) : List Event → Option AsyncService
  | [] => some v
  | e :: es =>
    match v.step w e with
    | none => none
    | some v' => v'.run w es

end AsyncService
end Verif
