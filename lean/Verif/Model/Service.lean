import Verif.Model.InsertSync
import Verif.Model.SampleSync
/-
Model of the synchronous server as a whole, reverb_service_impl.cc: insert streams, sample streams and the calls that are answered at
once share the tables. A step is one of a handler (see `Model/InsertSync.lean` and `Model/SampleSync.lean`) or one such call.
`Checkpoint` is modelled in `Model/CkptFiles.lean`; `ServerInfo`, `DebugString` and `InitializeConnection` do not change anything
and are left out here.
-/
namespace Verif
open Table (Op)

/-- The server: `tables_`, the handlers of the streams, if the process has died, and history: what has
been confirmed (reverb_service_impl.h:43-125). -/
structure Service where
  tables : AMap String Table
  inserts : AMap Nat SyncStream
  samples : AMap Nat SampStream
  dead : Bool
  confirmed : List (Nat × String × Key)

namespace Service

/-- reverb_service_impl.cc:115-117: a server that has loaded no checkpoint. -/
def init (tables : AMap String Table) : Service := ⟨tables, .empty, .empty, false, []⟩

/-- What the insert streams see of the server (model only, see Model/InsertSync.lean for
reverb_service_impl.cc:150-240). -/
def asServer (v : Service) : SyncServer := ⟨v.tables, v.inserts, v.dead, v.confirmed⟩

/-- What the sample streams see of the server (model only, see Model/SampleSync.lean for
reverb_service_impl.cc:276-386). -/
def asSampler (v : Service) : SyncSampler := ⟨v.tables, v.samples, v.dead⟩

/-- Calls that are answered at once (reverb_service_impl.cc:242-267, 394-398). -/
inductive Unary where
  /-- reverb_service_impl.cc:242-254 `MutatePriorities` -/
  | mutate (table : String) (updates : List (Key × Pri)) (deletes : List Key)
  /-- reverb_service_impl.cc:256-267 `Reset` -/
  | reset (table : String)
  /-- reverb_service_impl.cc:394-398: the part of `Close` for one table -/
  | close (table : String)

/-- The table that is meant (reverb_service_impl.cc:245, 259). -/
def Unary.table : Unary → String
  | .mutate t _ _ => t
  | .reset t => t
  | .close t => t

/-- What is called of the table (reverb_service_impl.cc:242-267, 394-398). -/
def Unary.op : Unary → Op
  | .mutate _ us ds => .mutate us ds
  | .reset _ => .reset
  | .close _ => .close

/-- The status that is sent: `none` is OK (grpc_util.h:41-46 `ToGrpcStatus`, without the message). -/
def statusOf : Res Table.Reply → Option Code
  | .err c => some c
  | _ => none

/-- reverb_service_impl.cc:242-267, 388-398: such a call, and the status. `TableByName` and `TableNotFound` are those of 388-392 and
52-55. -/
def unary (v : Service) (u : Unary) : Service × Option Code :=
  match v.tables.get? u.table with
  | none => (v, some .notFound)
  | some t =>
    let r := t.step u.op
    ({ v with
      tables := v.tables.insert u.table r.1
      dead := decide (r.2 = .died) }, statusOf r.2)

/-- What can happen next: a step of an insert stream, one of a sample stream, or one of the other calls
(reverb_service_impl.cc:150-398). -/
inductive Event where
  | insert (e : SyncServer.Event)
  | sample (e : SyncSampler.Event)
  | unary (u : Unary)

/-- The event of the insert streams is one of a stream (reverb_service_impl.cc:150-240). -/
def ofStream : SyncServer.Event → Bool
  | .table _ _ => false
  | _ => true

/-- The event of the sample streams is one of a stream (reverb_service_impl.cc:276-386). -/
def ofSampleStream : SyncSampler.Event → Bool
  | .table _ _ => false
  | _ => true

/-- One step; `none` if it is not possible (reverb_service_impl.cc:150-398). -/
def step (w : Wire) (v : Service) : Event → Option Service
  | .insert e =>
    if ofStream e then
      match v.asServer.step e with
      | none => none
      | some x => some { v with
          tables := x.tables
          inserts := x.streams
          dead := x.dead
          confirmed := x.confirmed }
    else none
  | .sample e =>
    if ofSampleStream e then
      match v.asSampler.step w e with
      | none => none
      | some x => some { v with
          tables := x.tables
          samples := x.streams
          dead := x.dead }
    else none
  | .unary u => if v.dead then none else some (v.unary u).1

/-- A schedule (model only) of the handlers of reverb_service_impl.cc:150-398. -/
def run (w : Wire) (v : Service) : List Event → Option Service
  | [] => some v
  | e :: es =>
    match v.step w e with
    | none => none
    | some v' => v'.run w es

end Service
end Verif
