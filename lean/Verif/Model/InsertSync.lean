import Verif.Model.InsertReq
/-
Model of the insert streams of the synchronous server, reverb_service_impl.cc:150-240, with the tables of the server and any number
of streams. A step is what one handler does between two calls that may block, or one critical section of a table.
-/
namespace Verif
open Table (Op)

/-- Where the handler of a stream is: in `queue.Pop` (169), in `InsertOrAssign` (207; `waiting` if it has been blocked by the rate
limiter), in `Write` (216), or it has returned (reverb_service_impl.cc:150-240). -/
inductive SyncPhase where
  | reading
  | inserting (it : InsertItem) (item : Item) (waiting : Bool)
  | confirming (it : InsertItem)
  | ended (status : Option Code)

/-- The local variables of `InsertStreamInternal` (reverb_service_impl.cc:150-168). -/
structure SyncStream where
  cache : Cache
  phase : SyncPhase

/-- The server. `confirmed` is history: the stream, table and key of each confirmation written
(reverb_service_impl.h:88-125). -/
structure SyncServer where
  tables : AMap String Table
  streams : AMap Nat SyncStream
  dead : Bool
  confirmed : List (Nat × String × Key)

namespace SyncServer

/-- A server without streams (reverb_service_impl.cc:84-118). -/
def init (tables : AMap String Table) : SyncServer := ⟨tables, .empty, false, []⟩

/-- Change of a stream (model only: the locals of one call of `InsertStreamInternal`,
reverb_service_impl.cc:150-240). -/
def setStream (v : SyncServer) (s : Nat) (x : SyncStream) : SyncServer := { v with streams := v.streams.insert s x }

/-- reverb_service_impl.cc:169-206: a request, up to the call of `InsertOrAssign`. `ChunkStore::Insert` never gives back a null
pointer (chunk_store.cc:82-108), so the branch at 173-176 is left out. -/
def take (v : SyncServer) (x : SyncStream) (req : InsertReq) : SyncStream :=
  let cache := saveChunks .sync x.cache req.chunks
  match req.item with
  | none => ⟨cache, x.phase⟩
  | some it =>
    match findChunks cache (getChunkKeys it.traj) with
    | none => ⟨cache, .ended (some .internal)⟩
    | some chunks =>
      if v.tables.contains it.table then ⟨cache, .inserting it (it.toItem chunks) false⟩
      else ⟨cache, .ended (some .notFound)⟩

/-- reverb_service_impl.cc:223-235: only the chunks in `keep` are kept. -/
def release (v : SyncServer) (s : Nat) (x : SyncStream) (it : InsertItem) : SyncServer :=
  match releaseChunks .sync x.cache it.keep with
  | none => { v with dead := true }
  | some cache => v.setStream s ⟨cache, .reading⟩

/-- reverb_service_impl.cc:207-214: the result of `InsertOrAssign`. -/
def inserted (v : SyncServer) (s : Nat) (x : SyncStream) (it : InsertItem) (item : Item) : Res Table.Reply → SyncServer
  | .ok .done => if it.confirm then v.setStream s { x with phase := .confirming it } else v.release s x it
  | .ok .blocked => v.setStream s { x with phase := .inserting it item true }
  | .ok (.samples _) => { v with dead := true }
  | .err c => v.setStream s { x with phase := .ended (some c) }
  | .died => { v with dead := true }

/-- What can happen next (reverb_service_impl.cc:150-240). -/
inductive Event where
  /-- a client opens a stream -/
  | start (s : Nat)
  /-- the handler gets the next request from the queue -/
  | request (s : Nat) (req : InsertReq)
  /-- the client has closed its side -/
  | eof (s : Nat)
  /-- a critical section of `InsertOrAssign` for this stream -/
  | insert (s : Nat) (now : Int) (d : Draw)
  /-- `Write` returns `ok` -/
  | confirm (s : Nat) (ok : Bool)
  /-- a critical section of a table for another call -/
  | table (name : String) (op : Op)

/-- One step; `none` if it is not possible (reverb_service_impl.cc:150-240). -/
def step (v : SyncServer) (e : Event) : Option SyncServer :=
  if v.dead then none
  else
    match e with
    | .start s => if v.streams.contains s then none else some (v.setStream s ⟨.empty, .reading⟩)
    | .request s req =>
      match v.streams.get? s with
      | some ⟨cache, .reading⟩ => some (v.setStream s (v.take ⟨cache, .reading⟩ req))
      | _ => none
    | .eof s =>
      match v.streams.get? s with
      | some ⟨cache, .reading⟩ => some (v.setStream s ⟨cache, .ended none⟩)
      | _ => none
    | .insert s now d =>
      match v.streams.get? s with
      | some ⟨cache, .inserting it item waiting⟩ =>
        match v.tables.get? it.table with
        | none => none
        | some t =>
          let r := t.step (if waiting then .insertResume item now d else .insert item now d)
          some ({ v with tables := v.tables.insert it.table r.1 }.inserted s ⟨cache, .inserting it item waiting⟩ it item r.2)
      | _ => none
    | .confirm s ok =>
      match v.streams.get? s with
      | some ⟨cache, .confirming it⟩ =>
        if ok then some ({ v with confirmed := v.confirmed ++ [(s, it.table, it.key)] }.release s ⟨cache, .confirming it⟩ it)
        else some (v.setStream s ⟨cache, .ended (some .internal)⟩)
      | _ => none
    | .table name op =>
      match v.tables.get? name with
      | none => none
      | some t =>
        let r := t.step op
        some { v with
          tables := v.tables.insert name r.1
          dead := decide (r.2 = .died) }

/-- A schedule (model only: the handlers of reverb_service_impl.cc:150-240 in any order). -/
def run (v : SyncServer) : List Event → Option SyncServer
  | [] => some v
  | e :: es =>
    match v.step e with
    | none => none
    | some v' => v'.run es

end SyncServer
end Verif
