import Verif.Model.InsertReq
/-
Model of the insert streams of the asynchronous server: reverb_service_async_impl.cc:166-308 and reverb_server_table_reactor.h, with
the tables of the server, their workers, and any number of streams. A step is one call of a reactor by gRPC or by the callback
executor (all of which hold the `mu_` of the reactor), or one step of the worker of a table.
-/
namespace Verif

/-- `ReverbServerTableReactor` with the members of `WorkerlessInsertReactor`. `finished` is `is_finished_` with the status given to
`Finish`. `reading` and `writing` say that a read or write has been started and its completion has not been reported. `gone`: the
reactor has been deleted. In the responses there are only keys; the names of the tables are kept here to
speak about them (reverb_server_table_reactor.h:92-117, reverb_service_async_impl.cc:283-304). -/
structure InsReactor where
  cache : Cache
  responses : List (List (String × Key))
  stillReading : Bool
  finished : Option (Option Code)
  cancelled : Bool
  reading : Bool
  writing : Bool
  gone : Bool
  /-- history: what has been given to `StartWrite` -/
  sent : List (String × Key)

namespace InsReactor

/-- `StartRead`. gRPC allows one read at a time; a second one is taken as the death of the process (gRPC;
called in reverb_server_table_reactor.h:211, reverb_service_async_impl.cc:201 and 225). -/
def startRead (r : InsReactor) : Res InsReactor := if r.reading then .died else .ok { r with reading := true }

/-- reverb_server_table_reactor.h:122-132 `MaybeSendNextResponse`. gRPC allows one write at a time. -/
def maybeSend (r : InsReactor) : Res InsReactor :=
  match r.responses with
  | [] => .ok r
  | front :: _ =>
    if r.finished.isSome then .ok r
    else if r.writing then .died
    else .ok { r with
      writing := true
      sent := r.sent ++ front }

/-- reverb_server_table_reactor.h:215-229 `SetReactorAsFinished`. -/
def setFinished (r : InsReactor) (status : Option Code) : Res InsReactor :=
  if r.finished.isSome ∨ (r.responses ≠ [] ∧ status = none) then .died
  else .ok { r with
    responses := []
    finished := some status }

/-- reverb_server_table_reactor.h:206-213 `MaybeStartRead`. -/
def maybeStartRead (r : InsReactor) : Res InsReactor :=
  if r.stillReading ∧ ¬ r.cancelled ∧ r.finished = none then r.startRead else .ok r

/-- reverb_server_table_reactor.h:140-154: no more requests. -/
def readEnd (r : InsReactor) : Res InsReactor :=
  let r := { r with stillReading := false }
  if r.responses = [] ∧ r.finished = none then r.setFinished none else .ok r

/-- reverb_server_table_reactor.h:160-187 `OnWriteDone`. -/
def onWrite (r : InsReactor) (ok : Bool) : Res InsReactor :=
  let r := { r with writing := false }
  if r.finished.isSome then .ok r
  else if !ok then r.setFinished (some .internal)
  else
    let r := { r with responses := r.responses.tail }
    if !r.stillReading ∧ r.responses = [] then r.setFinished none
    else r.maybeSend

/-- reverb_server_table_reactor.h:199-204 `OnCancel`. -/
def onCancel (r : InsReactor) : InsReactor := { r with
  stillReading := false
  cancelled := true }

/-- reverb_service_async_impl.cc:178-189: the callback given to the tables. -/
def onContinue (r : InsReactor) : Option Code → Res InsReactor
  | some e => if r.finished.isSome then .ok r else r.setFinished (some e)
  | none => r.maybeStartRead

/-- The last response is extended (reverb_service_async_impl.cc:233). -/
def addLast (x : String × Key) : List (List (String × Key)) → List (List (String × Key))
  | [] => []
  | [a] => [a ++ [x]]
  | a :: l => a :: addLast x l

/-- reverb_service_async_impl.cc:227-237: a confirmation. -/
def addConfirmation (r : InsReactor) (x : String × Key) : Res InsReactor :=
  let r := { r with responses := if r.responses.length < 2 then r.responses ++ [[x]] else addLast x r.responses }
  if r.responses.length = 1 then r.maybeSend else .ok r

/-- reverb_service_async_impl.cc:222-237: after the item has been given to the table. -/
def accepted (r : InsReactor) (canInsert : Bool) (it : InsertItem) : Res InsReactor :=
  match if canInsert then r.startRead else .ok r with
  | .ok r => if it.confirm then r.addConfirmation (it.table, it.key) else .ok r
  | .err c => .err c
  | .died => .died

/-- The constructor, which starts to read (reverb_service_async_impl.cc:175-191). -/
def make : InsReactor := ⟨.empty, [], true, none, false, true, false, false, []⟩

end InsReactor

/-- A table with its worker, the callbacks that have been handed to the executor and have not begun to run, and those for which a
thread has locked the weak pointer (table.cc:221) and has not begun the call (224). The executor has several threads
(reverb_service_async_impl.cc:51, 128-133), so any of them may be next. The callbacks that are handed over together run one after the
other on one thread; here they are independent. -/
structure AsyncTable where
  w : Worker.W
  todo : List Worker.Out
  calling : List (Nat × Worker.Status)

/-- The server (reverb_service_async_impl.h:40-160). -/
structure AsyncServer where
  tables : AMap String AsyncTable
  streams : AMap Nat InsReactor
  dead : Bool

namespace AsyncServer

/-- A server without streams (reverb_service_async_impl.cc:96-139). -/
def init (tables : AMap String Table) : AsyncServer :=
  ⟨⟨tables.entries.map fun e => (e.1, ⟨Worker.init e.2, [], []⟩), by simpa [Function.comp_def] using tables.nodup⟩, .empty, false⟩

/-- The outcome of a call of a reactor (model only: the reactor after a section of
reverb_service_async_impl.cc:166-308; a failed `REVERB_CHECK` ends the process). -/
def put (v : AsyncServer) (s : Nat) : Res InsReactor → AsyncServer
  | .ok r => { v with streams := v.streams.insert s r }
  | _ => { v with dead := true }

/-- table.cc:562-571: the answer `can_insert_more` of `InsertOrAssignAsync`. -/
def canInsertMore (w : Worker.W) : Bool := w.pendingInserts.length + 1 < w.maxEnqueued

/-- reverb_service_async_impl.cc:209-238: the item goes to the table. An invalid item is refused by `InsertOrAssignAsync`
(table.cc:547-549). -/
def giveItem (v : AsyncServer) (s : Nat) (r : InsReactor) (it : InsertItem) (chunks : List ChunkData) : AsyncServer :=
  match v.tables.get? it.table with
  | none => v.put s (r.setFinished (some .notFound))
  | some t =>
    if Table.itemValid (it.toItem chunks) then
      { v with tables := v.tables.insert it.table { t with w := Worker.enqueueInsert t.w (it.toItem chunks) s } }.put s
        (r.accepted (canInsertMore t.w) it)
    else v.put s (r.setFinished (some .invalidArgument))

/-- reverb_service_async_impl.cc:193-239 `ProcessIncomingRequest`. -/
def process (v : AsyncServer) (s : Nat) (r : InsReactor) (req : InsertReq) : AsyncServer :=
  if req.chunks = [] ∧ req.item = none then { v with dead := true }
  else
    let r := { r with cache := saveChunks .async r.cache req.chunks }
    match req.item with
    | none => v.put s r.startRead
    | some it =>
      match findChunks r.cache (getChunkKeys it.traj) with
      | none => v.put s (r.setFinished (some .internal))
      | some chunks =>
        match releaseChunks .async r.cache it.keep with
        | none => { v with dead := true }
        | some cache => v.giveItem s { r with cache := cache } it chunks

/-- reverb_server_table_reactor.h:134-158 `OnReadDone`; `none` if there is no request. -/
def onRead (v : AsyncServer) (s : Nat) (r : InsReactor) (req : Option InsertReq) : AsyncServer :=
  let r := { r with reading := false }
  match req with
  | none => v.put s r.readEnd
  | some q => if r.finished.isSome then v.put s r.readEnd else v.process s r q

/-- What can happen next (reverb_server_table_reactor.h:134-204, reverb_service_async_impl.cc:166-191,
table.cc:216-227). -/
inductive Event where
  /-- a client opens a stream -/
  | start (s : Nat)
  /-- a read is done, with a request or not -/
  | read (s : Nat) (req : Option InsertReq)
  /-- a write is done -/
  | write (s : Nat) (ok : Bool)
  /-- the stream is cancelled by the client (or the connection is lost) -/
  | cancel (s : Nat)
  /-- gRPC has no more to do for a finished stream: `OnDone` -/
  | done (s : Nat)
  /-- a step of the worker of a table or of another call of the table -/
  | table (name : String) (a : Worker.Act)
  /-- a thread of the executor begins with a callback of a table: it locks the weak pointer -/
  | deliver (name : String) (i : Nat)
  /-- the thread makes the call -/
  | call (name : String) (i : Nat)

/-- Only reactors call `InsertOrAssignAsync` (reverb_service_async_impl.cc:218). -/
def isInsert : Worker.Act → Bool
  | .insert _ _ => true
  | _ => false

/-- There is a reactor for the stream, which has not been deleted
(reverb_server_table_reactor.h:189-197). -/
def exists? (v : AsyncServer) (s : Nat) : Bool :=
  match v.streams.get? s with
  | none => false
  | some r => !r.gone

/-- table.cc:218-226: the weak pointer to the callback of a stream is locked. That fails if the reactor, which owns the callback, has
been deleted. An answer to a sample request concerns no insert stream. -/
def lock (v : AsyncServer) (name : String) (t : AsyncTable) : Worker.Out → AsyncServer
  | .answer _ _ => { v with tables := v.tables.insert name t }
  | .notify s st => { v with
    tables := v.tables.insert name { t with calling := if v.exists? s then t.calling ++ [(s, st)] else t.calling } }

/-- reverb_service_async_impl.cc:178-189: the callback is called. It keeps a plain pointer to the reactor, so if the reactor has been
deleted since the weak pointer was locked, memory that has been freed is used; that is taken as the death of the process. -/
def callBack (v : AsyncServer) (s : Nat) (st : Worker.Status) : AsyncServer :=
  match v.streams.get? s with
  | none => { v with dead := true }
  | some r => if r.gone then { v with dead := true } else v.put s (r.onContinue st)

/-- One step; `none` if it is not possible (model only: dispatches to the sections named in `Event`,
reverb_server_table_reactor.h:134-204, reverb_service_async_impl.cc:166-308). -/
def step (v : AsyncServer) (e : Event) : Option AsyncServer :=
  if v.dead then none
  else
    match e with
    | .start s => if v.streams.contains s then none else some { v with streams := v.streams.insert s .make }
    | .read s req =>
      match v.streams.get? s with
      | none => none
      | some r => if r.reading then some (v.onRead s r req) else none
    | .write s ok =>
      match v.streams.get? s with
      | none => none
      | some r => if r.writing then some (v.put s (r.onWrite ok)) else none
    | .cancel s =>
      match v.streams.get? s with
      | none => none
      | some r => if r.gone then none else some (v.put s (.ok r.onCancel))
    | .done s =>
      match v.streams.get? s with
      | none => none
      | some r => if r.finished.isSome ∧ ¬ r.reading ∧ ¬ r.writing ∧ ¬ r.gone then some (v.put s (.ok { r with gone := true })) else none
    | .table name a =>
      match v.tables.get? name with
      | none => none
      | some t =>
        if isInsert a then none
        else
          match Worker.step t.w a with
          | none => none
          | some w => some { v with
            tables := v.tables.insert name ⟨w, t.todo ++ w.out.drop t.w.out.length, t.calling⟩
            dead := w.dead }
    | .deliver name i =>
      match v.tables.get? name with
      | none => none
      | some t =>
        match t.todo[i]? with
        | none => none
        | some o => some (v.lock name { t with todo := t.todo.eraseIdx i } o)
    | .call name i =>
      match v.tables.get? name with
      | none => none
      | some t =>
        match t.calling[i]? with
        | none => none
        | some (s, st) => some ({ v with tables := v.tables.insert name { t with calling := t.calling.eraseIdx i } }.callBack s st)

/-- A schedule (model only: an execution of the sections of reverb_service_async_impl.cc:166-308 in any
order). -/
def run (v : AsyncServer) : List Event → Option AsyncServer
  | [] => some v
  | e :: es =>
    match v.step e with
    | none => none
    | some v' => v'.run es

end AsyncServer
end Verif
