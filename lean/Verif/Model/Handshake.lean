import Verif.Model.Limiter
/-
Model of how a client in the process of the server gets a pointer to a table: `Client::GetLocalTablePtr` (client.cc:381-413) with
`InitializeConnection` of the synchronous server (reverb_service_impl.cc:429-480) and of the one with callbacks
(reverb_service_async_impl.cc:310-403). Both sides run at the same time; the stream delivers messages in order. A stream is cut if it ends for another reason
than that the handler returns: a broken connection, a cancelled call, or a server that is shut down.
-/
namespace Verif
namespace Handshake

/-- Where the handler is: it has not begun, it waits for the request, it waits for the confirmation, it
has ended (reverb_service_impl.cc:429-480, reverb_service_async_impl.cc:310-403). -/
inductive Server where
  | start
  | first
  | second
  | done
  deriving DecidableEq, Repr

/-- Where the client is: before it writes the request, before it reads the response, before it copies the pointer, before it writes the confirmation, before `Finish`, or it has returned,
with `none` for OK (client.cc:381-413). -/
inductive Client where
  | write
  | read
  | copy
  | confirm
  | finish
  | done (result : Option Code)
  deriving DecidableEq, Repr

/-- The `shared_ptr` on the heap. A table is a number (reverb_service_impl.cc:460,
reverb_service_async_impl.cc:355). -/
inductive Heap where
  | none
  | live (table : Nat)
  | freed
  deriving DecidableEq, Repr

/-- `InitializeConnectionRequest`: reverb_service.proto:60-71. -/
structure Request where
  pid : Nat
  name : String
  transferred : Bool
  deriving DecidableEq, Repr

/-- Client, server and stream. `async` tells which server it is and `near` whether `IsLocalhostOrInProcess(context->peer())`; `tables` are those of the server and `name` is
the one the client asks for. `toServer` has the requests on their way and `toClient` the responses, true if with an address. `out` is what the client has copied. `died` tells that an object was
accessed or freed after it was freed; `finished` has what the server has ended the call with, every time
it did so (client.cc:381-413, reverb_service_impl.cc:429-480, reverb_service_async_impl.cc:310-403). -/
structure State where
  async : Bool
  near : Bool
  clientPid : Nat
  serverPid : Nat
  tables : AMap String Nat
  name : String
  server : Server
  client : Client
  toServer : List Request
  toClient : List Bool
  cut : Bool
  heap : Heap
  out : Option Nat
  died : Bool
  finished : List (Option Code)

/-- A call begins (client.cc:383-385). -/
def init (async near : Bool) (clientPid serverPid : Nat) (tables : AMap String Nat) (name : String) : State :=
  ⟨async, near, clientPid, serverPid, tables, name, .start, .write, [], [], false, .none, none, false, []⟩

/-- What can happen next (client.cc:381-413, reverb_service_impl.cc:429-480,
reverb_service_async_impl.cc:310-403). -/
inductive Event where
  | serverStart
  | serverRead
  | serverReadFails
  | clientWrite
  | clientWriteFails
  | clientRead
  | clientReadFails
  | clientCopy
  | clientConfirm
  | clientFinish
  | cut
  deriving DecidableEq, Repr

/-- reverb_service_impl.cc:461 and reverb_service_async_impl.cc:388-393: the handler ends; what it has allocated is freed. -/
def endCall (s : State) (statuses : List (Option Code)) : State :=
  { s with
    server := .done
    finished := s.finished ++ statuses
    heap := if s.heap = .none then .none else .freed
    died := s.died || decide (s.heap = .freed) }

/-- A response without an address is written and the call ends (reverb_service_impl.cc:442-448, reverb_service_async_impl.cc:334-340, 369-380). Only the server with callbacks
looks at whether this worked. -/
def refuse (s : State) : State :=
  if s.cut then endCall s [if s.async then some .internal else none]
  else endCall { s with toClient := s.toClient ++ [false] } [none]

/-- reverb_service_impl.cc:442-468 and reverb_service_async_impl.cc:334-360: the request. -/
def request (s : State) (r : Request) : State :=
  if r.pid ≠ s.serverPid then refuse s
  else
    match s.tables.get? r.name with
    | none => endCall s [some .notFound]
    | some t =>
      if s.cut then endCall { s with heap := .live t } [some .internal]
      else { s with
        heap := .live t
        toClient := s.toClient ++ [true]
        server := .second }

/-- reverb_service_impl.cc:475-479: the confirmation. The server with callbacks (reverb_service_async_impl.cc:334-366) looks at the pid again, and calls `Finish` twice if the request
is not a confirmation. -/
def confirmation (s : State) (r : Request) : State :=
  if s.async = true ∧ r.pid ≠ s.serverPid then refuse s
  else if r.transferred then endCall s [none]
  else endCall s (if s.async then [some .internal, none] else [some .internal])

/-- The status that `Finish` returns to the client when the server has ended the call. A stream that was
cut before has no status of the server (client.cc:391, 398 and 412). -/
def status (s : State) : Option Code := if s.cut then some .unavailable else (s.finished.head?).getD none

/-- client.cc:391, 398: a failed `Write` or `Read`. -/
def failure (s : State) : Client := .done (match status s with | some c => some c | none => some .internal)

/-- One step; `none` if it is not possible (client.cc:381-413, reverb_service_impl.cc:429-480,
reverb_service_async_impl.cc:310-403). -/
def step (s : State) : Event → Option State
  | .serverStart =>
    -- reverb_service_impl.cc:433-435, reverb_service_async_impl.cc:317-326
    if s.server = .start then some (if s.near then { s with server := .first } else endCall s [none]) else none
  | .serverRead =>
    match s.server, s.toServer with
    | .first, r :: rest => some (request { s with toServer := rest } r)
    | .second, r :: rest => some (confirmation { s with toServer := rest } r)
    | _, _ => none
  | .serverReadFails =>
    -- reverb_service_impl.cc:438-440, 471-473; reverb_service_async_impl.cc:329-332
    if (s.server = .first ∨ s.server = .second) ∧ s.cut = true then some (endCall s [some .internal]) else none
  | .clientWrite =>
    -- client.cc:385-390
    if s.client = .write then some { s with
      toServer := s.toServer ++ [⟨s.clientPid, s.name, false⟩]
      client := .read } else none
  | .clientWriteFails =>
    -- client.cc:390-394
    if s.client = .write ∧ (s.cut = true ∨ s.server = .done) then some { s with client := failure s } else none
  | .clientRead =>
    -- client.cc:397, 403-406
    match s.client, s.toClient with
    | .read, a :: rest => some { s with
        toClient := rest
        client := if a then .copy else .done (some .failedPrecondition) }
    | _, _ => none
  | .clientReadFails =>
    -- client.cc:397-401
    if s.client = .read ∧ (s.cut = true ∨ s.server = .done ∧ s.toClient = []) then some { s with client := failure s } else none
  | .clientCopy =>
    -- client.cc:408
    if s.client = .copy then some { s with
      out := match s.heap with | .live t => some t | _ => none
      died := s.died || (match s.heap with | .live _ => false | _ => true)
      client := .confirm } else none
  | .clientConfirm =>
    -- client.cc:409-410
    if s.client = .confirm then some { s with
      toServer := s.toServer ++ [⟨s.clientPid, s.name, true⟩]
      client := .finish } else none
  | .clientFinish =>
    -- client.cc:412
    if s.client = .finish ∧ (s.cut = true ∨ s.server = .done) then some { s with client := .done (status s) } else none
  | .cut => if s.cut = false ∧ s.server ≠ .done then some { s with cut := true } else none

/-- A schedule (model only: both sides of client.cc:381-413 in any order). -/
def run (s : State) : List Event → Option State
  | [] => some s
  | e :: es =>
    match step s e with
    | none => none
    | some s' => run s' es

/-- Where a sampler gets its items from (client.cc:154-173). -/
inductive Source where
  | direct (table : Option Nat)
  | remote (name : String)
  deriving DecidableEq, Repr

/-- client.cc:154-173 `NewSampler`, once `GetLocalTablePtr` has returned. -/
def source (s : State) : Option Source :=
  match s.client with
  | .done none => some (.direct s.out)
  | .done (some _) => some (.remote s.name)
  | _ => none

end Handshake
end Verif
