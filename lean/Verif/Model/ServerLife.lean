import Verif.Model.Limiter
/-
Model of the life of servers: `PeriodicClosure` (periodic_closure.cc:29-77) and `ServerImpl` (platform/default/server.cc:35-150) with the one signal handler of the process.
-/
namespace Verif

/-- The thread of a `PeriodicClosure`: none, waiting until a time, running the closure (with the time of
the next run), or it has returned (periodic_closure.cc:51-62). -/
inductive PWorker where
  | none
  | sleeping (next : Int)
  | running (next : Int)
  | ended
  deriving DecidableEq, Repr

/-- A run of the closure; no end while it runs (periodic_closure.cc:60). -/
structure PRun where
  start : Int
  finish : Option Int
  deriving DecidableEq, Repr

/-- `PeriodicClosure`. `now` is the clock, `log` has the runs, `answers` what `Start` and `Stop` have
returned; `joining` tells that a `Stop` waits for the thread and `joined` that it has returned
(periodic_closure.h:70-110). -/
structure Periodic where
  period : Int
  stopped : Bool
  worker : PWorker
  now : Int
  log : List PRun
  answers : List (Option Code)
  joining : Bool
  joined : Bool
  deriving DecidableEq, Repr

namespace Periodic

/-- periodic_closure.cc:33-39: `none` if the check of the period fails. -/
def init (period now : Int) : Option Periodic :=
  if period < 0 then none else some ⟨period, false, .none, now, [], [], false, false⟩

/-- What can happen next (periodic_closure.cc:41-77; the clock is explicit). -/
inductive Event where
  | start
  | stop
  /-- the thread has been joined -/
  | join
  /-- the thread wakes up at its time and has not been stopped -/
  | wake
  /-- the thread sees that it has been stopped -/
  | leave
  /-- the closure returns -/
  | finish
  /-- time passes -/
  | pass (by_ : Nat)
  deriving DecidableEq, Repr

/-- One step; `none` if it is not possible. The time between the computation of the next run and the start of the closure (periodic_closure.cc:57-60) is not modelled. -/
def step (p : Periodic) : Event → Option Periodic
  | .start =>
    -- periodic_closure.cc:41-52, 63
    if p.stopped then some { p with answers := p.answers ++ [some .invalidArgument] }
    else if p.worker ≠ .none then some { p with answers := p.answers ++ [some .invalidArgument] }
    else some { p with
      worker := .sleeping (p.now + p.period)
      answers := p.answers ++ [none] }
  | .stop =>
    -- periodic_closure.cc:66-74
    if p.stopped then some { p with answers := p.answers ++ [some .invalidArgument] }
    else some { p with
      stopped := true
      joining := true }
  | .join =>
    -- periodic_closure.cc:75-76
    if p.joining = true ∧ (p.worker = .none ∨ p.worker = .ended) then some { p with
      worker := .none
      joining := false
      joined := true
      answers := p.answers ++ [none] }
    else none
  | .wake =>
    -- periodic_closure.cc:53-60
    match p.worker with
    | .sleeping next =>
      if p.stopped = false ∧ next ≤ p.now then some { p with
        worker := .running (p.now + p.period)
        log := p.log ++ [⟨p.now, none⟩] }
      else none
    | _ => none
  | .leave =>
    -- periodic_closure.cc:53-56
    match p.worker with
    | .sleeping _ => if p.stopped then some { p with worker := .ended } else none
    | _ => none
  | .finish =>
    -- periodic_closure.cc:60-61
    match p.worker with
    | .running next => some { p with
        worker := .sleeping next
        log := p.log.dropLast ++ (p.log.getLast?.map fun r => { r with finish := some p.now }).toList }
    | _ => none
  | .pass d => some { p with now := p.now + d }

/-- A schedule (model only) of the functions of periodic_closure.cc:29-77. -/
def run (p : Periodic) : List Event → Option Periodic
  | [] => some p
  | e :: es =>
    match p.step e with
    | none => none
    | some p' => run p' es

end Periodic

/-- `ServerImpl` once it is initialised (server.cc:54-73): is it running, was it told to stop by a signal, and how often has the service been closed. -/
structure LiveServer where
  running : Bool
  signalled : Bool
  closed : Nat
  deriving DecidableEq, Repr

/-- A call of `Wait`: `running_` was true, it waits for gRPC, or it has returned (server.cc:95-111). -/
inductive WaitPhase where
  | checked
  | waiting
  | returned (signalled : Bool)
  deriving DecidableEq, Repr

/-- The servers of a process, the calls of `Wait` with their servers, whether the handler of SIGINT has been replaced, and `stop_server_fn`, a variable of the process. `interrupted` counts
the signals that the handler got that was there before, `ignored` those that nothing got
(server.cc:35-40, 133-147). -/
structure Process where
  servers : List LiveServer
  waits : List (Nat × WaitPhase)
  handler : Bool
  target : Option Nat
  interrupted : Nat
  ignored : Nat
  deriving DecidableEq, Repr

namespace Process

/-- `n` servers have been started (server.cc:152-160; ports and errors of gRPC are left out). -/
def init (n : Nat) : Process := ⟨List.replicate n ⟨true, false, 0⟩, [], false, none, 0, 0⟩

/-- What can happen next: a call of `Stop`; a call of `Wait`, its further steps; SIGINT; the worker of a
server (server.cc:35-111). -/
inductive Event where
  | stop (server : Nat)
  | wait (server : Nat)
  | register (call : Nat)
  | unblock (call : Nat)
  | sigint
  | tick (server : Nat)
  deriving DecidableEq, Repr

/-- server.cc:81-93 `Stop`, under the mutex. -/
def stopServer (s : LiveServer) : LiveServer :=
  if s.running then ⟨false, s.signalled, s.closed + 1⟩ else s

/-- One step; `none` if it is not possible (server.cc:35-111; what gRPC does in `Shutdown` and `Wait` is
reduced to: `Wait` returns once the server is stopped). -/
def step (p : Process) : Event → Option Process
  | .stop i => if i < p.servers.length then some { p with servers := p.servers.modify i stopServer } else none
  | .wait i =>
    -- server.cc:95-99
    match p.servers[i]? with
    | none => none
    | some s => some { p with waits := p.waits ++ [(i, if s.running then .checked else .returned false)] }
  | .register k =>
    -- server.cc:101-103
    match p.waits[k]? with
    | some (i, .checked) => some { p with
        handler := true
        target := some i
        waits := p.waits.set k (i, .waiting) }
    | _ => none
  | .unblock k =>
    -- server.cc:105-110
    match p.waits[k]? with
    | some (i, .waiting) =>
      match p.servers[i]? with
      | some s =>
        if s.running then none
        else some { p with
          target := none
          waits := p.waits.set k (i, .returned s.signalled) }
      | none => none
    | _ => none
  | .sigint =>
    -- server.cc:35-40, 102, 128
    if p.handler = false then some { p with interrupted := p.interrupted + 1 }
    else
      match p.target with
      | some i => some { p with servers := p.servers.modify i fun s => { s with signalled := true } }
      | none => some { p with ignored := p.ignored + 1 }
  | .tick i =>
    -- server.cc:46-52
    if i < p.servers.length then some { p with servers := p.servers.modify i fun s => if s.signalled then stopServer s else s } else none

/-- A schedule (model only) of the functions of server.cc:35-111. -/
def run (p : Process) : List Event → Option Process
  | [] => some p
  | e :: es =>
    match p.step e with
    | none => none
    | some p' => run p' es

end Process
end Verif
