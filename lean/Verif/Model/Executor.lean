import Verif.Model.Queues
/-
reverb/cc/support/task_executor.cc: a thread pool over an `UnboundedQueue`.
-/
namespace Verif.Executor

/-- A worker thread (task_executor.cc:48-53 `RunWorker`). -/
inductive Worker where
  /-- about to call `Pop`, or waiting in it -/
  | idle
  | running (t : Nat)
  | exited
  deriving DecidableEq, Repr

/-- The thread that calls `Close` (task_executor.cc:38-46). -/
inductive Closer where
  /-- `Close` has not been called -/
  | open_
  /-- about to call `Pop`, or waiting in it -/
  | draining
  | running (t : Nat)
  /-- in `threads_.clear()` -/
  | joining
  /-- `Close` has returned -/
  | closed
  deriving DecidableEq, Repr

/-- A `TaskExecutor`. Tasks are numbers (task_executor.h:29-50). -/
structure E where
  queue : UQueue.S Nat
  workers : List Worker
  closer : Closer
  /-- tasks started, in order -/
  started : List Nat
  /-- tasks finished -/
  finished : List Nat

/-- task_executor.cc:20-28, with `n` threads. -/
def init (n : Nat) : E := ⟨UQueue.init, List.replicate n .idle, .open_, [], []⟩

/-- What can happen (task_executor.cc:30-53). -/
inductive Act where
  /-- task_executor.cc:34-36 `Schedule` -/
  | schedule (t : Nat)
  /-- `Pop` of worker `i` returns (50) -/
  | pop (i : Nat)
  /-- the task of worker `i` ends (51) -/
  | done (i : Nat)
  /-- `Close` is called: `SetLastItemPushed` (41). The destructor may call it again later. -/
  | close
  /-- `Pop` in `Close` returns (42) -/
  | closePop
  /-- the task that `Close` has run ends (43) -/
  | closeDone
  /-- all threads are joined (45) -/
  | join

/-- One step; `none` if it is not possible (task_executor.cc:30-53). -/
def step (e : E) : Act → Option E
  | .schedule t => some { e with queue := (UQueue.push e.queue t).1 }
  | .pop i =>
    match e.workers[i]?, UQueue.pop e.queue with
    | some .idle, some (q, some (some t)) => some { e with
        queue := q
        workers := e.workers.set i (.running t)
        started := e.started ++ [t] }
    | some .idle, some (q, none) => some { e with
        queue := q
        workers := e.workers.set i .exited }
    | _, _ => none
  | .done i =>
    match e.workers[i]? with
    | some (.running t) => some { e with
        workers := e.workers.set i .idle
        finished := e.finished ++ [t] }
    | _ => none
  | .close =>
    if e.closer = .open_ ∨ e.closer = .closed then some { e with
      queue := UQueue.setLast e.queue
      closer := .draining }
    else none
  | .closePop =>
    match e.closer, UQueue.pop e.queue with
    | .draining, some (q, some (some t)) => some { e with
        queue := q
        closer := .running t
        started := e.started ++ [t] }
    | .draining, some (q, none) => some { e with
        queue := q
        closer := .joining }
    | _, _ => none
  | .closeDone =>
    match e.closer with
    | .running t => some { e with
        closer := .draining
        finished := e.finished ++ [t] }
    | _ => none
  | .join =>
    if e.closer = .joining ∧ ∀ w ∈ e.workers, w = .exited then some { e with closer := .closed } else none

/-- A schedule of the threads (model only: the threads of task_executor.cc:30-53 in any order). -/
def run (e : E) : List Act → Option E
  | [] => some e
  | a :: as =>
    match step e a with
    | none => none
    | some e' => run e' as

end Verif.Executor
