import Verif.Model.Executor
/-
reverb/cc/task_worker.h and thread_stats.{h,cc}: `TaskWorker`, a thread pool with statistics and a checker for deadlocks. The queue and the
threads are those of `TaskExecutor` (task_worker.h:191-245 is task_executor.cc:34-53 with other calls of the tasks).
-/
namespace Verif.TaskWorker

/-- thread_stats.h:25-44 `ThreadStats`. `info` is `current_task_info`, the number of the task; `started` is `current_task_started_at`, in
nanoseconds. `current_task_created_at`, which is only printed, is left out, and the counters, which are `int`, are unbounded. -/
structure Stats where
  current : Int
  started : Int
  info : Option Nat
  processed : Nat
  deriving DecidableEq, Repr

/-- thread_stats.h:32-43: the initial values. -/
def Stats.init : Stats := ⟨-1, 0, none, 0⟩

/-- Where a thread is in the loop of task_worker.h:216-245. -/
inductive Stage where
  /-- not between `Pop` and the end of the loop -/
  | out
  /-- `Pop` has returned a task (220) -/
  | popped (t : Nat)
  /-- the statistics tell of the task (231-236) -/
  | starting (t : Nat)
  /-- the callback is running (238-239) -/
  | running (t : Nat)
  /-- the callback has returned (239) -/
  | ended (t : Nat)
  deriving DecidableEq, Repr

/-- A call of a callback (task_worker.h:208-211 and 238-239): by a thread, or by `Close` (`none`); the task, whether the status is OK (otherwise
it is `Cancelled`), and `enough_queue_slots`. -/
structure Call where
  thread : Option Nat
  task : Nat
  ok : Bool
  room : Bool
  deriving DecidableEq, Repr

/-- `TaskWorker` (task_worker.h:86-154). -/
structure W where
  /-- `queue_`, `threads_`, and how far `Close` is -/
  pool : Executor.E
  /-- `max_queue_size_to_warn_` -/
  max : Nat
  stage : List Stage
  /-- `thread_stats_` -/
  stats : List Stats
  /-- the statistics that the deadlock checker has read, if it is running (255-273) -/
  checker : Option (List Stats)
  /-- undefined behaviour -/
  dead : Bool
  /-- history: the calls of callbacks -/
  log : List Call
  /-- history: what `Schedule` returned, with the length of the queue -/
  replies : List (Nat × Bool)
  /-- history: the warnings of the deadlock checker, with the statistics and the time -/
  warnings : List (List Stats × Int)

/-- task_worker.h:168-184: the constructor. The limit is a `size_t`: a negative argument is taken modulo 2^64. -/
def init (n : Nat) (max : Int) : W :=
  ⟨Executor.init n, (max % 18446744073709551616).toNat, List.replicate n .out, List.replicate n .init, none, false, [], [], []⟩

/-- task_worker.h:247-253 `QueueIsNotAlmostFull`. A `size_t` is never negative. -/
def W.roomLeft (w : W) : Bool := decide (w.pool.queue.size ≤ w.max)

/-- thread_stats.cc:23-47 `LastThreadId`, from thread `i` on: `last` is `last_task_started` (`none` is `InfinitePast`), `index` the result so
far. -/
def lastThread (i : Nat) (last : Option Int) (index : Int) : List Stats → Int
  | [] => index
  | s :: ss =>
    if s.current < s.processed ∨ s.current = -1 then -1
    else if last.all (· < s.started) then lastThread (i + 1) (some s.started) i ss
    else lastThread (i + 1) last index ss

/-- task_worker.h:117: `kDeadlockCheckerTimeToWarn`, in nanoseconds. -/
def timeToWarn : Int := 60000000000

/-- task_worker.h:274-290: the rest of `RunDeadlockChecker` after the statistics have been read: `none` is undefined behaviour (279, an index
beyond the end), otherwise whether it warns. -/
def judge (snap : List Stats) (now : Int) : Option Bool :=
  let id := lastThread 0 none 0 snap
  if id = -1 then some false
  else
    match snap[id.toNat]? with
    | none => none
    | some s => some (decide (timeToWarn ≤ now - s.started))

/-- What can happen (task_worker.h:186-290). -/
inductive Act where
  /-- 191-198 `Schedule`. Simplified: the size of the queue is read at once after `Push`. -/
  | schedule (t : Nat)
  /-- `Pop` of thread `i` returns (220) -/
  | pop (i : Nat)
  /-- thread `i` writes the statistics (230-236) -/
  | begin_ (i : Nat) (now : Int)
  /-- thread `i` calls the callback (238) -/
  | call (i : Nat)
  /-- the callback returns (239) -/
  | ret (i : Nat)
  /-- thread `i` counts the task (240-243) -/
  | count (i : Nat)
  /-- `Close` is called: `SetLastItemPushed` (204). Simplified: the flag that keeps the checker from running again (205) is set at once. -/
  | close
  /-- `Stop` of the checker has returned; `Pop` in `Close` returns and the callback is called (208-211) -/
  | closePop
  /-- the callback called by `Close` returns (211) -/
  | closeRet
  /-- all threads are joined (213) -/
  | join
  /-- the deadlock checker runs (267) -/
  | check
  /-- it reads the statistics of the next thread (259-262) -/
  | read
  /-- it has read all (274-290) -/
  | judge (now : Int)

/-- One step; `none` if it is not possible (task_worker.h:186-290). -/
def step (w : W) : Act → Option W
  | .schedule t =>
    if w.dead then none
    else (Executor.step w.pool (.schedule t)).map fun p =>
      let w := { w with pool := p }
      { w with replies := w.replies ++ [(p.queue.size, w.roomLeft)] }
  | .pop i =>
    if w.dead then none
    else (Executor.step w.pool (.pop i)).map fun p => { w with
      pool := p
      stage := w.stage.set i (match p.workers[i]? with
        | some (.running t) => .popped t
        | _ => .out) }
  | .begin_ i now =>
    match w.dead, w.stage[i]?, w.stats[i]? with
    | false, some (.popped t), some s => some { w with
        stage := w.stage.set i (.starting t)
        stats := w.stats.set i { s with
          current := s.current + 1
          started := now
          info := some t } }
    | _, _, _ => none
  | .call i =>
    match w.dead, w.stage[i]? with
    | false, some (.starting t) => some { w with
        stage := w.stage.set i (.running t)
        log := w.log ++ [⟨some i, t, true, w.roomLeft⟩] }
    | _, _ => none
  | .ret i =>
    match w.dead, w.stage[i]? with
    | false, some (.running t) => some { w with stage := w.stage.set i (.ended t) }
    | _, _ => none
  | .count i =>
    match w.dead, w.stage[i]?, w.stats[i]? with
    | false, some (.ended _), some s => (Executor.step w.pool (.done i)).map fun p => { w with
        pool := p
        stage := w.stage.set i .out
        stats := w.stats.set i { s with processed := s.processed + 1 } }
    | _, _, _ => none
  | .close => if w.dead then none else (Executor.step w.pool .close).map fun p => { w with pool := p }
  | .closePop =>
    if w.dead ∨ w.checker.isSome then none
    else (Executor.step w.pool .closePop).map fun p => { w with
      pool := p
      log := w.log ++ (match p.closer with
        | .running t => [⟨none, t, false, false⟩]
        | _ => []) }
  | .closeRet => if w.dead then none else (Executor.step w.pool .closeDone).map fun p => { w with pool := p }
  | .join => if w.dead then none else (Executor.step w.pool .join).map fun p => { w with pool := p }
  | .check => if w.dead ∨ w.checker.isSome ∨ w.pool.closer ≠ .open_ then none else some { w with checker := some [] }
  | .read =>
    match w.dead, w.checker with
    | false, some got =>
      match w.stats[got.length]? with
      | some s => some { w with checker := some (got ++ [s]) }
      | none => none
    | _, _ => none
  | .judge now =>
    match w.dead, w.checker with
    | false, some got =>
      if got.length < w.stats.length then none
      else
        match TaskWorker.judge got now with
        | none => some { w with dead := true }
        | some b => some { w with
            checker := none
            warnings := if b then w.warnings ++ [(got, now)] else w.warnings }
    | _, _ => none

/-- A schedule of the threads (model only: the threads of task_worker.h:186-290 in any order). -/
def run (w : W) : List Act → Option W
  | [] => some w
  | a :: as =>
    match step w a with
    | none => none
    | some w' => run w' as

end Verif.TaskWorker
