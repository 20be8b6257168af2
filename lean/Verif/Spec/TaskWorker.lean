import Verif.Model.TaskWorker
/-
The words used in C120.
-/
namespace Verif.TaskWorker

/-- The tasks scheduled before `Close` was called. -/
def accepted : List Act → List Nat
  | [] => []
  | .schedule t :: as => t :: accepted as
  | .close :: _ => []
  | _ :: as => accepted as

/-- The tasks whose callbacks have been called. -/
def called (w : W) : List Nat := w.log.map Call.task

/-- How many callbacks thread `i` has called. -/
def callsOf (w : W) (i : Nat) : Nat := w.log.countP fun c => decide (c.thread = some i)

/-- Thread `i` is working on task `t`: from the time it tells of it in the statistics to the time it counts it as processed. -/
def WorksOn (w : W) (i t : Nat) : Prop := w.stage[i]? = some (.starting t) ∨ w.stage[i]? = some (.running t) ∨ w.stage[i]? = some (.ended t)

/-- The statistics of a thread tell that it is busy (thread_stats.h:30-32). -/
def Stats.busy (s : Stats) : Prop := s.current = s.processed

/-- How often thread `i` has begun with a task. -/
def begins (i : Nat) (as : List Act) : Nat := as.countP fun
  | .begin_ j _ => i == j
  | _ => false

/-- When thread `i` last began with a task; 0 if it never has (thread_stats.h:37). -/
def begunAt (i : Nat) : List Act → Int
  | as => as.foldl (fun t a => match a with
    | .begin_ j now => if i = j then now else t
    | _ => t) 0

/-- The tasks that were scheduled and that no thread has taken. -/
def pending (as : List Act) (w : W) : Nat := (accepted as).length - w.pool.started.length

/-- A callback is being run, by a thread or by `Close`. -/
def InCallback (w : W) : Prop := (∃ (i : Nat) (t : Nat), w.stage[i]? = some (.running t)) ∨ ∃ t, w.pool.closer = .running t

/-- Does this step call `Schedule`, `Close` or start the deadlock checker? -/
def Act.outside : Act → Bool
  | .schedule _ => true
  | .close => true
  | .check => true
  | _ => false

/-- No thread begins or ends a task in this step, and the deadlock checker does not begin or end a round. -/
def Act.stuck : Act → Bool
  | .begin_ _ _ => false
  | .count _ => false
  | .check => false
  | .judge _ => false
  | _ => true

end Verif.TaskWorker
