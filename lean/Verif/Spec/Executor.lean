import Verif.Model.Executor
/-
The words used in C59.
-/
namespace Verif.Executor

/-- The tasks scheduled before `Close` was called. -/
def acceptedTasks : List Act → List Nat
  | [] => []
  | .schedule t :: as => t :: acceptedTasks as
  | .close :: _ => []
  | _ :: as => acceptedTasks as

/-- A call of `Close`. -/
def Act.isClose : Act → Bool
  | .close => true
  | _ => false

/-- `Close` has been called. -/
def closeCalled (as : List Act) : Bool := as.any Act.isClose

/-- The task a worker is running. -/
def Worker.tasks : Worker → List Nat
  | .running t => [t]
  | _ => []

/-- The task the caller of `Close` is running. -/
def Closer.tasks : Closer → List Nat
  | .running t => [t]
  | _ => []

/-- The tasks being run. -/
def running (e : E) : List Nat := e.workers.flatMap Worker.tasks ++ e.closer.tasks

/-- A step of a thread of the executor or of `Close`. -/
def Act.works : Act → Bool
  | .schedule _ => false
  | .close => false
  | _ => true

end Verif.Executor
