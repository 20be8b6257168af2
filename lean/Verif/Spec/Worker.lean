import Verif.Model.Worker
/-
What an observer of a table with a worker sees: the operations the table has executed, and what has been
handed to the callback executor.
-/
namespace Verif.Worker
open Table (Op)

/-- The items of the inserts that the worker has executed, in order. -/
def applied (trace : List Op) : List Item :=
  trace.filterMap fun op => match op with
    | .workerInsert i _ _ => some i
    | _ => none

/-- The answered sample requests, in order. -/
def answers (out : List Out) : List (Req × Status) :=
  out.filterMap fun o => match o with
    | .answer r s => some (r, s)
    | _ => none

/-- The callbacks of inserters that have been called, in order. -/
def callbacks (out : List Out) : List (Nat × Status) :=
  out.filterMap fun o => match o with
    | .notify cb s => some (cb, s)
    | _ => none

/-- A request as it was made, before anything was sampled for it. -/
def Req.bare (r : Req) : Req := { r with samples := [] }

/-- The requests in a queue of the worker; null pointers are left out. -/
def live (l : List (Option Req)) : List Req := l.filterMap id

/-- The samples in a reply. -/
def samplesOf : Res Table.Reply → List Sampled
  | .ok (.samples l) => l
  | _ => []

/-- All samples the table has produced, in order. -/
def drawn (t0 : Table) (trace : List Op) : List Sampled := (t0.replies trace).flatMap samplesOf

/-- The worker waits and nobody is about to wake it. -/
def W.quiet (w : W) : Prop := w.pc = .waiting ∧ w.woken = false ∧ w.signals = 0 ∧ w.dead = false

end Verif.Worker
