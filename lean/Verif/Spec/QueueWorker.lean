import Verif.Spec.Worker
/-
Words for what becomes of the items of a queue whose table has a worker.
-/
namespace Verif.Worker

/-- The requests that the worker has answered, those it is about to answer with an error, and those it works for: in this order it has taken samples for them. -/
def W.served (w : W) : List Req := (answers w.out).map Prod.fst ++ w.terminate ++ live w.sampling

/-- The samples that the worker has taken, with the identity of the request. -/
def taken (w : W) : List (Nat × Sampled) := w.served.flatMap fun r => r.samples.map (r.id, ·)

/-- The items that wait for the worker. -/
def W.queued (w : W) : List Item := w.inserts ++ w.pendingInserts

/-- How the table is used: nothing deletes items or closes the table. -/
def Act.AsQueue : Act → Prop
  | .mutate _ ds => ds = []
  | .reset => False
  | .close => False
  | _ => True

end Verif.Worker
