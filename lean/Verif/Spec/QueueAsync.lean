import Verif.Spec.AsyncService
import Verif.Spec.QueueService
import Verif.Spec.QueueWorker
/-
Words for what becomes of the items that clients send to a queue of the asynchronous server.
-/
namespace Verif.AsyncService

/-- The items for the table that the server has read: their streams and keys, in order. -/
def sent (n : String) (evs : List Event) : List (Nat × Key) :=
  evs.filterMap fun e => match e with
    | .insert (.read s (some ⟨_, some it⟩)) => if it.table = n then some (s, it.key) else none
    | _ => none

/-- How the table is used: its items are not deleted by calls, it is not closed, and items are new when they are sent. -/
structure AsQueue (n : String) (evs : List Event) : Prop where
  deletes : ∀ us ds, .table n (.mutate us ds) ∈ evs → ds = []
  reset : .table n .reset ∉ evs
  close : .table n .close ∉ evs
  new : ∀ s r it, .insert (.read s (some r)) ∈ evs → r.item = some it → it.table = n → it.timesSampled = 0

/-- The insert stream is in order: it goes on, or it has ended with OK and was not cancelled. -/
def InOrder (r : InsReactor) : Prop := r.finished = none ∨ (r.finished = some none ∧ r.cancelled = false)

/-- The history of a table: `accepted` are the items that were given to it (with the stream that sent them), `taken` the samples that its worker took (with the
identity of the request, which is `reqId q` for the sample stream `q`). -/
structure History (n : String) (evs : List Event) (v : AsyncService) (accepted : List (Nat × Key)) (taken : List (Nat × Sampled)) : Prop where
  /-- from each stream, the items come in the order in which they were sent -/
  order : ∀ s, part s accepted <+: part s (sent n evs)
  /-- if the stream is in order, none is missing -/
  all : ∀ s r, v.inserts.get? s = some r → InOrder r → part s accepted = part s (sent n evs)
  /-- confirmed items were accepted -/
  confirmed : ∀ s r, v.inserts.get? s = some r → ∀ k, (n, k) ∈ r.sent → (s, k) ∈ accepted
  /-- each stream got a part of what was taken for it, in order -/
  sub : ∀ q, (takenFrom n (v.got q)).Sublist (part (AsyncSampler.reqId q) taken)
  /-- a stream that goes on and does not wait for samples got all that was taken for it -/
  got : ∀ q r, v.samples.get? q = some r → r.finished = none → r.waiting = false → takenFrom n (v.got q) = part (AsyncSampler.reqId q) taken

end Verif.AsyncService
