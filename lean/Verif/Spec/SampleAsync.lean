import Verif.Model.SampleAsync
import Verif.Spec.SampleService
import Verif.Proofs.WorkerLive
/-
What is asked of the sample streams of the asynchronous server, from the point of view of clients.
-/
namespace Verif.AsyncSampler
open Worker (Act Req)

/-- The requests that the server has got from a stream. -/
def requests (s : Nat) (evs : List Event) : List SampleReq :=
  evs.filterMap fun e => match e with
    | .read s' req _ => if s' = s then req else none
    | _ => none

/-- The client has cancelled the stream. -/
def Cancelled (s : Nat) (evs : List Event) : Prop := Event.cancel s ∈ evs

/-- Priorities given to the tables by others are admitted by their selectors. -/
def Proper (cfgs : AMap String Config) (evs : List Event) : Prop :=
  ∀ name a, Event.table name a ∈ evs → ∀ c, cfgs.get? name = some c → a.Ok c

/-- The status that a stream has been finished with. -/
def endedWith (v : AsyncSampler) (s : Nat) : Option (Option Code) := (v.streams.get? s).bind SampReactor.finished

/-- What has been written to a stream. -/
def written (v : AsyncSampler) (s : Nat) : List Entry := ((v.streams.get? s).map fun r => r.out.written.flatten).getD []

/-- The samples that have been given to a stream. -/
def got (v : AsyncSampler) (s : Nat) : List (String × Sampled) := ((v.streams.get? s).map SampReactor.got).getD []

/-- The samples of a table among those that a stream has got. -/
def fromTable (name : String) (got : List (String × Sampled)) : List Sampled := (got.filter fun x => x.1 = name).map fun x => x.2

/-- The requests that a table has got. -/
def asked (v : AsyncSampler) (name : String) : List Req := ((v.tables.get? name).map fun t => t.w.asked).getD []

/-- When the stream has a chance to ask a table for samples: when a request is read, a response has been written, or samples of the
table are delivered. -/
def askTime (s : Nat) (name : String) : Event → Option Int
  | .read s' _ now => if s' = s then some now else none
  | .more s' now => if s' = s then some now else none
  | .deliver name' _ now => if name' = name then some now else none
  | _ => none

/-- What a request `q` that the event makes to the table for the stream looks like: it belongs to a request of the stream, asks for no
more samples than that and than the batch size, and has the timeout of the request, counted from the event. -/
def AskNow (pre : List Event) (e : Event) (name : String) (s : Nat) (q : Req) : Prop :=
  ∃ req ∈ requests s (pre ++ [e]), req.valid = true ∧ req.table = name ∧ 1 ≤ q.num ∧ (q.num : Int) ≤ req.num ∧
    (req.flexible ≠ -1 → (q.num : Int) ≤ req.flexible) ∧ ∃ now, askTime s name e = some now ∧ q.deadline = deadlineAt now req.asyncTimeout

/-- A request with a timeout was made to the table, and the worker of the table has looked at the clock when the timeout had passed. -/
def TimedOut (s : Nat) (evs : List Event) : Prop :=
  ∃ q ∈ requests s evs, ∃ ms, q.timeout = some ms ∧ 0 < ms ∧ ∃ e ∈ evs, ∃ start now d, askTime s q.table e = some start ∧
    Event.table q.table (.work now d) ∈ evs ∧ start + ms * 1000000 ≤ now

/-- Why a stream has been finished with an error. -/
def Why (cfgs : AMap String Config) (s : Nat) (evs : List Event) : Code → Prop
  | .invalidArgument => ∃ q ∈ requests s evs, q.valid = false
  | .notFound => ∃ q ∈ requests s evs, cfgs.contains q.table = false
  | .internal => Event.write s false ∈ evs
  | .deadlineExceeded => TimedOut s evs
  | .cancelled => ∃ q ∈ requests s evs, Event.table q.table .close ∈ evs
  | _ => False

end Verif.AsyncSampler
