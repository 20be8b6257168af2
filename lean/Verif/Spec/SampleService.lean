import Verif.Model.SampleSync
import Verif.Spec.InsertService
import Verif.Spec.Sample
import Verif.Spec.Choice
/-
What is asked of sample streams, from the point of view of clients.
-/
namespace Verif
open Table (Op)

/-- The samples `got`, with the names of their tables, answer the requests one after the other: each with samples of its table, at most
as many as it asks for, and exactly as many if `full`. -/
def Served (full : Bool) : List SampleReq → List (String × Sampled) → Prop
  | [], got => got = []
  | r :: rs, got => ∃ a b, got = a ++ b ∧ a.length ≤ r.num.toNat ∧ (full = true → a.length = r.num.toNat) ∧ (∀ x ∈ a, x.1 = r.table) ∧
      Served full rs b

/-- What a sampler in the same process would make of the samples. -/
def localSamples (w : Wire) (got : List (String × Sampled)) : List (Res Sample) := got.map fun x => asSampleLocal (x.2.sent w)

/-- What the client makes of the entries that it has got. -/
def clientSamples (es : List Entry) : List (Res Sample) := (collectAll es).2.map asSampleGrpc

/-- No part of a sample is left over. -/
def NothingLeft (es : List Entry) : Prop := (collectAll es).1 = []

/-- The notifications that the samples of a table have caused. -/
def samplesFrom (name : String) (got : List (String × Sampled)) : List ExtEvent :=
  (got.filter fun x => x.1 = name).map fun x => .sample x.2.item

/-- The items that are inserted by an operation are well formed. (Items are checked before they are queued: table.cc:461, 548.) -/
def OpValid (op : Op) : Prop := ∀ i now, Op.item op = some (i, now) → Table.itemValid i = true

namespace SyncSampler

/-- The requests that the server has got from a stream. -/
def requests (s : Nat) (evs : List Event) : List SampleReq :=
  evs.filterMap fun e => match e with
    | .request s' r => if s' = s then some r else none
    | _ => none

/-- Items inserted by others are well formed, and priorities are admitted by the tables. -/
def Proper (cfgs : AMap String Config) (evs : List Event) : Prop :=
  ∀ name op, Event.table name op ∈ evs → OpValid op ∧ ∀ c, cfgs.get? name = some c → c.Admissible op

/-- The client has cancelled the stream. -/
def Cancelled (s : Nat) (evs : List Event) : Prop := Event.cancel s ∈ evs

/-- The status that a stream has ended with. -/
def endedWith (v : SyncSampler) (s : Nat) : Option (Option Code) :=
  match v.streams.get? s with
  | some ⟨_, _, .ended st, _, _⟩ => some st
  | _ => none

/-- The server waits for a request of the stream. -/
def Reads (v : SyncSampler) (s : Nat) : Prop := ∃ x, v.streams.get? s = some x ∧ x.phase = .reading

/-- The stream waits for the rate limiter. -/
def Waits (v : SyncSampler) (s : Nat) : Prop := ∃ x req d c dl, v.streams.get? s = some x ∧ x.phase = .waiting req d c dl

/-- What has been written to a stream. -/
def written (v : SyncSampler) (s : Nat) : List Entry := ((v.streams.get? s).map SampStream.written).getD []

/-- The samples that have been got for a stream. -/
def got (v : SyncSampler) (s : Nat) : List (String × Sampled) := ((v.streams.get? s).map SampStream.got).getD []

/-- When the last call of the table for the stream began: the first attempt since the last request or response. -/
def callStep (s : Nat) (t : Option Int) : Event → Option Int
  | .sample s' now _ => if s' = s then some (t.getD now) else t
  | .write s' _ => if s' = s then none else t
  | .request s' _ => if s' = s then none else t
  | _ => t

/-- When the last call of the table for the stream began. -/
def callStart (s : Nat) (evs : List Event) : Option Int := evs.foldl (callStep s) none

end SyncSampler
end Verif
