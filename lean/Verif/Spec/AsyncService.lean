import Verif.Model.AsyncService
import Verif.Spec.Service
import Verif.Spec.SampleAsync
/-
Words for what the asynchronous server as a whole does.
-/
namespace Verif
namespace AsyncService

/-- The requests that the server has got on an insert stream. -/
def insertRequests (s : Nat) (evs : List Event) : List InsertReq :=
  evs.filterMap fun e => match e with
    | .insert (.read s' (some r)) => if s' = s then some r else none
    | _ => none

/-- The requests that the server has got on a sample stream. -/
def sampleRequests (q : Nat) (evs : List Event) : List SampleReq :=
  evs.filterMap fun e => match e with
    | .sample (.read q' r _) => if q' = q then r else none
    | _ => none

/-- What has been written to a sample stream. -/
def written (v : AsyncService) (q : Nat) : List Entry := v.asSampler.written q

/-- The samples that tables have given for a sample stream, with the names of the tables. -/
def got (v : AsyncService) (q : Nat) : List (String × Sampled) := v.asSampler.got q

/-- Priorities given to the tables are admitted by their selectors. -/
structure Proper (cfgs : AMap String Config) (evs : List Event) : Prop where
  insert : ∀ s, ∀ r ∈ insertRequests s evs, r.Admits cfgs
  mutate : ∀ name us ds, Event.table name (.mutate us ds) ∈ evs → ∀ c, cfgs.get? name = some c → ∀ u ∈ us, c.admits u.2

/-- The contents of chunks are those that clients have sent. -/
abbrev Contents (w : Wire) (evs : List Event) : Prop := ContentsOf w fun s => insertRequests s evs

/-- The item was sent by a client. -/
abbrev Sent (evs : List Event) (name : String) (key : Key) (traj : FlatTraj) (chunks : List ChunkData) : Prop :=
  SentOn (fun s => insertRequests s evs) name key traj chunks

end AsyncService
end Verif
