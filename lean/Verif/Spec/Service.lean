import Verif.Model.Service
import Verif.Spec.InsertService
import Verif.Spec.SampleService
/-
Words for what the server as a whole does: where samples come from.
-/
namespace Verif

/-- The contents of chunks are those that clients have sent, if the server has got the requests `ins s` on its insert stream `s`. (This is what
clients rely on when they make up keys of 64 bits: two chunks with one key are the same chunk. See `Service.contents_exist`.) -/
def ContentsOf (w : Wire) (ins : Nat → List InsertReq) : Prop := ∀ s, ∀ r ∈ ins s, ∀ ch ∈ r.chunks, w.content ch.key = ch

/-- The item was sent by a client: some request on an insert stream has it, for the table `name`, with the key and the trajectory; and its chunks
were sent on the same stream. -/
structure SentOn (ins : Nat → List InsertReq) (name : String) (key : Key) (traj : FlatTraj) (chunks : List ChunkData) : Prop where
  mk ::
  sent : ∃ s, ∃ r ∈ ins s, ∃ it, r.item = some it ∧ it.table = name ∧ it.key = key ∧ it.traj = traj ∧
    ∀ ch ∈ chunks, ∃ r' ∈ ins s, ch ∈ r'.chunks
  all : chunks.map ChunkData.key = getChunkKeys traj

namespace Service

/-- The requests that the server has got on an insert stream. -/
def insertRequests (s : Nat) (evs : List Event) : List InsertReq :=
  SyncServer.requests s (evs.filterMap fun e => match e with
    | .insert e => some e
    | _ => none)

/-- The requests that the server has got on a sample stream. -/
def sampleRequests (q : Nat) (evs : List Event) : List SampleReq :=
  SyncSampler.requests q (evs.filterMap fun e => match e with
    | .sample e => some e
    | _ => none)

/-- What has been written to a sample stream. -/
def written (v : Service) (q : Nat) : List Entry := v.asSampler.written q

/-- The samples that tables have given for a sample stream, with the names of the tables. -/
def got (v : Service) (q : Nat) : List (String × Sampled) := v.asSampler.got q

/-- The contents of chunks are those that clients have sent. -/
abbrev Contents (w : Wire) (evs : List Event) : Prop := ContentsOf w fun s => insertRequests s evs

/-- The item was sent by a client. -/
abbrev Sent (evs : List Event) (name : String) (key : Key) (traj : FlatTraj) (chunks : List ChunkData) : Prop :=
  SentOn (fun s => insertRequests s evs) name key traj chunks

end Service
end Verif
