import Verif.Spec.Service
import Verif.Spec.Choice
/-
Words for what a server asks of one of its tables.
-/
namespace Verif
open Table (Op)
namespace Service

/-- The calls of `MutatePriorities`, `Reset` and `Close` for the table, as the table gets them. -/
def calls (n : String) (evs : List Event) : List Op :=
  evs.filterMap fun e => match e with
    | .unary u => if u.table = n then some u.op else none
    | _ => none

/-- The critical section belongs to such a call. -/
def isCall : Op → Bool
  | .mutate _ _ => true
  | .reset => true
  | .close => true
  | _ => false

/-- The item in the table is the one that was sent, and its chunks are the ones that it refers to, as they were sent on the same stream. -/
structure MadeOf (reqs : List InsertReq) (it : InsertItem) (i : Item) : Prop where
  mk ::
  made : ∃ chunks, i = it.toItem chunks ∧ chunks.map ChunkData.key = getChunkKeys it.traj ∧ ∀ ch ∈ chunks, ∃ r ∈ reqs, ch ∈ r.chunks

/-- The critical sections `ops` are due to the requests for the table `n` among `evs`: the calls are all there, in order; every item was sent
in a request for this table, with chunks of the same stream; inserts that wait have well-formed items (others are refused); samples were asked for in a request for this table. -/
structure OpsOf (n : String) (evs : List Event) (ops : List Op) : Prop where
  mk ::
  calls : ops.filter isCall = calls n evs
  items : ∀ op ∈ ops, ∀ i now, Op.item op = some (i, now) → ∃ s, ∃ r ∈ insertRequests s evs, ∃ it, r.item = some it ∧ it.table = n ∧
    MadeOf (insertRequests s evs) it i
  inserts : ∀ op ∈ ops, ∀ i now, Op.item op = some (i, now) → ∃ d, op = .insert i now d ∨ op = .insertResume i now d ∧ Table.itemValid i = true
  samples : ∀ op ∈ ops, isCall op = false → Op.item op = none → (∃ b ds, op = .sample b ds ∨ op = .sampleResume b ds) ∧
    ∃ q, ∃ r ∈ sampleRequests q evs, r.table = n

/-- No request is for the table. -/
structure Untouched (n : String) (evs : List Event) : Prop where
  mk ::
  calls : ∀ u, .unary u ∈ evs → u.table ≠ n
  inserts : ∀ s, ∀ r ∈ insertRequests s evs, ∀ it, r.item = some it → it.table ≠ n
  samples : ∀ q, ∀ r ∈ sampleRequests q evs, r.table ≠ n

/-- All priorities that clients send are admitted by the tables they are sent to. -/
structure Admitted (cfgs : AMap String Config) (evs : List Event) : Prop where
  mk ::
  inserts : ∀ s, ∀ r ∈ insertRequests s evs, r.Admits cfgs
  updates : ∀ n us ds, .unary (.mutate n us ds) ∈ evs → ∀ c, cfgs.get? n = some c → ∀ u ∈ us, c.admits u.2

end Service
end Verif
