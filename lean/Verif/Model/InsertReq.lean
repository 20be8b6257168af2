import Verif.Model.InsertStream
import Verif.Model.Worker
/-
Requests of `InsertStream` as any client can send them.
-/
namespace Verif

/-- reverb_service.proto:93-106 `PriorityInsertion`: the item of a request with `keep_chunk_keys` and
`send_confirmation`. The time of the insertion, which the table sets, is left out. -/
structure InsertItem where
  key : Key
  table : String
  priority : Pri
  timesSampled : Int
  traj : FlatTraj
  keep : List Key
  confirm : Bool
  deriving DecidableEq

/-- reverb_service.proto `InsertStreamRequest` (reverb_service.proto:93-117). -/
structure InsertReq where
  chunks : List ChunkData
  item : Option InsertItem
  deriving DecidableEq

/-- chunk_store.h:78-92: what a table sees of a chunk. Without a sequence range the episode is the default 0. -/
def ChunkData.ref (c : ChunkData) : ChunkRef := ⟨c.key, (c.range.map SeqRange.episode).getD 0⟩

/-- reverb_service_impl.cc:184-206 and reverb_service_async_impl.cc:253-268: the item that is given to the table. -/
def InsertItem.toItem (it : InsertItem) (chunks : List ChunkData) : Item :=
  ⟨it.key, it.priority, it.timesSampled, 0, it.traj, chunks.map ChunkData.ref⟩

/-- The requests of a trajectory writer, which always asks for a confirmation (trajectory_writer.cc:98-121). -/
def Msg.toReq (m : Msg) : InsertReq :=
  ⟨m.chunks, m.item.map fun x => ⟨x.1.key, x.1.table, x.1.priority, 0, x.1.traj, x.2, true⟩⟩

end Verif
