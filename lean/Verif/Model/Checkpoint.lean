import Verif.Model.Table
/-
Checkpoints of a table: table.cc:962-1021 and the part of tfrecord_checkpointer.cc:226-376 (`Load`) that
rebuilds one table. Files are in `Model/Checkpointer.lean`; protobuf encoding is taken to be lossless.
The signature and the table name are copied and otherwise unused, so they are left out.
-/
namespace Verif

/-- `ItemSelector::options()` (fifo.cc:61-66, lifo.cc:60-65, uniform.cc:73-78, heap.cc:70-75,
prioritized.cc:161-166). -/
def Sel.options : Sel → SelKind
  | .fifo _ => .fifo
  | .lifo _ => .lifo
  | .uniform _ => .uniform
  | .heap s => .heap s.minHeap
  | .prio s => .prio s.pow

/-- `PriorityTableCheckpoint` (checkpoint.proto). An item in it is a `PrioritizedItem` proto, i.e. an
`Item` without its chunks: its list of chunks is empty here (checkpoint.proto:11-46). -/
structure Checkpoint where
  maxSize : Nat
  maxTimesSampled : Int
  sampler : SelKind
  remover : SelKind
  limiter : Limiter
  numDeletedEpisodes : Int
  numUniqueSamples : Int
  items : List Item

/-- `entry.second->item`: the proto of a table item (table.cc:986). -/
def Item.proto (i : Item) : Item := { i with chunks := [] }

namespace Table

/-- table.cc:985-994: the order in which the items of `data_` end up in the checkpoint. They are visited in
the order of the hash map, then sorted by `std::sort` with `IsInsertedBefore` (table.cc:54-59), which
does not fix the order of items with equal timestamps. So any list with this property is possible. -/
def SortedItems (t : Table) (items : List Item) : Prop :=
  items.Perm (t.data.entries.map Prod.snd) ∧ items.Pairwise (fun a b => ¬ b.insertedAt < a.insertedAt)

/-- table.cc:962-997 `Checkpoint`; `items` are the items of the table in the order described by
`SortedItems`. -/
def checkpoint (t : Table) (items : List Item) : Checkpoint where
  maxSize := t.maxSize
  maxTimesSampled := t.maxTimesSampled
  sampler := t.sampler.options
  remover := t.remover.options
  limiter := t.limiter
  numDeletedEpisodes := t.numDeletedEpisodes
  numUniqueSamples := t.numUniqueSamples
  items := items.map Item.proto

/-- table.cc:999-1021 `InsertCheckpointItem`. -/
def insertCheckpointItem (t : Table) (i : Item) : Table × Res Unit :=
  if t.maxSize < t.data.size + 1 then (t, .died)
  else if t.data.contains i.key then (t, .died)
  else
    let r := t.sampler.apply (.insert i.key i.priority)
    let t1 := { t with sampler := r.1 }
    match r.2 with
    | .ok () =>
      let r := t1.remover.apply (.insert i.key i.priority)
      let t2 := { t1 with remover := r.1 }
      match r.2 with
      | .ok () =>
        ({ t2 with
            data := t2.data.insert i.key i
            log := t2.log ++ [ExtEvent.insert i]
            episodeRefs := incRefs t2.episodeRefs i.chunks }, .ok ())
      | e => (t2, e)
    | e => (t1, e)

end Table

/-- tfrecord_checkpointer.cc:237-270: `chunk_by_key`, from the chunks in the order of the file. -/
def chunkByKey (chunks : List ChunkRef) : AMap Key ChunkRef :=
  chunks.foldl (fun m c => m.insert c.key c) AMap.empty

/-- tfrecord_checkpointer.cc:351-356: the chunks of a restored item; `none` is the failed `REVERB_CHECK`. -/
def lookupChunks (m : AMap Key ChunkRef) (keys : List Key) : Option (List ChunkRef) :=
  keys.mapM fun k => m.get? k

/-- tfrecord_checkpointer.cc:327-361: the loop over the items of the checkpoint. The branch for the
deprecated format of items is left out. -/
def restoreItems (m : AMap Key ChunkRef) : Table → List Item → Res Table
  | t, [] => .ok t
  | t, i :: is =>
    match lookupChunks m (getChunkKeys i.traj) with
    | none => .died
    | some cs =>
      let r := t.insertCheckpointItem { i with chunks := cs }
      match r.2 with
      | .ok () => restoreItems m r.1 is
      | _ => .died

/-- tfrecord_checkpointer.cc:296-363: the table built from a checkpoint. The limiter comes from the
constructor at rate_limiter.cc:65-74, the selectors from `MakeDistribution`. -/
def restore (c : Checkpoint) (chunks : List ChunkRef) : Res Table :=
  restoreItems (chunkByKey chunks)
    { Table.make c.maxSize c.maxTimesSampled c.sampler c.remover c.limiter.restored with
      numDeletedEpisodes := c.numDeletedEpisodes
      numUniqueSamples := c.numUniqueSamples } c.items

end Verif
