import Verif.Model.Checkpoint
import Verif.Model.Service
/-
A server that saves checkpoints of all its tables and is started again: tfrecord_checkpointer.cc:159-224 (`Save`) and 226-376 (`Load`),
reverb_service_impl.cc:84-142 (`Initialize`, `Checkpoint`). Which directory is the latest checkpoint, and what is left after a crash, is in
`Model/CkptFiles.lean`; protobuf encoding is taken to be lossless.
-/
namespace Verif
namespace ServerCkpt

/-- What a complete checkpoint contains: the records of `tables.tfrecord` with the names of the tables, and those of `chunks.tfrecord`
(tfrecord_checkpointer.cc:175-198). -/
structure Saved where
  tables : List (String × Checkpoint)
  chunks : List ChunkRef

/-- tfrecord_checkpointer.cc:133-142 `find_table_index`. -/
def findTable (tables : List (String × Table)) (name : String) : Option Nat := tables.findIdx? fun x => x.1 = name

/-- tfrecord_checkpointer.cc:277-370: the loop over the table records. The tables that are given are replaced; their extensions, which go
over to the new tables, are seen in `Table.log` only. -/
def loadTables (chunks : List ChunkRef) : List (String × Table) → List (String × Checkpoint) → Res (List (String × Table))
  | tables, [] => .ok tables
  | tables, (name, c) :: records =>
    match findTable tables name with
    | none => .err .invalidArgument
    | some i =>
      match restore c chunks with
      | .ok t => loadTables chunks (tables.set i (name, t)) records
      | .err e => .err e
      | .died => .died

/-- reverb_service_impl.cc:111-112: `tables_[table->name()] = std::move(table)` for each table. -/
def tableMap (tables : List (String × Table)) : AMap String Table := tables.foldl (fun m x => m.insert x.1 x.2) .empty

/-- reverb_service_impl.cc:84-118 `Initialize`, with the checkpoint that is found, if any. (In which place it is found does not matter
here.) -/
def start (given : List (String × Table)) (found : Option Saved) : Res (AMap String Table) :=
  match found with
  | none => .ok (tableMap given)
  | some s =>
    match loadTables s.chunks given s.tables with
    | .ok tables => .ok (tableMap tables)
    | .err e => .err e
    | .died => .died

/-- `Save` under way (tfrecord_checkpointer.cc:179-185): the tables yet to be saved, the records written, and the set `chunks`. -/
structure Saving where
  todo : List String
  records : List (String × Checkpoint)
  chunks : List ChunkRef

/-- tfrecord_checkpointer.cc:182 `chunks.merge`, table.cc:985-989. A set is a list without duplicates. -/
def merge (chunks : List ChunkRef) (items : List Item) : List ChunkRef :=
  (items.flatMap Item.chunks).foldl (fun l ch => if ch ∈ l then l else l ++ [ch]) chunks

/-- A server and what remains of it on disk. `server` is what the last start gave: a server, or the error of the constructor.
Only one call of `Checkpoint` is under way at a time (see `C50_overlap_is_false` for two)
(reverb_service_impl.h:113-119, tfrecord_checkpointer.cc:159-224). -/
structure Job where
  server : Res Service
  saving : Option Saving
  latest : Option Saved

/-- The server that is started (reverb_service_impl.cc:84-118). -/
def boot (given : List (String × Table)) (found : Option Saved) : Res Service :=
  match start given found with
  | .ok tables => .ok (Service.init tables)
  | .err e => .err e
  | .died => .died

/-- A first start, without a checkpoint (reverb_service_impl.cc:84-118). -/
def Job.init (given : List (String × Table)) : Job := ⟨boot given none, none, none⟩

/-- What can happen (reverb_service_impl.cc:121-141, tfrecord_checkpointer.cc:159-224). -/
inductive Event where
  /-- a step of the server -/
  | serve (e : Service.Event)
  /-- reverb_service_impl.cc:121-132: `Checkpoint` is called; the tables are in the order of the hash map -/
  | save (names : List String)
  /-- tfrecord_checkpointer.cc:181: `Table::Checkpoint` of the next table, with its items in the order given -/
  | table (items : List Item)
  /-- tfrecord_checkpointer.cc:191-203: the chunks are written, in the order given, and the file `DONE` -/
  | done (chunks : List ChunkRef)
  /-- `Save` ends with an error -/
  | fail
  /-- the process ends, in whatever state, and a new one is started with these tables -/
  | restart (given : List (String × Table))

/-- The conditions on the order of items: see `Table.SortedItems` (table.cc:962-997). -/
def sortedItems (t : Table) (items : List Item) : Bool :=
  items.isPerm (t.data.entries.map Prod.snd) && decide (items.Pairwise fun a b => ¬ b.insertedAt < a.insertedAt)

/-- One step; `none` if it is not possible (reverb_service_impl.cc:84-141,
tfrecord_checkpointer.cc:159-224; simplified: one call of `Checkpoint` at a time, the calls of
`Table::Checkpoint` are atomic). -/
def Job.step (w : Wire) (j : Job) : Event → Option Job
  | .serve e =>
    match j.server with
    | .ok v =>
      match v.step w e with
      | some v' => some { j with server := .ok v' }
      | none => none
    | _ => none
  | .save names =>
    match j.server, j.saving with
    | .ok v, none => if !v.dead && names.isPerm v.tables.keys then some { j with saving := some ⟨names, [], []⟩ } else none
    | _, _ => none
  | .table items =>
    match j.server, j.saving with
    | .ok v, some ⟨n :: todo, records, chunks⟩ =>
      match v.tables.get? n with
      | some t =>
        if !v.dead && sortedItems t items then
          some { j with saving := some ⟨todo, records ++ [(n, t.checkpoint items)], merge chunks items⟩ }
        else none
      | none => none
    | _, _ => none
  | .done chunks =>
    match j.saving with
    | some ⟨[], records, cs⟩ =>
      if chunks.isPerm cs then some { j with
        saving := none
        latest := some ⟨records, chunks⟩ }
      else none
    | _ => none
  | .fail => some { j with saving := none }
  | .restart given => some ⟨boot given j.latest, none, j.latest⟩

/-- A sequence of steps (model only), reverb_service_impl.cc:84-141. -/
def Job.run (w : Wire) (j : Job) : List Event → Option Job
  | [] => some j
  | e :: es =>
    match j.step w e with
    | none => none
    | some j' => j'.run w es

end ServerCkpt
end Verif
