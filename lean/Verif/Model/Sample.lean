import Verif.Model.ChunkData
/-
reverb/cc/sampler.cc: `Sample` and its construction from the sampled item, and the messages in which the two servers send samples.
-/
namespace Verif

/-- What comes with a sample besides the data (sampler.h `Sample`, reverb_service.proto `SampleInfo`)
(sampler.h:104-119, schema.proto:135-155). -/
structure SampleInfo where
  key : Key
  probability : Rat
  tableSize : Nat
  priority : Pri
  rateLimited : Bool
  deriving DecidableEq, Repr

/-- sampler.h `Sample::ColumnChunk` (sampler.h:125-131). -/
structure ColChunk where
  tensor : Tensor
  offset : Nat
  deriving DecidableEq, Repr

/-- sampler.h `Sample` (sampler.h:54-150). -/
structure Sample where
  info : SampleInfo
  columns : List (List ColChunk)
  numTimesteps : Int
  squeeze : List Bool
  nextCalled : Bool
  deriving DecidableEq, Repr

/-- `dim_size(0)`; `none` is the failed check for scalars (used in sampler.cc:735, 761, 782 and 842). -/
def Tensor.dim0 (t : Tensor) : Option Nat := t.shape.head?

/-- sampler.cc:777-782: the length of a column, counting chunks as a whole. -/
def columnLength : List ColChunk → Option Nat
  | [] => some 0
  | c :: cs =>
    match c.tensor.dim0, columnLength cs with
    | some n, some m => some (n + m)
    | _, _ => none

/-- sampler.cc:774-790: the loop of `is_composed_of_timesteps`. -/
def composedLoop (prev : Int) : List (List ColChunk) → Option Bool
  | [] => some true
  | col :: cols =>
    match columnLength col with
    | none => none
    | some n => if prev ≠ -1 ∧ prev ≠ n then some false else composedLoop n cols

namespace Sample

/-- sampler.cc:773-791 `is_composed_of_timesteps`; `none` is a failed check. -/
def isComposedOfTimesteps (s : Sample) : Option Bool := composedLoop (-1) s.columns

/-- sampler.cc:768-771 `is_end_of_sample`. -/
def isEndOfSample (s : Sample) : Bool := s.columns.all List.isEmpty

/-- sampler.cc:704-738: the constructor. -/
def new (info : SampleInfo) (columnChunks : List (List Tensor)) (squeeze : List Bool) : Res Sample :=
  match columnChunks with
  | [] => .died
  | [] :: _ => .died
  | first :: rest =>
    let s : Sample := ⟨info, (first :: rest).map fun ts => ts.map fun t => ⟨t, 0⟩, -1, squeeze, false⟩
    match s.isComposedOfTimesteps with
    | none => .died
    | some false => .ok s
    | some true =>
      match columnLength (first.map fun t => ⟨t, 0⟩) with
      | none => .died
      | some n => .ok { s with numTimesteps := n }

/-- sampler.cc:754-763: the next row of a column; an empty column is undefined behaviour. -/
def takeRow : List ColChunk → Res (Tensor × List ColChunk)
  | [] => .died
  | c :: cs =>
    match c.tensor.subSlice c.offset with
    | .ok row => .ok (row, if c.tensor.dim0 = some (c.offset + 1) then cs else ⟨c.tensor, c.offset + 1⟩ :: cs)
    | .err e => .err e
    | .died => .died

/-- sampler.cc:754-763: all columns. -/
def takeRows : List (List ColChunk) → Res (List Tensor × List (List ColChunk))
  | [] => .ok ([], [])
  | col :: cols =>
    match takeRow col with
    | .err e => .err e
    | .died => .died
    | .ok (row, col') =>
      match takeRows cols with
      | .err e => .err e
      | .died => .died
      | .ok (rows, cols') => .ok (row :: rows, col' :: cols')

/-- sampler.cc:740-766 `GetNextTimestep`. The four tensors in front are the sample's `info`. -/
def nextTimestep (s : Sample) : Res (List Tensor × Sample) :=
  if s.isEndOfSample then .died
  else
    match s.isComposedOfTimesteps with
    | none => .died
    | some false => .died
    | some true =>
      match takeRows s.columns with
      | .err e => .err e
      | .died => .died
      | .ok (rows, cols) => .ok (rows, { s with
          columns := cols
          nextCalled := true })

/-- sampler.cc:511-534: `Sampler::GetNextTimestep` once there is an active sample, without the validation: the data and the
mark `end_of_sequence`. -/
def deliver (s : Sample) : Res (List Tensor × Bool × Sample) :=
  match s.isComposedOfTimesteps with
  | none => .died
  | some false => .err .invalidArgument
  | some true =>
    match s.nextTimestep with
    | .ok (rows, s') => .ok (rows, s'.isEndOfSample, s')
    | .err e => .err e
    | .died => .died

/-- sampler.cc:862-877: one column. -/
def unpackColumn (col : List ColChunk) : Res Tensor :=
  match col with
  | [c] => .ok c.tensor
  | _ => Tensor.concat (col.map ColChunk.tensor)

/-- sampler.cc:857-880 `UnpackColumns`. -/
def unpackColumns : List (List ColChunk) → Res (List Tensor)
  | [] => .ok []
  | col :: cols =>
    match unpackColumn col with
    | .err e => .err e
    | .died => .died
    | .ok t =>
      match unpackColumns cols with
      | .err e => .err e
      | .died => .died
      | .ok ts => .ok (t :: ts)

/-- sampler.cc:794-818 `AsBatchedTimesteps`: the number of repetitions of `info`, and the data. -/
def asBatchedTimesteps (s : Sample) : Res (Int × List Tensor) :=
  if s.nextCalled then .err .dataLoss
  else
    match s.isComposedOfTimesteps with
    | none => .died
    | some false => .err .failedPrecondition
    | some true =>
      match unpackColumns s.columns with
      | .ok ts => .ok (s.numTimesteps, ts)
      | .err e => .err e
      | .died => .died

/-- sampler.cc:838-852: the squeezing of a column. -/
def squeezeColumn (t : Tensor) : Res Tensor :=
  match t.dim0 with
  | none => .died
  | some n => if n ≠ 1 then .err .internal else t.subSlice 0

/-- sampler.cc:838-852: the loop; more flags than columns are an access out of range. -/
def squeezeColumns : List Bool → List Tensor → Res (List Tensor)
  | [], ts => .ok ts
  | _ :: _, [] => .died
  | q :: qs, t :: ts =>
    match (if q then squeezeColumn t else .ok t) with
    | .err e => .err e
    | .died => .died
    | .ok t' =>
      match squeezeColumns qs ts with
      | .err e => .err e
      | .died => .died
      | .ok ts' => .ok (t' :: ts')

/-- sampler.cc:820-856 `AsTrajectory`. -/
def asTrajectory (s : Sample) : Res (List Tensor) :=
  if s.nextCalled then .err .dataLoss
  else
    match unpackColumns s.columns with
    | .ok ts => squeezeColumns s.squeeze ts
    | .err e => .err e
    | .died => .died

end Sample

/-! ### Samples from items -/

/-- The part of `Table::SampledItem` that is used here: what is sent about the item, its trajectory and
its chunks (table.h:115-127). -/
structure SampledItem where
  info : SampleInfo
  traj : FlatTraj
  chunks : List ChunkData
  deriving DecidableEq, Repr

/-- sampler.cc:149-153: the slices of a column; `chunks[key]` of an unknown key makes a null pointer. -/
def unpackSlices (chunks : AMap Key ChunkData) : List Slice → Res (List Tensor)
  | [] => .ok []
  | s :: ss =>
    match chunks.get? s.chunk with
    | none => .died
    | some c =>
      match unpackSlice c s with
      | .err e => .err e
      | .died => .died
      | .ok t =>
        match unpackSlices chunks ss with
        | .err e => .err e
        | .died => .died
        | .ok ts => .ok (t :: ts)

/-- sampler.cc:144-156. -/
def unpackTraj (chunks : AMap Key ChunkData) : FlatTraj → Res (List (List Tensor))
  | [] => .ok []
  | col :: cols =>
    match unpackSlices chunks col.slices with
    | .err e => .err e
    | .died => .died
    | .ok ts =>
      match unpackTraj chunks cols with
      | .err e => .err e
      | .died => .died
      | .ok tss => .ok (ts :: tss)

/-- sampler.cc:133-137: the map of the chunks. -/
def chunkMap (chunks : List ChunkData) : AMap Key ChunkData := chunks.foldl (fun m c => m.insert c.key c) .empty

/-- sampler.cc:131-166 `AsSample` of the local sampler. -/
def asSampleLocal (s : SampledItem) : Res Sample :=
  match unpackTraj (chunkMap s.chunks) s.traj with
  | .err e => .err e
  | .died => .died
  | .ok tss => Sample.new s.info tss (s.traj.map Column.squeeze)

/-- reverb_service.proto:171-181 `SampleEntry`. -/
structure Entry where
  info : Option (SampleInfo × FlatTraj)
  data : List ChunkData
  last : Bool
  deriving DecidableEq, Repr

/-- An entry as `add_entries` makes it (reverb_service_impl.cc:322-330,
reverb_service_async_impl.cc:601-604). -/
def Entry.empty : Entry := ⟨none, [], false⟩

/-- sampler.cc:88-93: how often the trajectory names a chunk. -/
def refCount (t : FlatTraj) (k : Key) : Nat := ((t.flatMap Column.slices).filter fun s => s.chunk = k).length

/-- sampler.cc:103-121: the slices of a column, releasing chunks after their last use. -/
def takeSlices (st : AMap Key ChunkData × (Key → Nat)) : List Slice → Res (List Tensor × AMap Key ChunkData × (Key → Nat))
  | [] => .ok ([], st)
  | s :: ss =>
    match st.1.get? s.chunk with
    | none => .err .internal
    | some c =>
      match unpackSlice c s with
      | .err e => .err e
      | .died => .died
      | .ok t =>
        let n := st.2 s.chunk - 1
        let chunks := if n = 0 then st.1.erase s.chunk else st.1
        match takeSlices (chunks, fun k => if k = s.chunk then n else st.2 k) ss with
        | .err e => .err e
        | .died => .died
        | .ok (ts, st') => .ok (t :: ts, st')

/-- sampler.cc:101-122. -/
def takeTraj (st : AMap Key ChunkData × (Key → Nat)) : FlatTraj → Res (List (List Tensor))
  | [] => .ok []
  | col :: cols =>
    match takeSlices st col.slices with
    | .err e => .err e
    | .died => .died
    | .ok (ts, st') =>
      match takeTraj st' cols with
      | .err e => .err e
      | .died => .died
      | .ok tss => .ok (ts :: tss)

/-- sampler.cc:76-81: the chunks of the entries; those of an entry are taken from the back. -/
def entryChunks (es : List Entry) : AMap Key ChunkData := chunkMap (es.flatMap fun e => e.data.reverse)

/-- sampler.cc:72-129 `AsSample` of the gRPC sampler. An absent `info` is the default message, with an empty trajectory. -/
def asSampleGrpc (es : List Entry) : Res Sample :=
  match es with
  | [] => .died
  | e :: _ =>
    let info := e.info.getD (⟨0, 0, 0, .val 0, false⟩, [])
    match takeTraj (entryChunks es, refCount info.2) info.2 with
    | .err e => .err e
    | .died => .died
    | .ok tss => Sample.new info.1 tss (info.2.map Column.squeeze)

/-! ### The messages of the servers -/

/-- reverb_service_impl.cc:324-378: the entries for the chunks from `chunk_idx` on; every response has one entry. `size` is
`ByteSizeLong`, `max` is `kMaxSampleResponseSizeBytes`. -/
def splitLoop (size : Entry → Nat) (max : Nat) (s : SampledItem) (first : Bool) (e : Entry) : List ChunkData → List Entry
  | [] => []
  | c :: cs =>
    let e : Entry := ⟨if first then some (s.info, s.traj) else e.info, e.data ++ [c], cs.isEmpty⟩
    if cs.isEmpty = false ∧ size e < max then splitLoop size max s false e cs
    else e :: splitLoop size max s false .empty cs

/-- reverb_service_impl.cc:320-379: the responses for a sample. -/
def splitSync (size : Entry → Nat) (max : Nat) (s : SampledItem) : List Entry := splitLoop size max s true .empty s.chunks

/-- The writing side of `WorkerlessSampleReactor`: the responses given to `StartWrite` so far, oldest first, the responses in the
queue, and `current_response_size_bytes_`. If the queue is not empty its front has been given to
`StartWrite` (reverb_service_async_impl.cc:643-658, reverb_server_table_reactor.h:92-117). -/
structure Reactor where
  written : List (List Entry)
  queue : List (List Entry)
  size : Nat
  deriving DecidableEq, Repr

namespace Reactor

/-- `responses_to_send_.emplace()` and the size is set to 0 (reverb_service_async_impl.cc:593-600 and
630-634). -/
def emplace (r : Reactor) : Reactor := { r with
  queue := r.queue ++ [[]]
  size := 0 }

/-- Change of the entries of the last response (reverb_service_async_impl.cc:603 and 633). -/
def modifyBack (r : Reactor) (f : List Entry → List Entry) : Reactor := { r with
  queue := r.queue.modify (r.queue.length - 1) f }

/-- Change of the last entry of the last response (reverb_service_async_impl.cc:605-629). -/
def modifyEntry (r : Reactor) (f : Entry → Entry) : Reactor := r.modifyBack fun es => es.modify (es.length - 1) f

/-- reverb_service_async_impl.cc:605-636: the chunks from `i` on. -/
def addChunks (bytes : ChunkData → Nat) (max : Nat) (s : SampledItem) (first : Bool) (r : Reactor) : List ChunkData → Reactor
  | [] => r
  | c :: cs =>
    let r := r.modifyEntry fun e => ⟨if first then some (s.info, s.traj) else e.info, e.data ++ [c], cs.isEmpty⟩
    let r := { r with size := r.size + bytes c }
    if cs.isEmpty = false ∧ max < r.size then addChunks bytes max s false (r.emplace.modifyBack (· ++ [.empty])) cs
    else addChunks bytes max s false r cs

/-- reverb_service_async_impl.cc:593-641 `ProcessSample`. -/
def processSample (bytes : ChunkData → Nat) (max : Nat) (inFlight : Bool) (r : Reactor) (s : SampledItem) : Reactor :=
  let r := if r.queue = [] ∨ (r.queue.length = 1 ∧ inFlight = true) ∨ max < r.size then r.emplace else r
  addChunks bytes max s true (r.modifyBack (· ++ [.empty])) s.chunks

/-- reverb_server_table_reactor.h:122-131 `MaybeSendNextResponse` while the reactor is not finished. -/
def sendNext (r : Reactor) : Reactor :=
  match r.queue with
  | [] => r
  | resp :: _ => { r with written := r.written ++ [resp] }

/-- reverb_service_async_impl.cc:490-508: the callback with a batch of samples. -/
def sampled (bytes : ChunkData → Nat) (max : Nat) (r : Reactor) (samples : List SampledItem) : Reactor :=
  let alreadyWriting := !r.queue.isEmpty
  let r := samples.foldl (processSample bytes max alreadyWriting) r
  if alreadyWriting then r else r.sendNext

/-- reverb_server_table_reactor.h:160-185: `OnWriteDone(true)`. -/
def writeDone (r : Reactor) : Reactor := { r with queue := r.queue.tail }.sendNext

end Reactor

/-- sampler.cc:225-262: the client takes the entries one by one: the parts of the sample that is not complete yet, and the
completed ones. -/
def collect (st : List Entry × List (List Entry)) (e : Entry) : List Entry × List (List Entry) :=
  if e.last then ([], st.2 ++ [st.1 ++ [e]]) else (st.1 ++ [e], st.2)

/-- The samples that the client makes of the entries, and the parts left over (sampler.cc:225-262). -/
def collectAll (es : List Entry) : List Entry × List (List Entry) := es.foldl collect ([], [])

end Verif
