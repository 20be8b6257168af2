import Verif.Model.ChunkData
/-
reverb/cc/chunker.cc.
-/
namespace Verif

/-- What `AutoTunedChunkerOptions` looks at of a referenced chunk: `chunk_key`, `GetLength` (chunker.cc:42-44) and
`ByteSizeLong`. -/
structure ChunkObs where
  key : Key
  length : Nat
  bytes : Nat
  deriving DecidableEq, Repr

/-- chunker.h `Statistic`; the doubles are exact (chunker.h:413-423). -/
structure Statistic where
  key : Key
  bytesPerStep : Rat
  avgLength : Rat
  deriving DecidableEq, Repr

/-- chunker.h `Score` (chunker.h:407-410). -/
structure Score where
  avgLength : Rat
  cost : Rat
  deriving DecidableEq, Repr

/-- chunker.h: the members of `AutoTunedChunkerOptions` (chunker.h:385-431). -/
structure AutoTuned where
  keep : Int
  delta : Bool
  weight : Rat
  maxLen : Int
  prev : Score
  items : List Statistic
  chunks : List Statistic
  deriving DecidableEq, Repr

namespace AutoTuned

/-- chunker.cc:389-396: the constructor. -/
def new (keep : Int) (weight : Rat) (delta : Bool) : AutoTuned := ⟨keep, delta, weight, 1, ⟨-1, -1⟩, [], []⟩

/-- chunker.h:331-332 `kNumItemsToScore`. -/
def numItems : Nat := 10

/-- chunker.h:331-332 `kNumChunksToScore`. -/
def numChunks : Nat := 5

/-- chunker.cc:415-421: the first reference to each chunk. -/
def firstRefs (refs : List ChunkObs) : List ChunkObs :=
  refs.foldl (fun acc r => if acc.any (fun a => a.key == r.key) then acc else acc ++ [r]) []

/-- chunker.cc:409-430 `PushItem`. The key of the statistic is not set; here it is 0. -/
def pushItem (a : AutoTuned) (refs : List ChunkObs) : AutoTuned :=
  let seen := firstRefs refs
  let totalBytes : Rat := ((seen.map (·.bytes)).sum : Nat)
  let totalLength : Rat := ((seen.map (·.length)).sum : Nat)
  let items := a.items ++ [⟨0, totalBytes / (refs.length : Nat), totalLength / (seen.length : Nat)⟩]
  { a with items := if numItems < items.length then items.tail else items }

/-- chunker.cc:519-530: one reference in `PushChunks`. -/
def pushChunk (chunks : List Statistic) (r : ChunkObs) : List Statistic :=
  if chunks.all (fun s => s.key != r.key) then chunks ++ [⟨r.key, (r.bytes : Rat) / (r.length : Nat), (r.length : Nat)⟩]
  else chunks

/-- chunker.cc:517-536 `PushChunks`. -/
def pushChunks (a : AutoTuned) (refs : List ChunkObs) : AutoTuned :=
  let chunks := refs.foldl pushChunk a.chunks
  { a with chunks := chunks.drop (chunks.length - 5) }

/-- chunker.cc:484-515 `ReduceAndClearBuffers`; `none` is a failed check. -/
def reduce (a : AutoTuned) : Option (AutoTuned × Score) :=
  if a.items.length = numItems ∧ a.chunks.length = numChunks then
    let lengths : Rat := ((a.items ++ a.chunks).map Statistic.avgLength).sum
    let perItem : Rat := (a.items.map fun s => s.bytesPerStep / ((a.items.length : Nat) : Rat)).sum
    let perChunk : Rat := (a.chunks.map fun s => s.bytesPerStep / ((a.chunks.length : Nat) : Rat)).sum
    some ({ a with
      items := []
      chunks := [] }, ⟨lengths / ((a.items.length + a.chunks.length : Nat) : Rat), perChunk + perItem * a.weight⟩)
  else none

/-- chunker.cc:450-481: the decision about the new length. -/
def adjust (a : AutoTuned) (s : Score) : AutoTuned :=
  if a.prev.avgLength = -1 then { a with
    prev := s
    maxLen := min (a.maxLen + 2) a.keep }
  else
    let d := s.avgLength - a.maxLen
    if (1 / 4 : Rat) < (if d < 0 then -d else d) then a
    else
      let costReduced := decide (s.cost < a.prev.cost)
      let lengthGrew := decide (a.prev.avgLength < s.avgLength)
      let diff : Int := if costReduced = lengthGrew then 2 else -1
      let newLen := min (max (a.maxLen + diff) 1) a.keep
      if newLen ≠ a.maxLen then { a with
        prev := s
        maxLen := newLen }
      else a

/-- chunker.cc:432-482 `OnItemFinalized`; `none` is a failed check. -/
def onItemFinalized (a : AutoTuned) (refs : List ChunkObs) : Option AutoTuned :=
  if refs = [] then none
  else
    let a := (a.pushItem refs).pushChunks refs
    if a.items.length < numItems ∨ a.chunks.length < numChunks then some a
    else
      match a.reduce with
      | none => none
      | some (a, s) => some (a.adjust s)

end AutoTuned

/-- `ChunkerOptions` and its two implementations (chunker.h:233-368). -/
inductive ChunkerOpts where
  | constant (maxLen keep : Int) (delta : Bool)
  | auto (a : AutoTuned)
  deriving DecidableEq, Repr

namespace ChunkerOpts

/-- chunker.cc:370-372, 398-401 `GetMaxChunkLength`. -/
def maxLen : ChunkerOpts → Int
  | .constant m _ _ => m
  | .auto a => a.maxLen

/-- chunker.cc:374-376, 403-405 `GetNumKeepAliveRefs`. -/
def keep : ChunkerOpts → Int
  | .constant _ k _ => k
  | .auto a => a.keep

/-- chunker.cc:378, 407 `GetDeltaEncode`. -/
def delta : ChunkerOpts → Bool
  | .constant _ _ d => d
  | .auto a => a.delta

/-- chunker.cc:380-382, 432-482 `OnItemFinalized`. -/
def onItemFinalized (o : ChunkerOpts) (refs : List ChunkObs) : Option ChunkerOpts :=
  match o with
  | .constant .. => some o
  | .auto a => (a.onItemFinalized refs).map .auto

/-- chunker.cc:384-387, 538-541 `Clone`: the argument `delta_encode` has the default `false`. -/
def clone : ChunkerOpts → ChunkerOpts
  | .constant m k _ => .constant m k false
  | .auto a => .auto (.new a.keep a.weight false)

/-- chunker.cc:344-361 `ValidateChunkerOptions`. -/
def validate (o : ChunkerOpts) : Res Unit :=
  if o.maxLen ≤ 0 then .err .invalidArgument
  else if o.keep ≤ 0 then .err .invalidArgument
  else if o.keep < o.maxLen then .err .invalidArgument
  else .ok ()

end ChunkerOpts

/-- chunker.h `CellRef` (chunker.h:80-150). -/
structure Cell where
  key : Key
  offset : Nat
  episode : Key
  step : Int
  chunk : Option ChunkData
  deriving DecidableEq, Repr

/-- chunker.h `Chunker`. `cells` holds every `CellRef` ever made; a pointer to one is its position. `keyGen` is the sequence
of keys from the generator, `drawn` the number of keys taken after the first. The shape is the one of the first tensor
(trajectory_writer.cc:225-228), without unknown dimensions. -/
structure Chunker where
  dtype : DType
  shape : List Nat
  opts : ChunkerOpts
  keyGen : Nat → Key
  drawn : Nat
  buffer : List Tensor
  offset : Nat
  cells : List Cell
  active : List Nat

namespace Chunker

/-- `next_chunk_key_` (chunker.cc:142, 191, 252, 263). -/
def nextKey (c : Chunker) : Key := c.keyGen c.drawn

/-- chunker.cc:100-108: the constructor. -/
def new (dtype : DType) (shape : List Nat) (opts : ChunkerOpts) (keyGen : Nat → Key) : Res Chunker :=
  if opts.keep < opts.maxLen then .died
  else .ok ⟨dtype, shape, opts, keyGen, 0, [], 0, [], []⟩

/-- The cell that a pointer in `active_refs_` points to (chunker.cc:162-165, 206, 245). -/
def cellAt (c : Chunker) (i : Nat) : Cell := c.cells.getD i ⟨0, 0, 0, 0, none⟩

/-- chunker.cc:210-239: the effect of a reference of the new chunk on its range; `none` is the failed check at 224. -/
def extendRange (r : Option SeqRange) (cell : Cell) : Option SeqRange :=
  match r with
  | none => some ⟨cell.episode, cell.step, cell.step, false⟩
  | some r =>
    if r.episode = cell.episode ∧ r.end_ < cell.step then
      some { r with
        sparse := r.sparse || decide (cell.step ≠ r.end_ + 1)
        end_ := cell.step }
    else none

/-- chunker.cc:206-240: all references; `none` as above. -/
def rangeOf (r : Option SeqRange) : List Cell → Option (Option SeqRange)
  | [] => some r
  | cell :: cells =>
    match extendRange r cell with
    | none => none
    | some r' => rangeOf (some r') cells

/-- chunker.cc:66-69 `SetChunk`. -/
def setChunk (ch : ChunkData) (cell : Cell) : Cell := { cell with chunk := some ch }

/-- chunker.cc:242-248: the active references of the chunk are notified. -/
def notify (c : Chunker) (ch : ChunkData) : List Cell :=
  c.active.foldl (fun cells i => if (c.cellAt i).key = ch.key then cells.modify i (setChunk ch) else cells) c.cells

/-- chunker.cc:187-256 `FlushLocked`. -/
def flush (c : Chunker) : Chunker × Res Unit :=
  if c.buffer = [] then (c, .ok ())
  else
    match Tensor.concat c.buffer with
    | .err e => (c, .err e)
    | .died => (c, .died)
    | .ok batched =>
      match (if c.opts.delta then batched.deltaEncode true else .ok batched) with
      | .err e => (c, .err e)
      | .died => (c, .died)
      | .ok data =>
        match rangeOf none ((c.active.map c.cellAt).filter fun cell => cell.key = c.nextKey) with
        | none => (c, .died)
        | some range =>
          let ch : ChunkData := ⟨c.nextKey, range, [data], c.opts.delta⟩
          ({ c with
            cells := c.notify ch
            buffer := []
            drawn := c.drawn + 1
            offset := 0 }, .ok ())

/-- chunker.cc:161-164, 280-282: the oldest references are dropped while there are more than `num_keep_alive_refs`. -/
def trim (c : Chunker) : Chunker := { c with active := c.active.drop (c.active.length - c.opts.keep.toNat) }

/-- chunker.cc:127-138: is the row refused because of its episode or step? -/
def refuses (c : Chunker) (episode : Key) (step : Int) : Res Bool :=
  if c.buffer = [] then .ok false
  else
    match c.active.getLast? with
    | none => .died
    | some i => .ok (decide ((c.cellAt i).episode ≠ episode) || decide (step ≤ (c.cellAt i).step))

/-- chunker.cc:140-154: the new reference, and the tensor in the buffer. -/
def pushRow (c : Chunker) (t : Tensor) (episode : Key) (step : Int) : Chunker :=
  { c with
    cells := c.cells ++ [⟨c.nextKey, c.offset, episode, step, none⟩]
    active := c.active ++ [c.cells.length]
    offset := c.offset + 1
    buffer := c.buffer ++ [t.addBatchDim] }

/-- chunker.cc:156-159: the chunk is created if the buffer is full. -/
def flushIfFull (c : Chunker) : Chunker × Res Unit :=
  if c.opts.maxLen ≤ c.buffer.length then c.flush else (c, .ok ())

/-- chunker.cc:110-169 `Append`; the result is the new reference. -/
def append (c : Chunker) (t : Tensor) (episode : Key) (step : Int) : Chunker × Res Nat :=
  if t.dtype ≠ c.dtype then (c, .err .invalidArgument)
  else if t.shape ≠ c.shape then (c, .err .invalidArgument)
  else
    match c.refuses episode step with
    | .died => (c, .died)
    | .err e => (c, .err e)
    | .ok true => (c, .err .failedPrecondition)
    | .ok false =>
      match (c.pushRow t episode step).flushIfFull with
      | (c', .ok ()) => (c'.trim, .ok c.cells.length)
      | (c', .err e) => (c', .err e)
      | (c', .died) => (c', .died)

/-- chunker.cc:258-265 `Reset`. -/
def reset (c : Chunker) : Chunker :=
  { c with
    buffer := []
    offset := 0
    drawn := c.drawn + 1
    active := [] }

/-- chunker.cc:269-285 `ApplyConfig`. -/
def applyConfig (c : Chunker) (o : ChunkerOpts) : Chunker × Res Unit :=
  if c.buffer ≠ [] then (c, .err .failedPrecondition)
  else
    match o.validate with
    | .ok () => ({ c with opts := o }.trim, .ok ())
    | .err e => (c, .err e)
    | .died => (c, .died)

/-- chunker.cc:171-180 `GetKeepKeys`. -/
def keepKeys (c : Chunker) : List Key :=
  (c.active.map fun i => (c.cellAt i).key).foldl (fun keys k => if keys.getLast? = some k then keys else keys ++ [k]) []

/-- chunker.cc:287-327 `CopyDataForCell`. -/
def getData (c : Chunker) (i : Nat) : Res Tensor :=
  match (c.cellAt i).chunk with
  | some ch =>
    match unpackChunkColumn ch 0 with
    | .ok col => col.subSlice (c.cellAt i).offset
    | .err e => .err e
    | .died => .died
  | none =>
    let negativeOffset := c.active.reverse.idxOf i
    let index : Int := (c.buffer.length : Int) - negativeOffset - 1
    if index < 0 then .err .internal
    else
      match c.buffer[index.toNat]? with
      | none => .died
      | some t => .ok t.dropBatchDim

/-- chunker.cc:329-342 `OnItemFinalized`, given what is observed of the item's references that this chunker made. -/
def itemFinalized (c : Chunker) (refs : List ChunkObs) : Chunker × Res Unit :=
  if refs = [] then (c, .ok ())
  else
    match c.opts.onItemFinalized refs with
    | some o => ({ c with opts := o }, .ok ())
    | none => (c, .died)

/-- The calls (chunker.cc:110-342). -/
inductive Op where
  | append (t : Tensor) (episode : Key) (step : Int)
  | flush
  | reset
  | configure (o : ChunkerOpts)
  | finalized (refs : List ChunkObs)

/-- The result of a call with no value (chunker.cc:182-285). -/
def noRef (r : Res Unit) : Res (Option Nat) :=
  match r with
  | .ok () => .ok none
  | .err e => .err e
  | .died => .died

/-- One call (model only: dispatches to chunker.cc:110-342). -/
def step (c : Chunker) : Op → Chunker × Res (Option Nat)
  | .append t e s =>
    match c.append t e s with
    | (c', .ok i) => (c', .ok (some i))
    | (c', .err e) => (c', .err e)
    | (c', .died) => (c', .died)
  | .flush => (c.flush.1, noRef c.flush.2)
  | .reset => (c.reset, .ok none)
  | .configure o => ((c.applyConfig o).1, noRef (c.applyConfig o).2)
  | .finalized refs => ((c.itemFinalized refs).1, noRef (c.itemFinalized refs).2)

/-- A sequence of calls (model only: calls of chunker.cc:110-342, each holding `mu_`). -/
def run (c : Chunker) (ops : List Op) : Chunker := ops.foldl (fun c op => (c.step op).1) c

end Chunker
end Verif
