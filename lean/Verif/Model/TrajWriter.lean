import Verif.Model.Chunker
import Verif.Model.Sample
import Verif.Model.TensorSpec
/-
reverb/cc/trajectory_writer.cc. The user's thread, the stream worker and the reader of the stream take turns; the steps of the
worker are cut where it takes or releases the mutex or calls gRPC, and between the references in `SendNotAlreadySentChunks`.
`Append` is one step (the columns are appended to one after the other without the mutex, so an `Append` with other steps in between
behaves as several calls of `AppendPartial`, except that its reading of the status is earlier). Not modelled: the data race between
`AppendInternal`, which adds to `chunkers_` without the mutex, and the worker, which iterates over it.
-/
namespace Verif

/-- A pointer to a `CellRef`: the cell `id` of the chunker of column `col` (chunker.h:80-150,
trajectory_writer.h:345-346). -/
structure Ref where
  col : Nat
  id : Nat
  deriving DecidableEq, Repr

/-- trajectory_writer.h `TrajectoryColumn` (trajectory_writer.h:317-352). -/
structure TrajCol where
  refs : List Ref
  squeeze : Bool
  deriving DecidableEq, Repr

/-- trajectory_writer.h `ItemAndRefs` (trajectory_writer.h:195-202). -/
structure WItem where
  key : Key
  table : String
  priority : Pri
  traj : FlatTraj
  refs : List Ref
  deriving DecidableEq, Repr

/-- reverb_service.proto `InsertStreamRequest`: chunks, and an item with its `keep_chunk_keys`. Of the item only the key, table,
priority and trajectory are sent; the references are kept here to speak about them
(trajectory_writer.cc:434-447; reverb_service.proto, `InsertStreamRequest`, see
trajectory_writer.h:47-66). -/
structure Msg where
  chunks : List ChunkData
  item : Option (WItem × List Key)
  deriving DecidableEq, Repr

/-- Where the stream worker is (trajectory_writer.cc:150-169 and 476-556). -/
inductive Phase where
  /-- before `SetContextAndCreateStream` -/
  | start
  /-- before `GetNextPendingItem` -/
  | fetch
  /-- in `SendNotAlreadySentChunks`, with the references still to be looked at -/
  | chunks (it : WItem) (rest : List Ref)
  /-- before the critical section at 508-531 -/
  | check (it : WItem)
  /-- in `data_cv_.Wait` -/
  | waiting
  /-- before `OnItemFinalized` -/
  | finalize (it : WItem)
  /-- before `SendItem` -/
  | send (it : WItem)
  /-- after `SendItem` returned true -/
  | sent
  /-- after `SendItem` returned false -/
  | sendFailed (it : WItem)
  /-- before `Finish` -/
  | finish
  /-- before `RunStreamWorker` returns the status, `none` is OK; the reader may still run -/
  | ended (status : Option Code)
  /-- the thread ended -/
  | stopped
  deriving DecidableEq, Repr

/-- trajectory_writer.h `TrajectoryWriter`. `gen` are the keys from `key_generator_` and `drawn` their number, `colGen i` the keys
of the generator of the chunker of column `i`. `sig` is `flat_signature_map`; `unrecoverable` is `none` if OK. `streamed` and `request`
are the local variables of `RunStreamWorker`. `msgs` are the requests given to `Write` in the current call of `RunStreamWorker` and
`past` those of the earlier calls; they are a record and not read (trajectory_writer.h:255-314). -/
structure TrajWriter where
  opts : ChunkerOpts
  sig : Option (AMap String (Option (List TensorSpec)))
  colGen : Nat → Nat → Key
  gen : Nat → Key
  drawn : Nat
  overrides : AMap Nat ChunkerOpts
  chunkers : AMap Nat Chunker
  episode : Key
  step : Int
  queue : List WItem
  inFlight : List Key
  unrecoverable : Option Code
  closed : Bool
  phase : Phase
  streamed : List Key
  request : List ChunkData
  msgs : List Msg
  past : List (List Msg)

namespace TrajWriter

/-- trajectory_writer.cc:141-170: the constructor, with the check of the options (656-661). -/
def new (opts : ChunkerOpts) (sig : Option (AMap String (Option (List TensorSpec)))) (colGen : Nat → Nat → Key) (gen : Nat → Key) :
    Res TrajWriter :=
  match opts.validate with
  | .ok () => .ok ⟨opts, sig, colGen, gen, 1, .empty, .empty, gen 0, 0, [], [], none, false, .start, [], [], [], []⟩
  | _ => .died

/-- The cell that a reference points to (chunker.h:80-150). -/
def cell? (w : TrajWriter) (r : Ref) : Option Cell := (w.chunkers.get? r.col).bind fun c => c.cells[r.id]?

/-- Does a `weak_ptr` to the cell still lock? The cell is kept by the chunker's `active_refs_` and by the items in the queue. The
worker's copy of the front item is not counted: until `pop_front` the queue has the item as well, and
then the copy goes away (trajectory_writer.cc:667-712 and trajectory_writer.h:195-202). -/
def alive (w : TrajWriter) (r : Ref) : Bool :=
  (match w.chunkers.get? r.col with
    | some c => c.active.contains r.id
    | none => false) || w.queue.any fun it => it.refs.contains r

/-- chunk.cc `CellRef::IsReady` (chunker.cc:60-63). -/
def ready (w : TrajWriter) (r : Ref) : Bool :=
  match w.cell? r with
  | some cell => cell.chunk.isSome
  | none => false

/-- `ref->chunk_key()` (chunker.cc:56). -/
def keyOf (w : TrajWriter) (r : Ref) : Key :=
  match w.cell? r with
  | some cell => cell.key
  | none => 0

/-- `ref->GetChunk()` (chunker.cc:72-75). -/
def chunkOf (w : TrajWriter) (r : Ref) : Option ChunkData := (w.cell? r).bind Cell.chunk

/-- `ref->chunker().lock()->spec()` (chunker.cc:90-98 and 267). -/
def specOf (w : TrajWriter) (r : Ref) : Option (DType × List Nat) := (w.chunkers.get? r.col).map fun c => (c.dtype, c.shape)

/-! ### Append -/

/-- trajectory_writer.cc:213-230: a chunker for every new column. -/
def addChunkers (w : TrajWriter) : Nat → List (Option Tensor) → TrajWriter × Res Unit
  | _, [] => (w, .ok ())
  | i, none :: data => addChunkers w (i + 1) data
  | i, some t :: data =>
    match w.chunkers.get? i with
    | some _ => addChunkers w (i + 1) data
    | none =>
      match Chunker.new t.dtype t.shape ((w.overrides.get? i).getD w.opts).clone (w.colGen i) with
      | .ok c => addChunkers { w with chunkers := w.chunkers.insert i c } (i + 1) data
      | .err e => (w, .err e)
      | .died => (w, .died)

/-- trajectory_writer.cc:232-248: the tensors are given to the chunkers; the result is the references. -/
def appendAll (w : TrajWriter) : Nat → List (Option Tensor) → TrajWriter × Res (List (Option Ref))
  | _, [] => (w, .ok [])
  | i, none :: data =>
    match appendAll w (i + 1) data with
    | (w', .ok refs) => (w', .ok (none :: refs))
    | (w', .err e) => (w', .err e)
    | (w', .died) => (w', .died)
  | i, some t :: data =>
    match w.chunkers.get? i with
    | none => (w, .died)
    | some c =>
      match c.append t w.episode w.step with
      | (c', .err e) => ({ w with chunkers := w.chunkers.insert i c' }, .err e)
      | (c', .died) => ({ w with chunkers := w.chunkers.insert i c' }, .died)
      | (c', .ok id) =>
        match appendAll { w with chunkers := w.chunkers.insert i c' } (i + 1) data with
        | (w', .ok refs) => (w', .ok (some ⟨i, id⟩ :: refs))
        | (w', .err e) => (w', .err e)
        | (w', .died) => (w', .died)

/-- trajectory_writer.cc:200-264 `AppendInternal`; `inc` is true for `Append` and false for `AppendPartial`. -/
def append (w : TrajWriter) (data : List (Option Tensor)) (inc : Bool) : TrajWriter × Res (List (Option Ref)) :=
  match w.unrecoverable with
  | some e => (w, .err e)
  | none =>
    match w.addChunkers 0 data with
    | (w, .err e) => (w, .err e)
    | (w, .died) => (w, .died)
    | (w, .ok ()) =>
      match w.appendAll 0 data with
      | (w, .err e) => (w, .err e)
      | (w, .died) => (w, .died)
      | (w, .ok refs) => ({ w with step := if inc then w.step + 1 else w.step }, .ok refs)

/-! ### CreateItem -/

/-- trajectory_writer.cc:667-700 `TrajectoryColumn::Validate`; `locked_refs[0]` of an empty column is an access out of range. -/
def validateColumn (w : TrajWriter) (col : TrajCol) : Res Unit :=
  if col.refs.any fun r => !w.alive r then .err .invalidArgument
  else if col.squeeze ∧ col.refs.length ≠ 1 then .err .invalidArgument
  else
    match col.refs with
    | [] => .died
    | r :: rest => if rest.any fun s => w.specOf s ≠ w.specOf r then .err .invalidArgument else .ok ()

/-- trajectory_writer.cc:286-294: all columns. -/
def validateColumns (w : TrajWriter) : List TrajCol → Res Unit
  | [] => .ok ()
  | col :: cols =>
    match w.validateColumn col with
    | .ok () => validateColumns w cols
    | .err e => .err e
    | .died => .died

/-- trajectory_writer.cc:55-63: one reference in `MergeAdjacent`. -/
def mergeStep (slices : List Slice) (cell : Cell) : List Slice :=
  match slices.getLast? with
  | none => slices ++ [⟨cell.key, cell.offset, 1, 0⟩]
  | some s =>
    if s.chunk ≠ cell.key then slices ++ [⟨cell.key, cell.offset, 1, 0⟩]
    else slices.dropLast ++ [{ s with length := s.length + 1 }]

/-- trajectory_writer.cc:46-66 `MergeAdjacent`. -/
def mergeAdjacent (cells : List Cell) : List Slice := cells.foldl mergeStep []

/-- trajectory_writer.cc:372-379 `ToProto`; all references are alive here. -/
def toColumn (w : TrajWriter) (col : TrajCol) : Column := ⟨mergeAdjacent (col.refs.filterMap w.cell?), col.squeeze⟩

/-- trajectory_writer.cc:125-135: the spec of a column; `none` is a failed check or an access out of range. -/
def columnSpec (w : TrajWriter) (refs : List Ref) (col : Column) : Option TensorSpec :=
  match col.slices with
  | [] => none
  | s :: _ =>
    match refs.find? fun r => w.keyOf r = s.chunk with
    | none => none
    | some r => (w.specOf r).map fun sp =>
        ⟨sp.1, if col.squeeze then .ofShape sp.2 else (PShape.ofShape sp.2).insertDim0 col.length⟩

/-- trajectory_writer.cc:313-370 `Validate`, with `FlatSignatureFromTrajectory` (114-137). -/
def validateItem (w : TrajWriter) (it : WItem) : Res Unit :=
  match w.sig with
  | none => .ok ()
  | some sig =>
    match sig.get? it.table with
    | none => .err .invalidArgument
    | some none => .ok ()
    | some (some specs) =>
      match it.traj.mapM (w.columnSpec it.refs) with
      | none => .died
      | some got =>
        if specs.length ≠ got.length then .err .invalidArgument
        else if (specs.zip got).all fun p => p.1.accepts p.2 then .ok ()
        else .err .invalidArgument

/-- The item that `CreateItem` makes (trajectory_writer.cc:289, 296-302). -/
def makeItem (w : TrajWriter) (table : String) (priority : Pri) (cols : List TrajCol) : WItem :=
  ⟨w.gen w.drawn, table, priority, cols.map w.toColumn, cols.flatMap TrajCol.refs⟩

/-- trajectory_writer.cc:266-311 `CreateItem`; the result is the key of the item (which the caller does not see). -/
def createItem (w : TrajWriter) (table : String) (priority : Pri) (cols : List TrajCol) : TrajWriter × Res Key :=
  if cols.all fun c => c.refs.isEmpty then (w, .err .invalidArgument)
  else
    match w.unrecoverable with
    | some e => (w, .err e)
    | none =>
      match w.validateColumns cols with
      | .err e => (w, .err e)
      | .died => (w, .died)
      | .ok () =>
        let it := w.makeItem table priority cols
        let w' := { w with drawn := w.drawn + 1 }
        match w'.validateItem it with
        | .err e => (w', .err e)
        | .died => (w', .died)
        | .ok () => ({ w' with queue := w.queue ++ [it] }, .ok it.key)

/-! ### Flush, EndEpisode, ConfigureChunker, Close -/

/-- trajectory_writer.cc:575-579: the references that must become ready. -/
def forceRefs (w : TrajWriter) : List Ref → TrajWriter × Res Unit
  | [] => (w, .ok ())
  | r :: rest =>
    if w.ready r then forceRefs w rest
    else
      match w.chunkers.get? r.col with
      | none => (w, .died)
      | some c =>
        match c.flush with
        | (c', .ok ()) => forceRefs { w with chunkers := w.chunkers.insert r.col c' } rest
        | (c', .err e) => ({ w with chunkers := w.chunkers.insert r.col c' }, .err e)
        | (c', .died) => ({ w with chunkers := w.chunkers.insert r.col c' }, .died)

/-- trajectory_writer.cc:566-580: `FlushLocked(k)` up to the waiting. -/
def force (w : TrajWriter) (k : Int) : TrajWriter × Res Unit :=
  w.forceRefs ((w.queue.take ((w.queue.length : Int) - k).toNat).flatMap WItem.refs)

/-- trajectory_writer.cc:595-606: `num_pending_items`. -/
def numPending (w : TrajWriter) : Int :=
  (w.queue.length : Int) + w.inFlight.length -
    (match w.queue with
      | [] => 0
      | it :: _ => if it.key ∈ w.inFlight then 1 else 0)

/-- trajectory_writer.cc:589-618: the result of `FlushLocked(k)` if it is woken up now; `none` if it goes on waiting (until the
timeout, when the result is `DeadlineExceeded`). -/
def flushResult (w : TrajWriter) (k : Int) : Option (Res Unit) :=
  match w.unrecoverable with
  | some e => some (.err e)
  | none => if w.numPending ≤ k then some (.ok ()) else none

/-- A change of all chunkers, in the order of `is`, up to the first failure (the loops over `chunkers_`,
trajectory_writer.cc:530-532 and 628-641). -/
def onAll (f : Nat → Chunker → Chunker × Res Unit) : List Nat → AMap Nat Chunker → AMap Nat Chunker × Res Unit
  | [], m => (m, .ok ())
  | i :: is, m =>
    match m.get? i with
    | none => onAll f is m
    | some c =>
      match f i c with
      | (c', .ok ()) => onAll f is (m.insert i c')
      | (c', .err e) => (m.insert i c', .err e)
      | (c', .died) => (m.insert i c', .died)

/-- trajectory_writer.cc:628-641: `EndEpisode` after the flush. -/
def endEpisode (w : TrajWriter) (clear : Bool) : TrajWriter × Res Unit :=
  match onAll (fun _ c => if clear then (c.reset, .ok ()) else c.flush) w.chunkers.keys w.chunkers with
  | (m, .err e) => ({ w with
      chunkers := m
      unrecoverable := some e }, .err e)
  | (m, .died) => ({ w with chunkers := m }, .died)
  | (m, .ok ()) => ({ w with
      chunkers := m
      episode := w.gen w.drawn
      drawn := w.drawn + 1
      step := 0 }, .ok ())

/-- trajectory_writer.cc:644-654 `ConfigureChunker`. -/
def configure (w : TrajWriter) (col : Nat) (o : ChunkerOpts) : TrajWriter × Res Unit :=
  match o.validate with
  | .err e => (w, .err e)
  | .died => (w, .died)
  | .ok () =>
    match w.chunkers.get? col with
    | some c => ({ w with chunkers := w.chunkers.insert col (c.applyConfig o.clone).1 }, (c.applyConfig o.clone).2)
    | none => ({ w with overrides := w.overrides.insert col o.clone }, .ok ())

/-! ### The stream worker -/

/-- What the worker's environment decides: does `Write` succeed, is the request too big to wait for the item, the status from
`Finish` (`none` is OK), and the sizes of the chunks (trajectory_writer.cc:75-96, 434-447, 497, 504, 542). -/
structure Input where
  ok : Bool
  big : Bool
  status : Option Code
  bytes : ChunkData → Nat

/-- trajectory_writer.cc:449-474 `GetKeepKeys`. -/
def keepKeys (w : TrajWriter) : List Key :=
  w.streamed.filter fun k =>
    (w.chunkers.entries.any fun e => e.2.keepKeys.contains k) || ((w.queue.drop 1).any fun it => it.refs.any fun r => w.keyOf r = k)

/-- chunker.cc:42-44, 329-342: what `OnItemFinalized` of a chunker sees of the references `ids`; `none` if a chunk is missing. -/
def obsOf (bytes : ChunkData → Nat) (c : Chunker) (ids : List Nat) : Option (List ChunkObs) :=
  ids.mapM fun i => (c.cellAt i).chunk.bind fun ch => (ch.tensors.head?.bind Tensor.dim0).map fun n => ⟨ch.key, n, bytes ch⟩

/-- chunker.cc:329-342 `OnItemFinalized`: the references of the item that the chunker made. (With constant options the code does
not look at them.) -/
def finalizeOne (bytes : ChunkData → Nat) (it : WItem) (i : Nat) (c : Chunker) : Chunker × Res Unit :=
  match obsOf bytes c ((it.refs.filter fun r => r.col = i).map Ref.id) with
  | none => (c, .died)
  | some obs => c.itemFinalized obs

/-- trajectory_writer.cc:75-96: one reference in `SendNotAlreadySentChunks`. -/
def sendChunk (w : TrajWriter) (inp : Input) (it : WItem) (r : Ref) (rest : List Ref) : TrajWriter :=
  match w.chunkOf r with
  | none => { w with phase := .chunks it rest }
  | some ch =>
    if w.keyOf r ∈ w.streamed then { w with phase := .chunks it rest }
    else
      { w with
        streamed := w.streamed ++ [w.keyOf r]
        msgs := if inp.big then w.msgs ++ [⟨w.request ++ [ch], none⟩] else w.msgs
        request := if inp.big ∧ inp.ok then [] else w.request ++ [ch]
        phase := if inp.big ∧ inp.ok = false then .finish else .chunks it rest }

/-- trajectory_writer.cc:508-531: the critical section. -/
def checkItem (w : TrajWriter) (it : WItem) : TrajWriter :=
  if it.refs.all fun r => decide (w.keyOf r ∈ w.streamed) then
    { w with
      inFlight := if it.key ∈ w.inFlight then w.inFlight else w.inFlight ++ [it.key]
      streamed := w.keepKeys
      phase := .finalize it }
  else if it.refs.all fun r => w.ready r then { w with phase := .fetch }
  else { w with phase := .waiting }

/-- The end of a call of `RunStreamWorker`, when the reader has ended as well
(trajectory_writer.cc:476-494). -/
def endStream (w : TrajWriter) : TrajWriter := { w with
  past := w.past ++ [w.msgs]
  msgs := []
  streamed := []
  request := [] }

/-- One step of the worker: the loop at 150-169 and `RunStreamWorker` (476-556). A worker that cannot move stays; a wait for
`data_cv_` may end at any time (trajectory_writer.cc:150-169, 405-447, 476-556). -/
def workerStep (w : TrajWriter) (inp : Input) : TrajWriter × Res Unit :=
  match w.phase with
  | .start =>
    match w.unrecoverable with
    | some e => ({ w with phase := .ended (some e) }, .ok ())
    | none =>
      if w.closed then ({ w with phase := .ended (some .cancelled) }, .ok ())
      else ({ w with
        phase := .fetch
        streamed := []
        request := []
        msgs := [] }, .ok ())
  | .fetch =>
    if w.closed then ({ w with phase := .finish }, .ok ())
    else
      match w.queue with
      | [] => (w, .ok ())
      | it :: _ => ({ w with phase := .chunks it it.refs }, .ok ())
  | .chunks it [] => ({ w with phase := .check it }, .ok ())
  | .chunks it (r :: rest) => (w.sendChunk inp it r rest, .ok ())
  | .check it => (w.checkItem it, .ok ())
  | .waiting => ({ w with phase := .fetch }, .ok ())
  | .finalize it =>
    ({ w with
      chunkers := (onAll (finalizeOne inp.bytes it) w.chunkers.keys w.chunkers).1
      phase := .send it }, (onAll (finalizeOne inp.bytes it) w.chunkers.keys w.chunkers).2)
  | .send it =>
    ({ w with
      msgs := w.msgs ++ [⟨w.request, some (it, w.streamed)⟩]
      request := if inp.ok then [] else w.request
      phase := if inp.ok then .sent else .sendFailed it }, .ok ())
  | .sent => ({ w with
      queue := w.queue.drop 1
      phase := .fetch }, .ok ())
  | .sendFailed it => ({ w with
      inFlight := w.inFlight.filter fun k => k ≠ it.key
      phase := .finish }, .ok ())
  | .finish => ({ w with phase := .ended inp.status }, .ok ())
  | .ended status => (endStream (if w.closed then { w with
      unrecoverable := some .cancelled
      phase := .stopped }
    else
      match status with
      | none => { w with phase := .start }
      | some .unavailable => { w with phase := .start }
      | some e => { w with
          unrecoverable := some e
          phase := .stopped }), .ok ())
  | .stopped => (w, .ok ())

/-! ### All together -/

/-- What can happen. `flushBegin` and `flushEnd` are the parts of `Flush` before and after the waiting, likewise for `EndEpisode`;
`confirm` is a response from the server, handled by the reader (482-490) (trajectory_writer.cc:187-656).
-/
inductive Event where
  | append (data : List (Option Tensor)) (inc : Bool)
  | createItem (table : String) (priority : Pri) (cols : List TrajCol)
  | flushBegin (k : Int)
  | flushEnd (k : Int)
  | episodeBegin
  | episodeEnd (clear : Bool)
  | configure (col : Nat) (o : ChunkerOpts)
  | close
  | worker (inp : Input)
  | confirm (keys : List Key)

/-- What the caller gets (trajectory_writer.cc:187-656). -/
inductive Reply where
  | done
  | refs (refs : List (Option Ref))
  | item (key : Key)
  | waiting
  deriving DecidableEq, Repr

/-- The reply for a result (model only: the statuses returned in trajectory_writer.cc:187-656). -/
def Reply.of {α : Type} (f : α → Reply) : Res α → Res Reply
  | .ok a => .ok (f a)
  | .err e => .err e
  | .died => .died

/-- One event (model only: dispatches to trajectory_writer.cc:187-656). -/
def handle (w : TrajWriter) : Event → TrajWriter × Res Reply
  | .append data inc => ((w.append data inc).1, Reply.of .refs (w.append data inc).2)
  | .createItem t p cols => ((w.createItem t p cols).1, Reply.of .item (w.createItem t p cols).2)
  | .flushBegin k => ((w.force k).1, Reply.of (fun _ => .waiting) (w.force k).2)
  | .flushEnd k =>
    match w.flushResult k with
    | none => (w, .ok .waiting)
    | some r => (w, Reply.of (fun _ => .done) r)
  | .episodeBegin =>
    match w.unrecoverable with
    | some e => (w, .err e)
    | none => ((w.force 0).1, Reply.of (fun _ => .waiting) (w.force 0).2)
  | .episodeEnd clear =>
    match w.flushResult 0 with
    | none => (w, .ok .waiting)
    | some (.ok ()) => ((w.endEpisode clear).1, Reply.of (fun _ => .done) (w.endEpisode clear).2)
    | some r => (w, Reply.of (fun _ => .done) r)
  | .configure col o => ((w.configure col o).1, Reply.of (fun _ => .done) (w.configure col o).2)
  | .close => ({ w with closed := true }, .ok .done)
  | .worker inp => ((w.workerStep inp).1, Reply.of (fun _ => .done) (w.workerStep inp).2)
  | .confirm keys => ({ w with inFlight := w.inFlight.filter fun k => k ∉ keys }, .ok .done)

/-- The state after some events (model only: trajectory_writer.cc:187-656, every block that holds `mu_`
and every step of the worker being one event). -/
def run (w : TrajWriter) (evs : List Event) : TrajWriter := evs.foldl (fun w e => (w.handle e).1) w

end TrajWriter
end Verif
