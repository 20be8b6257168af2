import Verif.Model.InsertStream
import Verif.Model.NewSampler
/-
Model of the old `Writer`: writer.cc and writer.h. The user calls one method after the other. The thread that reads the confirmations
only changes `num_items_in_flight_` and `item_confirmation_worker_running_`, which the methods look at in `ConfirmItems` and
`StopItemConfirmationWorker`; what it has done is told at these places. Integers do not overflow, and `chunk_length` and
`max_timesteps` are not negative. The compression of tensors is lossless and left out.
-/
namespace Verif

/-- What a call gets from outside, in the order in which it asks for it (writer.cc:451-543, 583-625: the
stream and its confirmations). -/
inductive Answer where
  /-- `stream_->Write` returns -/
  | write (ok : Bool)
  /-- while the call waits for the thread that reads confirmations, the thread reads `n` keys in all; `dead` if then a `Read` fails -/
  | confirms (n : Nat) (dead : Bool)
  /-- `stream_->Finish` returns, with `none` for OK -/
  | finish (status : Option Code)
  deriving DecidableEq, Repr

/-- How a call ends: it returns, it is still waiting when all answers are used, or the process dies
(writer.cc:81-450). -/
inductive Ret (α : Type) where
  | ret (a : α)
  | blocked
  | died
  deriving DecidableEq, Repr

/-- writer.h `Writer`. `gen` are the keys that `NewID` returns and `drawn` their number; `big` tells whether a request with these chunks
has `kMaxRequestSizeBytes`. `pending` has items without references. `stream` tells whether `stream_` is set and `half` whether
`WritesDone` was called on it. `msgs` are the requests given to `Write` on the current stream and `past` those of the earlier streams,
and `sent` the items with which a `Write` returned true; `written` is the number of those written to the current stream, and `acks` the number
of keys read from it. These five are a record and not read (writer.h:47-245). -/
structure Writer where
  chunkLength : Nat
  maxTimesteps : Nat
  delta : Bool
  maxInFlight : Option Int
  sigs : Option Signatures
  gen : Nat → Key
  big : List ChunkData → Bool
  drawn : Nat
  inFlight : Int
  running : Bool
  pending : List WItem
  buffer : List (List Tensor)
  chunks : List ChunkData
  streamed : List Key
  nextKey : Key
  episode : Key
  index : Int
  closed : Bool
  ring : List (Option (List TensorSpec))
  loc : Nat
  stream : Bool
  half : Bool
  msgs : List Msg
  past : List (List Msg)
  sent : List WItem
  written : Nat
  acks : Nat

/-- writer.cc:46-56 `PositiveModulo`. -/
def positiveModulo (value divisor : Int) : Int :=
  if divisor = 0 then value
  else if decide (0 < value) = decide (0 < divisor) then value.tmod divisor
  else (value.tmod divisor + divisor).tmod divisor

/-- writer.cc:248-249: the length of a chunk, from its range. -/
def ChunkData.rangeLength (c : ChunkData) : Int :=
  match c.range with
  | none => 1
  | some r => r.end_ - r.start + 1

/-- writer.cc:96-99: type and shape of a tensor. -/
def Tensor.spec (t : Tensor) : TensorSpec := ⟨t.dtype, .ofShape t.shape⟩

/-- writer.cc:188-224: do the tensors of one step fit the signature? -/
def stepFits (want got : List TensorSpec) : Bool :=
  got.length == want.length && (want.zip got).all fun p => p.1.accepts p.2

/-- writer.cc:394-415: one column of the chunk. -/
def batchColumn (buffer : List (List Tensor)) (i : Nat) : Res Tensor :=
  match buffer.mapM (·[i]?) with
  | none => .died
  | some ts =>
    if ts.any (fun t => decide (some t.shape ≠ ts.head?.map Tensor.shape)) then .err .invalidArgument
    else Tensor.concat (ts.map Tensor.addBatchDim)

/-- writer.cc:394-415: the columns, one after the other. -/
def batchColumns (buffer : List (List Tensor)) : List Nat → Res (List Tensor)
  | [] => .ok []
  | i :: is =>
    match batchColumn buffer i with
    | .err e => .err e
    | .died => .died
    | .ok t =>
      match batchColumns buffer is with
      | .err e => .err e
      | .died => .died
      | .ok ts => .ok (t :: ts)

/-- writer.cc:245-252: the chunks that are needed, from the newest on, with their lengths, and what is left of `remaining`. -/
def coverBack : List ChunkData → Int → List (Key × Int) × Int
  | [], r => ([], r)
  | c :: cs, r =>
    if 0 < r then
      let rest := coverBack cs (r - c.rangeLength)
      ((c.key, c.rangeLength) :: rest.1, rest.2)
    else ([], r)

/-- writer.cc:441-444: old chunks are dropped. With no chunk left the subtraction wraps around; this needs `max_timesteps_` to be zero and
is left out. -/
def evict (chunkLength maxTimesteps : Nat) : List ChunkData → List Key → List ChunkData × List Key
  | [], streamed => ([], streamed)
  | c :: cs, streamed =>
    if maxTimesteps ≤ cs.length * chunkLength then evict chunkLength maxTimesteps cs (streamed.filter (· ≠ c.key))
    else (c :: cs, streamed)

namespace Writer

/-- writer.cc:60-75: the constructor. -/
def new (chunkLength maxTimesteps : Nat) (delta : Bool) (maxInFlight : Option Int) (sigs : Option Signatures) (gen : Nat → Key)
    (big : List ChunkData → Bool) : Writer :=
  ⟨chunkLength, maxTimesteps, delta, maxInFlight, sigs, gen, big, 2, 0, false, [], [], [], [], gen 0, gen 1, 0, false,
    List.replicate maxTimesteps none, 0, false, false, [], [], [], 0, 0⟩

/-- writer.cc:583-609 `ItemConfirmationWorker`: `n` keys are read. -/
def confirmed (w : Writer) (n : Nat) : Writer :=
  { w with
    inFlight := w.inFlight - n
    acks := w.acks + n }

/-- writer.cc:549-556 `ConfirmItems`. -/
def confirmItems (limit : Int) : List Answer → Writer → Writer × Ret Bool × List Answer
  | [], w =>
    if w.inFlight ≤ limit then (w, .ret true, [])
    else if w.running = false then (w, .ret false, [])
    else (w, .blocked, [])
  | a :: as, w =>
    if w.inFlight ≤ limit then (w, .ret true, a :: as)
    else if w.running = false then (w, .ret false, a :: as)
    else
      match a with
      | .confirms n dead =>
        confirmItems limit as { w.confirmed n with running := !dead }
      | _ => (w, .blocked, a :: as)

/-- writer.cc:319-330: the end of `StopItemConfirmationWorker`. -/
def stopped (w : Writer) : Writer × Option Code :=
  if 0 < w.inFlight then ({ w with running := false }, some .dataLoss)
  else ({ w with
    running := false
    inFlight := 0 }, none)

/-- writer.cc:307-330 `StopItemConfirmationWorker`. A thread that waits for items to be sent (583-601) ends at once, one in `Read` when that
returns. -/
def stopWorker (w : Writer) (as : List Answer) : Writer × Ret (Option Code) × List Answer :=
  if w.maxInFlight = none then (w, .ret none, as)
  else if w.running = false then (w.stopped.1, .ret w.stopped.2, as)
  else
    match as with
    | .confirms n _ :: as =>
      ((w.confirmed n).stopped.1, .ret (w.confirmed n).stopped.2, as)
    | as => if 0 < w.inFlight then (w, .blocked, as) else (w.stopped.1, .ret w.stopped.2, as)

/-- writer.cc:478-483 and 333-353 `StartItemConfirmationWorker`; `none` is a failed check. -/
def openStream (w : Writer) : Option Writer :=
  if w.stream then some w
  else if w.maxInFlight = none then some { w with
    streamed := []
    stream := true }
  else if w.inFlight ≠ 0 ∨ w.running = true then none
  else some { w with
    streamed := []
    stream := true
    running := true }

/-- writer.cc:457: the stream is given up. -/
def dropStream (w : Writer) : Writer :=
  { w with
    stream := false
    half := false
    past := w.past ++ [w.msgs]
    msgs := []
    written := 0
    acks := 0 }

/-- `stream_->Write`. After `WritesDone` this is a wrong use of gRPC and nothing is sent (gRPC may even
abort the process) (writer.cc:507-508, 530). -/
def write (w : Writer) (m : Msg) (as : List Answer) : Writer × Ret Bool × List Answer :=
  if w.half then (w, .ret false, as)
  else
    match as with
    | .write ok :: as => ({ w with msgs := w.msgs ++ [m] }, .ret ok, as)
    | as => ({ w with msgs := w.msgs ++ [m] }, .blocked, as)

/-- writer.cc:500-519: the chunks. Returns the request and the keys to keep, or `none` for a failed `Write`. -/
def sendChunks (need : List Key) : List ChunkData → List ChunkData → List Key → Writer → List Answer →
    Writer × Ret (Option (List ChunkData × List Key)) × List Answer
  | [], req, keep, w, as => (w, .ret (some (req, keep)), as)
  | c :: cs, req, keep, w, as =>
    if c.key ∈ need ∧ c.key ∉ w.streamed then
      if w.big (req ++ [c]) then
        match w.write ⟨req ++ [c], none⟩ as with
        | (w1, .ret true, as1) =>
          sendChunks need cs [] (keep ++ [c.key]) { w1 with streamed := w1.streamed ++ (req ++ [c]).map ChunkData.key } as1
        | (w1, .ret false, as1) => (w1, .ret none, as1)
        | (w1, .blocked, as1) => (w1, .blocked, as1)
        | (w1, .died, as1) => (w1, .died, as1)
      else sendChunks need cs (req ++ [c]) (keep ++ [c.key]) w as
    else if c.key ∈ w.streamed then sendChunks need cs req (keep ++ [c.key]) w as
    else sendChunks need cs req keep w as

/-- writer.cc:521-524: is there room for another item? -/
def awaitRoom (w : Writer) (as : List Answer) : Writer × Ret Bool × List Answer :=
  match w.maxInFlight with
  | none => (w, .ret true, as)
  | some m => confirmItems (m - 1) as w

/-- writer.cc:532-539: after the item was written. -/
def itemSent (w : Writer) (req : List ChunkData) (rest : List WItem) : Writer :=
  { w with
    streamed := w.streamed ++ req.map ChunkData.key
    pending := rest
    inFlight := if w.maxInFlight = none then w.inFlight else w.inFlight + 1
    sent := w.sent ++ w.pending.head?.toList
    written := w.written + 1 }

/-- writer.cc:520-540: the pending items, which are given. The chunks stay in the request. -/
def sendItems (req : List ChunkData) (keep : List Key) : List WItem → Writer → List Answer → Writer × Ret Bool × List Answer
  | [], w, as => (w, .ret true, as)
  | it :: rest, w, as =>
    match w.awaitRoom as with
    | (w1, .ret true, as1) =>
      match w1.write ⟨req, some (it, keep)⟩ as1 with
      | (w2, .ret true, as2) => sendItems req keep rest (w2.itemSent req rest) as2
      | (w2, .ret false, as2) => (w2, .ret false, as2)
      | (w2, .blocked, as2) => (w2, .blocked, as2)
      | (w2, .died, as2) => (w2, .died, as2)
    | (w1, .ret false, as1) => (w1, .ret false, as1)
    | (w1, .blocked, as1) => (w1, .blocked, as1)
    | (w1, .died, as1) => (w1, .died, as1)

/-- writer.cc:464-543 `WritePendingData`. -/
def writePending (w : Writer) (as : List Answer) : Writer × Ret Bool × List Answer :=
  match w.openStream with
  | none => (w, .died, as)
  | some w1 =>
    match sendChunks (w1.pending.flatMap fun it => getChunkKeys it.traj) w1.chunks [] [] w1 as with
    | (w2, .ret (some (req, keep)), as2) => sendItems req keep w2.pending w2 as2
    | (w2, .ret none, as2) => (w2, .ret false, as2)
    | (w2, .blocked, as2) => (w2, .blocked, as2)
    | (w2, .died, as2) => (w2, .died, as2)

/-- writer.cc:451-462 `WriteWithRetries`. Every round but the last takes an answer, so as many rounds as there are answers and one more are
enough. -/
def writeRounds (retry : Bool) : Nat → Writer → List Answer → Writer × Ret (Option Code) × List Answer
  | 0, w, as => (w, .blocked, as)
  | rounds + 1, w, as =>
    match w.writePending as with
    | (w1, .ret true, as1) => (w1, .ret none, as1)
    | (w1, .ret false, as1) =>
      match ({ w1 with half := true }).stopWorker as1 with
      | (w2, .ret none, as2) =>
        match as2 with
        | .finish status :: as3 =>
          if status = some Code.unavailable ∧ retry = true then writeRounds retry rounds w2.dropStream as3
          else (w2.dropStream, .ret status, as3)
        | as3 => (w2, .blocked, as3)
      | (w2, .ret (some e), as2) => (w2, .ret (some e), as2)
      | (w2, .blocked, as2) => (w2, .blocked, as2)
      | (w2, .died, as2) => (w2, .died, as2)
    | (w1, .blocked, as1) => (w1, .blocked, as1)
    | (w1, .died, as1) => (w1, .died, as1)

/-- writer.cc:451-462 `WriteWithRetries`. -/
def writeWithRetries (w : Writer) (retry : Bool) (as : List Answer) : Writer × Ret (Option Code) × List Answer :=
  writeRounds retry (as.length + 1) w as

/-- writer.cc:393-432: the chunk made of the buffer; `buffer_[0]` of an empty buffer is undefined. -/
def makeChunk (w : Writer) : Res ChunkData :=
  match w.buffer with
  | [] => .died
  | first :: _ =>
    match batchColumns w.buffer (List.range first.length) with
    | .err e => .err e
    | .died => .died
    | .ok ts =>
      match (if w.delta then Tensor.deltaEncodeList ts true else .ok ts) with
      | .err e => .err e
      | .died => .died
      | .ok ts => .ok ⟨w.nextKey, some ⟨w.episode, w.index, w.index + w.buffer.length - 1, false⟩, ts, w.delta⟩

/-- writer.cc:437-444: after the chunk was made and all items were sent. -/
def finished (w : Writer) : Writer :=
  { w with
    index := w.index + w.buffer.length
    buffer := []
    nextKey := w.gen w.drawn
    drawn := w.drawn + 1
    chunks := (evict w.chunkLength w.maxTimesteps w.chunks w.streamed).1
    streamed := (evict w.chunkLength w.maxTimesteps w.chunks w.streamed).2 }

/-- writer.cc:392-449 `Finish`. -/
def finish (w : Writer) (retry : Bool) (as : List Answer) : Writer × Ret (Option Code) × List Answer :=
  match w.makeChunk with
  | .died => (w, .died, as)
  | .err e => (w, .ret (some e), as)
  | .ok ch =>
    match ({ w with chunks := w.chunks ++ [ch] }).writeWithRetries retry as with
    | (w1, .ret none, as1) => (w1.finished, .ret none, as1)
    | (w1, .ret (some e), as1) => ({ w1 with chunks := w1.chunks.dropLast }, .ret (some e), as1)
    | (w1, .blocked, as1) => (w1, .blocked, as1)
    | (w1, .died, as1) => (w1, .died, as1)

/-- writer.cc:93-105: the step is put into the buffer, and its types and shapes into the ring. -/
def push (w : Writer) (data : List Tensor) : Writer :=
  { w with
    ring := w.ring.set w.loc (some (data.map Tensor.spec))
    loc := (w.loc + 1) % w.maxTimesteps
    buffer := w.buffer ++ [data] }

/-- writer.cc:109-116: this is undone; `old` is what was in the ring before. -/
def unpush (w : Writer) (old : Option (List TensorSpec)) : Writer :=
  { w with
    buffer := w.buffer.dropLast
    loc := (positiveModulo (w.loc - 1) w.maxTimesteps).toNat
    ring := w.ring.set (positiveModulo (w.loc - 1) w.maxTimesteps).toNat old }

/-- writer.cc:81-118 `Append`. With `max_timesteps_` zero the ring is accessed out of range. -/
def append (w : Writer) (data : List Tensor) (as : List Answer) : Writer × Ret (Option Code) × List Answer :=
  if w.closed then (w, .ret (some .failedPrecondition), as)
  else if w.buffer.head?.any (fun b => b.length != data.length) then (w, .ret (some .invalidArgument), as)
  else if w.maxTimesteps = 0 then (w, .died, as)
  else if (w.push data).buffer.length < w.chunkLength then (w.push data, .ret none, as)
  else
    match (w.push data).finish true as with
    | (w1, .ret (some e), as1) => (w1.unpush (w.ring.getD w.loc none), .ret (some e), as1)
    | (w1, .ret none, as1) => (w1, .ret none, as1)
    | (w1, .blocked, as1) => (w1, .blocked, as1)
    | (w1, .died, as1) => (w1, .died, as1)

/-- writer.cc:141-145: row `i` of a column; `none` is a failed check of TensorFlow. A copy that is aligned has the same contents. -/
def _root_.Verif.Tensor.row? (t : Tensor) (i : Nat) : Option Tensor :=
  match t.subSlice i with
  | .ok u => some u
  | _ => none

/-- writer.cc:137-148: the rows of a sequence are appended, beginning with row `i`, until one fails. -/
def appendRows (seq : List Tensor) (i : Nat) : Nat → Writer → List Answer → Writer × Ret (Option Code) × List Answer
  | 0, w, as => (w, .ret none, as)
  | n + 1, w, as =>
    match seq.mapM (·.row? i) with
    | none => (w, .died, as)
    | some step =>
      match w.append step as with
      | (w1, .ret none, as1) => appendRows seq (i + 1) n w1 as1
      | (w1, .ret (some e), as1) => (w1, .ret (some e), as1)
      | (w1, .blocked, as1) => (w1, .blocked, as1)
      | (w1, .died, as1) => (w1, .died, as1)

/-- writer.cc:120-151 `AppendSequence`. -/
def appendSequence (w : Writer) (seq : List Tensor) (as : List Answer) : Writer × Ret (Option Code) × List Answer :=
  match seq with
  | [] => (w, .ret (some .invalidArgument), as)
  | first :: _ =>
    if seq.any (fun t => t.shape.isEmpty || t.shape.head? != first.shape.head?) then (w, .ret (some .invalidArgument), as)
    else appendRows seq 0 (first.shape.headD 0) w as

/-- writer.cc:558-581 `GetFlatSignature`. -/
def signature (w : Writer) (table : String) : Res (Option (List TensorSpec)) :=
  match w.sigs with
  | none => .ok none
  | some s =>
    match s.get? table with
    | none => .err .invalidArgument
    | some sig => .ok sig

/-- writer.cc:176-179: what the ring has about the step `t` steps before the last one. -/
def specAt (w : Writer) (t : Nat) : Option (List TensorSpec) :=
  w.ring.getD (positiveModulo ((w.loc : Int) - 1 - t) w.maxTimesteps).toNat none

/-- writer.cc:173-225: the last steps are compared with the signature, from step `t` on. -/
def checkSteps (w : Writer) (want : List TensorSpec) (t : Nat) : Nat → Res Unit
  | 0 => .ok ()
  | n + 1 =>
    match w.specAt t with
    | none => .err .internal
    | some got => if stepFits want got then checkSteps w want (t + 1) n else .err .invalidArgument

/-- writer.cc:169-226. -/
def checkSignature (w : Writer) (table : String) (n : Nat) : Res Unit :=
  match w.signature table with
  | .err e => .err e
  | .died => .died
  | .ok none => .ok ()
  | .ok (some want) => w.checkSteps want 0 n

/-- writer.cc:260-261: the number of columns; `none` if `chunks_.front()` is accessed although there is none. -/
def numColumns (w : Writer) : Option Nat :=
  match w.buffer with
  | b :: _ => some b.length
  | [] => w.chunks.head?.map fun c => c.tensors.length

/-- writer.cc:233-263: the trajectory of an item; `none` is a failed check or the access above. -/
def trajectory (w : Writer) (n : Int) : Option FlatTraj :=
  match w.numColumns with
  | none => none
  | some cols =>
    let r := coverBack w.chunks.reverse (n - w.buffer.length)
    flatTimestepTrajectory (r.1.reverse ++ if w.buffer = [] then [] else [(w.nextKey, (w.buffer.length : Int))]) cols (-r.2) n

/-- writer.cc:228-265: a new item is pending. -/
def pushItem (w : Writer) (table : String) (priority : Pri) (traj : FlatTraj) : Writer :=
  { w with
    drawn := w.drawn + 1
    pending := w.pending ++ [⟨w.gen w.drawn, table, priority, traj, []⟩] }

/-- writer.cc:153-274 `CreateItem`. The first comparison is one of unsigned numbers, so that negative `n` are refused. -/
def createItem (w : Writer) (table : String) (n : Int) (priority : Pri) (as : List Answer) :
    Writer × Ret (Option Code) × List Answer :=
  if w.closed then (w, .ret (some .failedPrecondition), as)
  else if n < 0 ∨ ((w.chunks.length * w.chunkLength + w.buffer.length : Nat) : Int) < n then (w, .ret (some .invalidArgument), as)
  else if (w.maxTimesteps : Int) < n then (w, .ret (some .invalidArgument), as)
  else
    match w.checkSignature table n.toNat with
    | .err e => (w, .ret (some e), as)
    | .died => (w, .died, as)
    | .ok () =>
      match w.trajectory n with
      | none => (w, .died, as)
      | some traj =>
        if w.buffer = [] then
          match (w.pushItem table priority traj).writeWithRetries true as with
          | (w1, .ret (some e), as1) => ({ w1 with pending := w1.pending.dropLast }, .ret (some e), as1)
          | (w1, .ret none, as1) => (w1, .ret none, as1)
          | (w1, .blocked, as1) => (w1, .blocked, as1)
          | (w1, .died, as1) => (w1, .died, as1)
        else (w.pushItem table priority traj, .ret none, as)

/-- writer.cc:276-290 `Flush`. -/
def flush (w : Writer) (as : List Answer) : Writer × Ret (Option Code) × List Answer :=
  if w.closed then (w, .ret (some .failedPrecondition), as)
  else if w.pending ≠ [] then w.finish true as
  else
    match confirmItems 0 as w with
    | (w1, .ret true, as1) => (w1, .ret none, as1)
    | (w1, .ret false, as1) => (w1, .ret (some .internal), as1)
    | (w1, .blocked, as1) => (w1, .blocked, as1)
    | (w1, .died, as1) => (w1, .died, as1)

/-- writer.cc:387-389: the end of `Close`. -/
def closeEnd (w : Writer) : Writer :=
  { w with
    chunks := []
    closed := true }

/-- writer.cc:372-389: the stream is closed. What goes wrong is only logged. -/
def closeStream (w : Writer) (as : List Answer) : Writer × Ret (Option Code) × List Answer :=
  if w.stream = false then (w.closeEnd, .ret none, as)
  else
    match confirmItems 0 as { w with half := true } with
    | (w1, .ret _, as1) =>
      match w1.stopWorker as1 with
      | (w2, .ret _, .finish _ :: as2) => (w2.dropStream.closeEnd, .ret none, as2)
      | (w2, .died, as2) => (w2, .died, as2)
      | (w2, _, as2) => (w2, .blocked, as2)
    | (w1, .blocked, as1) => (w1, .blocked, as1)
    | (w1, .died, as1) => (w1, .died, as1)

/-- writer.cc:355-390 `Close`. -/
def close (w : Writer) (retry : Bool) (as : List Answer) : Writer × Ret (Option Code) × List Answer :=
  if w.closed then (w, .ret (some .failedPrecondition), as)
  else if w.pending = [] then w.closeStream as
  else
    match w.finish retry as with
    | (w1, .ret none, as1) => w1.closeStream as1
    | (w1, .ret (some e), as1) =>
      if e = .unavailable ∧ retry = false then w1.closeStream as1 else (w1, .ret (some e), as1)
    | (w1, .blocked, as1) => (w1, .blocked, as1)
    | (w1, .died, as1) => (w1, .died, as1)

/-- The calls of a user. `AppendSequence` is left out here, see `C74` (writer.h:60-130). -/
inductive Call where
  | append (data : List Tensor)
  | createItem (table : String) (n : Int) (priority : Pri)
  | flush
  | close (retry : Bool)
  deriving DecidableEq

/-- One call (writer.cc:81-450). -/
def call (w : Writer) (c : Call) (as : List Answer) : Writer × Ret (Option Code) × List Answer :=
  match c with
  | .append data => w.append data as
  | .createItem table n p => w.createItem table n p as
  | .flush => w.flush as
  | .close retry => w.close retry as

/-- Several calls, each with the answers it gets; `none` if one does not return (model only), writer.cc:81-450. -/
def run (w : Writer) : List (Call × List Answer) → Option Writer
  | [] => some w
  | (c, as) :: rest =>
    match w.call c as with
    | (w', .ret _, _) => w'.run rest
    | _ => none

end Writer
end Verif
