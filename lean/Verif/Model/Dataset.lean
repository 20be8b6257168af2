import Verif.Model.NewSampler
/-
Model of the dataset ops: reverb/cc/ops/dataset.cc, timestep_dataset.cc and trajectory_dataset.cc. An iterator calls its sampler and
is called by one thread at a time (sampler.h:172-173 asks for that); its context can be cancelled at any time. The cancellation manager
is that of TensorFlow: when it is cancelled it runs the registered callbacks, one after the other; no callback can be registered then,
and one that is removed meanwhile is waited for. It is the same manager for all calls of an iterator. Serialisation of the graph is
only modelled as far as the options are concerned; `InputDatasets`, `CheckExternalState`, `SaveInternal`, the traces and the log
messages are not modelled.
-/
namespace Verif

/-- The ops (dataset.cc:38-49, timestep_dataset.cc:36-45, trajectory_dataset.cc:36-45). -/
inductive DatasetKind where
  /-- timestep_dataset.cc -/
  | timestep
  /-- trajectory_dataset.cc -/
  | trajectory
  /-- dataset.cc: `emit_timesteps` and `sequence_length` -/
  | reverb (emit : Bool) (length : Int)
  deriving DecidableEq, Repr

/-- timestep_dataset.cc:292, trajectory_dataset.cc:288, dataset.cc:353 and 374: what is called. -/
def DatasetKind.call : DatasetKind → SampleCall
  | .timestep => .timestep
  | .trajectory => .trajectory
  | .reverb true _ => .timestep
  | .reverb false _ => .batched

/-- The attributes of an op (dataset.cc:38-49). -/
structure DatasetAttrs where
  kind : DatasetKind
  inFlight : Int
  numWorkers : Int
  perStream : Int
  timeoutMs : Int
  flexible : Int
  /-- `dtypes` and `shapes` -/
  specs : List TensorSpec

namespace DatasetAttrs

/-- timestep_dataset.cc:104-121 (the same in the other ops): `max_samples` keeps its default value, which is unlimited. -/
def options (a : DatasetAttrs) : SamplerOptions :=
  ⟨SamplerOptions.unlimited, a.inFlight, a.numWorkers, a.perStream, fromMillis a.timeoutMs, a.flexible⟩

/-- `PartialTensorShape::dim_size(0)`: −1 if the rank or the dimension is unknown (used in
dataset.cc:148). -/
def dim0 : PShape → Int
  | none => -1
  | some [] => -1
  | some (none :: _) => -1
  | some (some n :: _) => n

/-- dataset.cc:138-156: the check of one shape. -/
def shapeFits (length : Int) (s : PShape) : Bool := decide (s ≠ some [] ∧ dim0 s = length)

/-- timestep_dataset.cc:123 and dataset.cc:138-158: the constructor of the op. `none` is OK. -/
def check (a : DatasetAttrs) : Option Code :=
  match a.kind with
  | .reverb false length => if a.specs.all (fun w => shapeFits length w.shape) then a.options.validate else some .invalidArgument
  | _ => a.options.validate

/-- `PartialTensorShape::RemoveDim(0)`, which keeps an unknown rank (used in dataset.cc:311). -/
def dropDim : PShape → PShape
  | none => none
  | some l => some l.tail

/-- dataset.cc:307-312: the shapes that are validated; the other ops use those of the op. -/
def validated (a : DatasetAttrs) : List TensorSpec :=
  match a.kind with
  | .reverb false _ => a.specs.map fun w => ⟨w.dtype, dropDim w.shape⟩
  | _ => a.specs

/-- dataset.cc:302-335 (timestep_dataset.cc:253-275 the same) `Initialize`: the output spec of the sampler. When the signatures come too
late, the second `NewSampler` does not wait for them. -/
def outputSpec (a : DatasetAttrs) (cached : Option Signatures) (server : Res Signatures) (table : String) :
    Res (Option (List TensorSpec)) :=
  match newSamplerChecked (fetchSignatures cached false server) table a.validated with
  | .err e => if e = .deadlineExceeded then .ok (newSamplerSpec (fetchSignatures cached true server) table) else .err e
  | r => r

/-- dataset.cc:251-254 (timestep_dataset.cc:209-212 the same): the attribute that the graph of the dataset gets for the timeout. -/
def graphTimeout (a : DatasetAttrs) : Int := toMillis a.options.timeout

/-- dataset.cc:227-281 (timestep_dataset.cc:187-235 the same) `AsGraphDefInternal`: the attributes of the op in the graph. -/
def graph (a : DatasetAttrs) : DatasetAttrs := { a with
  inFlight := a.options.inFlight
  numWorkers := a.options.numWorkers
  perStream := a.options.perStream
  flexible := a.options.flexible
  timeoutMs := a.graphTimeout }

end DatasetAttrs

/-- The constants of an iterator (dataset.cc:413-425). -/
structure DatasetCfg where
  kind : DatasetKind
  sampler : SamplerCfg

/-- A new iterator, from the constructor of the op to the end of `Initialize`. `localDefault` is as in
`SamplerCfg.make` (dataset.cc:116-174 and 286-335). -/
def DatasetCfg.make (a : DatasetAttrs) (cached : Option Signatures) (server : Res Signatures) (table : String) (localDefault : Option Int) :
    Res DatasetCfg :=
  match a.check with
  | some e => .err e
  | none =>
    match a.outputSpec cached server table with
    | .err e => .err e
    | .died => .died
    | .ok spec =>
      match SamplerCfg.make a.options table localDefault spec with
      | .err e => .err e
      | .died => .died
      | .ok c => .ok ⟨a.kind, c⟩

/-- What a call of `GetNext` returns (dataset.cc:337-394). -/
inductive IterOut where
  /-- OK, and `end_of_sequence` is false -/
  | element (o : SampleOut)
  /-- OK, and `end_of_sequence` is true -/
  | endOfSequence
  | error (c : Code)
  deriving DecidableEq, Repr

/-- Where `GetNextInternal` is (timestep_dataset.cc:277-311). -/
inductive IterPhase where
  /-- there is no call -/
  | idle
  /-- timestep_dataset.cc:287: in `Close`, since no callback could be registered -/
  | closing
  /-- timestep_dataset.cc:292: in the call of the sampler; was a callback registered? -/
  | calling (registered : Bool)
  /-- timestep_dataset.cc:295: the call of the sampler has returned -/
  | leaving (registered : Bool) (o : SampleOut)
  deriving DecidableEq

/-- The state of the cancellation manager (TensorFlow code, used in dataset.cc:343-348 and 378-381). -/
inductive Cancellation where
  | no
  /-- the callbacks are running -/
  | running
  | done
  deriving DecidableEq

/-- An iterator (dataset.cc:413-425). -/
structure DataIter where
  sampler : ClientSampler
  /-- by worker: has the last status that the stream of the worker ended with, or the table gave it, the message of the rate limiter? -/
  messages : List Bool
  /-- has `worker_status_` of the sampler the message of the rate limiter? -/
  limiter : Bool
  /-- `step_within_sample_` -/
  step : Int
  phase : IterPhase
  manager : Cancellation
  /-- the number of callbacks in the cancellation manager -/
  callbacks : Nat
  /-- history: what the calls have returned -/
  log : List IterOut

namespace DataIter

/-- A new iterator (dataset.cc:286-300). -/
def init (c : DatasetCfg) (now : Int) : DataIter :=
  ⟨.init c.sampler now, List.replicate c.sampler.workers false, false, 0, .idle, .no, 0, []⟩

/-- The call of the sampler begins (dataset.cc:353 and 374). -/
def begin (c : DatasetCfg) (d : DataIter) (registered : Bool) : Option DataIter :=
  match ClientSampler.step c.sampler d.sampler (.call 0 c.kind.call) with
  | none => none
  | some v => some { d with
      sampler := v
      phase := .calling registered }

/-- timestep_dataset.cc:277-293 `GetNextInternal` is called: up to the call of the sampler, or to its `Close`. -/
def next (c : DatasetCfg) (d : DataIter) : Option DataIter :=
  match d.phase with
  | .idle =>
    if d.manager = .no then
      match begin c d true with
      | none => none
      | some d => some { d with callbacks := d.callbacks + 1 }
    else if d.sampler.closed then begin c d false
    else
      match ClientSampler.step c.sampler d.sampler .close with
      | none => none
      | some v => some { d with
          sampler := v
          phase := .closing }
  | _ => none

/-- timestep_dataset.cc:287-293: `Close` has returned. -/
def closed (c : DatasetCfg) (d : DataIter) : Option DataIter :=
  match d.phase with
  | .closing => if d.sampler.closing = .done then begin c d false else none
  | _ => none

/-- The context is cancelled. The callbacks call `Close` of the sampler (dataset.cc:345). -/
def cancel (c : DatasetCfg) (d : DataIter) : Option DataIter :=
  if d.manager = .no then
    if d.callbacks = 0 then some { d with manager := .done }
    else
      match ClientSampler.step c.sampler d.sampler .close with
      | none => none
      | some v => some { d with
          sampler := v
          manager := .running }
  else none

/-- The callbacks have returned (dataset.cc:345). -/
def cancelled (d : DataIter) : Option DataIter :=
  if d.manager = .running ∧ d.sampler.closing = .done then some { d with manager := .done } else none

/-- The message of the status that an event gives a worker, if it is about one: that of a stream that ends, or of a call of the table that
fails. Statuses that the workers make themselves are never `DeadlineExceeded`. `message` is for `Finish`
after a failed `Write` (sampler.cc:223, 230 and 350, errors.cc:25-37). -/
def messageOf (e : ClientSampler.Event) (message : Bool) : Option (Nat × Bool) :=
  match e with
  | .write i (some _) => some (i, message)
  | .streamEnd i _ limiter => some (i, limiter)
  | .answer i (.err _) => some (i, true)
  | _ => none

/-- Which worker took the step? (sampler.cc:665-702). -/
def workerOf (e : ClientSampler.Event) : Option Nat :=
  match e with
  | .work i => some i
  | _ => none

/-- The message that `worker_status_` has after a step of the sampler (sampler.cc:694-697). -/
def newLimiter (d : DataIter) (e : ClientSampler.Event) (v : ClientSampler) : Bool :=
  match workerOf e with
  | some i => if d.sampler.status = none ∧ v.status ≠ none then d.messages.getD i false else d.limiter
  | none => d.limiter

/-- A step of the sampler or around it, without calls and `Close` (sampler.cc:195-283, 322-394 and
507-702). -/
def inside (c : DatasetCfg) (d : DataIter) (e : ClientSampler.Event) (message : Bool) : Option DataIter :=
  match e with
  | .call _ _ => none
  | .close => none
  | .finish 0 =>
    match d.phase with
    | .calling registered =>
      match ClientSampler.step c.sampler d.sampler e with
      | none => none
      | some v =>
        match v.log.getLast? with
        | none => some { d with sampler := v }
        | some o => some { d with
            sampler := v
            phase := if v.dead then d.phase else .leaving registered o }
    | _ => none
  | e =>
    match ClientSampler.step c.sampler d.sampler e with
    | none => none
    | some v => some { d with
        sampler := v
        messages :=
          match messageOf e message with
          | some (i, m) => d.messages.set i m
          | none => d.messages
        limiter := newLimiter d e v }

/-- The call returns (dataset.cc:360-394). -/
def ret (d : DataIter) (o : IterOut) : DataIter := { d with
  phase := .idle
  log := d.log ++ [o] }

/-- timestep_dataset.cc:300-310 and errors.cc:34-37: the result of the sampler as the iterator returns it. -/
def shown (c : DatasetCfg) (limiter : Bool) : SampleOut → IterOut
  | .error e => if c.sampler.timeout ≠ none ∧ e = .deadlineExceeded ∧ limiter = true then .endOfSequence else .error e
  | o => .element o

/-- Is it the last timestep of a sample? dataset.cc:352: `last_timestep` is false if there was an error. -/
def lastTimestep : SampleOut → Bool
  | .timestep _ last => last
  | _ => false

/-- timestep_dataset.cc:295-310: the callback is removed, and the result returned. -/
def depart (c : DatasetCfg) (d : DataIter) (registered : Bool) (o : SampleOut) : Option DataIter :=
  if registered then
    match d.manager with
    | .no => some ({ d with callbacks := d.callbacks - 1 }.ret (shown c d.limiter o))
    | .running => none
    | .done => some (d.ret (.error .cancelled))
  else some (d.ret (shown c d.limiter o))

/-- dataset.cc:351-376: timesteps are counted. -/
def leave (c : DatasetCfg) (d : DataIter) : Option DataIter :=
  match d.phase with
  | .leaving registered o =>
    match c.kind with
    | .reverb true length =>
      let s := d.step + 1
      if lastTimestep o = true ∧ 0 < length ∧ s ≠ length then some ({ d with step := s }.ret (.error .invalidArgument))
      else if s = length ∧ lastTimestep o = false then some ({ d with step := s }.ret (.error .invalidArgument))
      else depart c { d with step := if lastTimestep o then 0 else s } registered o
    | _ => depart c d registered o
  | _ => none

/-- What can happen next (dataset.cc:337-394). -/
inductive Event where
  /-- `GetNext` is called -/
  | next
  /-- `Close`, called by `GetNext`, has returned -/
  | closed
  /-- the context is cancelled -/
  | cancel
  /-- the callbacks of the cancellation manager have returned -/
  | cancelled
  /-- a step of the sampler -/
  | inside (e : ClientSampler.Event) (message : Bool)
  /-- `GetNext` returns -/
  | leave

/-- One step; `none` if it is not possible (dataset.cc:337-394). -/
def move (c : DatasetCfg) (d : DataIter) : Event → Option DataIter
  | .next => d.next c
  | .closed => d.closed c
  | .cancel => d.cancel c
  | .cancelled => d.cancelled
  | .inside e message => d.inside c e message
  | .leave => if d.sampler.dead then none else d.leave c

end DataIter
end Verif
