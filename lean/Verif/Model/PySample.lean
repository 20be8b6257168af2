import Verif.Model.Sample
import Verif.Model.PyWriter
/-
reverb/client.py:345-445 `Client.sample`: what is made of the trajectories that the sampler returns.
-/
namespace Verif

/-- replay_sample.py:24-41 `SampleInfo`. -/
structure PyInfo where
  key : Key
  probability : Rat
  tableSize : Nat
  priority : Pri
  deriving DecidableEq, Repr

/-- The data of a `ReplaySample`: a list of arrays, or arrays in the structure of a signature
(replay_sample.py:48-58). -/
inductive PyData where
  | flat (arrays : List Tensor)
  | nested (t : PTree Tensor)

/-- replay_sample.py:49-59 `ReplaySample`. -/
structure ReplaySample where
  info : PyInfo
  data : PyData

/-- What the generator yields: a list of steps, or one sample (client.py:443, 445). -/
inductive PyYield where
  | steps (l : List ReplaySample)
  | whole (s : ReplaySample)

/-- The result of `GetNextTrajectory` for this sample (sampler.cc:822-856, pybind.cc:613-629): the tensors 0 to 3, and the others. -/
def Sample.fetch (s : Sample) : Res (PyInfo × List Tensor) :=
  match s.asTrajectory with
  | .ok data => .ok (⟨s.info.key, s.info.probability, s.info.tableSize, s.info.priority⟩, data)
  | .err e => .err e
  | .died => .died

/-- The truth value of a signature in Python: empty dictionaries and lists are false, as is `None`
(`Option.none` below) (client.py:414). -/
def PTree.truthy {α : Type} : PTree α → Bool
  | .leaf _ => true
  | .dict fields => !fields.isEmpty
  | .seq elems => !elems.isEmpty

/-- client.py:403-411: `unflatten`. `none` is a `ValueError`. -/
def unflattenData {α : Type} (sig : Option (PTree α)) (flat : List Tensor) : Option PyData :=
  match sig with
  | none => some (.flat flat)
  | some s => if s.truthy then (s.unflattenAs flat).map .nested else some (.flat flat)

/-- `len(array)`; `none` is the `TypeError` for arrays without dimensions (client.py:431). -/
def Tensor.pyLen (t : Tensor) : Option Nat := t.shape.head?

/-- client.py:425: the list of the lengths; `none` is a `TypeError`. -/
def pyLens : List Tensor → Option (List Nat)
  | [] => some []
  | t :: ts =>
    match t.pyLen, pyLens ts with
    | some n, some ns => some (n :: ns)
    | _, _ => none

/-- `len(set(l)) != 1` (client.py:431). -/
def notOne (l : List Nat) : Bool := l.eraseDups.length != 1

/-- client.py:434-435: `[np.asarray(col[i], col.dtype) for col in sample[4:]]`; `none` is an `IndexError`. -/
def pyRow (i : Nat) : List Tensor → Option (List Tensor)
  | [] => some []
  | t :: ts =>
    match t.subSlice i, pyRow i ts with
    | .ok r, some rs => some (r :: rs)
    | _, _ => none

/-- client.py:430-436: the loop over the steps from `i` on, of which there are `n`. -/
def pySteps {α : Type} (sig : Option (PTree α)) (info : PyInfo) (data : List Tensor) : Nat → Nat → PyRes (List ReplaySample)
  | _, 0 => .ok []
  | i, n + 1 =>
    match pyRow i data with
    | none => .raised .indexError
    | some row =>
      match unflattenData sig row with
      | none => .raised .valueError
      | some d =>
        match pySteps sig info data (i + 1) n with
        | .ok l => .ok (⟨info, d⟩ :: l)
        | .raised e => .raised e
        | .died => .died

/-- client.py:418-440: what is made of one trajectory. -/
def sampleItem {α : Type} (emit : Bool) (sig : Option (PTree α)) (x : PyInfo × List Tensor) : PyRes PyYield :=
  if emit then
    match pyLens x.2 with
    | none => .raised .typeError
    | some lens =>
      if notOne lens then .raised .valueError
      else
        match pySteps sig x.1 x.2 0 (lens.headD 0) with
        | .ok l => .ok (.steps l)
        | .raised e => .raised e
        | .died => .died
  else
    match unflattenData sig x.2 with
    | none => .raised .valueError
    | some d => .ok (.whole ⟨x.1, d⟩)

/-- How a generator ends, or that it waits (client.py:421-445). -/
inductive GenEnd where
  | finished
  | waiting
  | raised (e : PyExc)
  | died
  deriving DecidableEq, Repr

/-- client.py:415-440: the loop, for the results that the calls of `GetNextTrajectory` have so far: what has been yielded, and how it ended. (Making the
sampler, in 413, is the subject of `Model/NewSampler.lean`.) -/
def sampleLoop {α : Type} (emit : Bool) (sig : Option (PTree α)) : Nat → List (Res (PyInfo × List Tensor)) → List PyYield × GenEnd
  | 0, _ => ([], .finished)
  | _ + 1, [] => ([], .waiting)
  | n + 1, r :: rs =>
    match r with
    | .err c => ([], .raised (.status c))
    | .died => ([], .died)
    | .ok x =>
      match sampleItem emit sig x with
      | .raised e => ([], .raised e)
      | .died => ([], .died)
      | .ok y => (y :: (sampleLoop emit sig n rs).1, (sampleLoop emit sig n rs).2)

/-- client.py:415-440: `range(num_samples)` is empty for negative numbers. -/
def clientSample {α : Type} (emit : Bool) (sig : Option (PTree α)) (numSamples : Int) (fetched : List (Res (PyInfo × List Tensor))) : List PyYield × GenEnd :=
  sampleLoop emit sig numSamples.toNat fetched

end Verif
