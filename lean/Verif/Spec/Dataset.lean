import Verif.Model.Dataset
import Verif.Spec.ClientSampler
/-
Words for what the iterators of the dataset ops do.
-/
namespace Verif

/-- What `GetNext` returned is an element. -/
def IterOut.isElement : IterOut → Bool
  | .element _ => true
  | _ => false

/-- It is the last timestep of a sample, or a whole sample. -/
def IterOut.endsSample : IterOut → Bool
  | .element o => o.complete
  | _ => false

namespace DataIter

/-- The server and the table give no more than they are asked for. -/
def Honest (d : DataIter) : Event → Prop
  | .inside e _ => ClientSampler.Faithful d.sampler e
  | _ => True

/-- All schedules, and where they lead. -/
inductive Reach (c : DatasetCfg) (now : Int) : List Event → DataIter → Prop
  | init : Reach c now [] (init c now)
  | step {evs e d d'} : Reach c now evs d → Honest d e → move c d e = some d' → Reach c now (evs ++ [e]) d'

/-- Several steps. -/
def moves (c : DatasetCfg) (d : DataIter) : List Event → Option DataIter
  | [] => some d
  | e :: es => (move c d e).bind fun d' => moves c d' es

/-- What may follow a state, and where it leads. -/
inductive Later (c : DatasetCfg) (d : DataIter) : List Event → DataIter → Prop
  | refl : Later c d [] d
  | step {evs e d1 d2} : Later c d evs d1 → Honest d1 e → move c d1 e = some d2 → Later c d (evs ++ [e]) d2

/-- What `GetNext` returns for what the sampler returned, if nothing was cancelled and timesteps are not counted: the end of the sequence
stands for a timeout of the rate limiter. -/
def Shows (timeout : Duration) : SampleOut → IterOut → Prop
  | .error e, io => io = .error e ∨ io = .endOfSequence ∧ e = .deadlineExceeded ∧ timeout ≠ none
  | o, io => io = .element o

/-- `GetNext` waits for a sample. -/
def Waiting (d : DataIter) : Prop := ClientSampler.Waits d.sampler 0

/-- Worker `i` gets a timeout of the rate limiter: its stream ends with it, or the table returns it. -/
def TimesOut (i : Nat) : Event → Prop
  | .inside (.streamEnd j st limiter) _ => j = i ∧ st = some .deadlineExceeded ∧ limiter = true
  | .inside (.answer j r) _ => j = i ∧ r = .err .deadlineExceeded
  | _ => False

/-- The stream of worker `i` is found to have ended with a timeout of the rate limiter when the worker wants to send the next request. -/
def TimesOutWrite (i : Nat) : Event → Prop
  | .inside (.write j st) message => j = i ∧ st = some (some .deadlineExceeded) ∧ message = true
  | _ => False

/-- The number of results after the last one that ended a sample. -/
def sinceLast (log : List IterOut) : Nat := (log.reverse.takeWhile fun o => !o.endsSample).length

end DataIter
end Verif
