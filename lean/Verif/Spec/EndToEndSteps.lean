import Verif.Spec.EndToEnd
import Verif.Spec.Writer
/-
Words for the way of timesteps from the old writer through the server to a sampler.
-/
namespace Verif

/-- Type and shape of each tensor of a step. -/
abbrev StepSpec := List (DType × List Nat)

/-- The step has exactly these tensors. -/
def Timestep.Of (step : Timestep) (spec : StepSpec) : Prop :=
  step.length = spec.length ∧ ∀ (i : Nat) (d : DType) (sh : List Nat) (t : Tensor), spec[i]? = some (d, sh) → step[i]? = some t → Tensor.Is d sh t

/-- The steps one on the other, column by column. -/
def stackSteps (spec : StepSpec) (steps : List Timestep) : List Tensor :=
  spec.mapIdx fun i x => Tensor.stack x.1 x.2 (steps.filterMap (·[i]?))

namespace Writer

/-- The calls that somebody has made on one writer: those that have returned and one more. All steps have the tensors `spec`. -/
structure Use where
  writer : Writer
  spec : StepSpec
  calls : List Event
  last : Event
  before : Writer
  new : writer.New
  runs : writer.run calls = some before
  sound : writer.AllSound spec.length (calls ++ [last])
  fits : ∀ (data : Timestep) (as : List Answer), (Call.append data, as) ∈ calls ++ [last] → Timestep.Of data spec

/-- The streams that the writer has opened. -/
def Use.streams (u : Use) : List (List Msg) := (u.before.call u.last.1 u.last.2).1.streams

/-- One of the calls asked for an item in the table, and these were the steps. -/
def Use.Asked (u : Use) (table : String) (steps : List Timestep) : Prop :=
  ∃ it, it.table = table ∧ u.writer.AskedFor (u.calls ++ [u.last]) it steps

end Writer

/-- What is inserted through the streams `ins` was written by these writers, or is the first part of it. -/
def WrittenBy {ι : Type} (ins : Nat → List InsertReq) (users : ι → Writer.Use) : Prop :=
  ∀ s, ∃ u, ∃ str ∈ (users u).streams, ins s <+: str.map Msg.toReq

/-- What is inserted through the streams of the server was written by these writers. -/
abbrev Service.FromWriters {ι : Type} (evs : List Service.Event) (users : ι → Writer.Use) : Prop := WrittenBy (fun s => insertRequests s evs) users

namespace ClientSampler

/-- The outputs are those of `GetNextTimestep` for these steps, beginning with the first: each of them with the mark whether it is the last one. If the sampler
validates what it returns, there may be errors in their places. -/
def GivesSteps (c : SamplerCfg) (steps : List Timestep) (out : List SampleOut) : Prop :=
  out.length ≤ steps.length ∧ ∀ (k : Nat) (o : SampleOut), out[k]? = some o → ∃ step, steps[k]? = some step ∧
    (o = .timestep step (decide (k + 1 = steps.length)) ∨ c.spec ≠ none ∧ ∃ e, o = .error e)

/-- The outputs of calls of `GetNextTimestep` that give complete sequences of steps, each of which is one of `P`, one after the other; the others return an error. -/
inductive StepLog (c : SamplerCfg) (P : List Timestep → Prop) : List SampleOut → Prop
  | nil : StepLog c P []
  | item {log steps out} : StepLog c P log → P steps → GivesSteps c steps out → out.length = steps.length → StepLog c P (log ++ out)
  | other {log} (st : Code) : StepLog c P log → StepLog c P (log ++ [.error st])

end ClientSampler
end Verif
