import Verif.Model.TFClient
import Verif.Spec.PySample
import Verif.Spec.SampleOrder
/-
Words for C109.
-/
namespace Verif
namespace TFSample

/-- One call of `GetNextTimestep` and no other; whatever else happens. -/
def OneCall (v : ClientSampler) : ClientSampler.Event → Prop
  | .call _ k => k = .timestep ∧ v.log = []
  | _ => True

/-- The runs of the sampler of one run of the op. -/
def Run (c : SamplerCfg) (now : Int) (evs : List ClientSampler.Event) (v : ClientSampler) : Prop :=
  ClientSampler.Reach c now (fun v e => ClientSampler.Faithful v e ∧ OneCall v e) evs v

/-- The first timestep of a sample. -/
def FirstStep (s : Sample) (step : List Tensor) : Prop := ∃ last s', s.deliver = .ok (step, last, s')

/-- The arrays are at the places of the types, each has the type at its place, and nothing else is there. -/
def Nested (dtypes : PTree DType) (step : List Tensor) (d : PyData) : Prop :=
  Unpacked dtypes step d ∧ step.map Tensor.dtype = dtypes.flattenWithPath.map Prod.snd

end TFSample
end Verif
