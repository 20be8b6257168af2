import Verif.Model.NewSampler
import Verif.Model.PySample
/-
Model of sampling from a TensorFlow graph: cc/ops/client.cc:131-171 `SampleOp` and tf_client.py:52-77 `TFClient.sample`. `LookupResource` and the reading of
the inputs are left out.
-/
namespace Verif
namespace TFSample

/-- ops/client.cc:146-148: the options of the sampler; the others have their defaults (sampler.h:228-276). -/
def options : SamplerOptions := ⟨1, 1, autoSelect, autoSelect, none, autoSelect⟩

/-- ops/client.cc:150-154 and client.cc:154-193: the sampler that is made for one call. `localDefault` is the default batch size of the table if it is in the
same process. -/
def cfg (table : String) (localDefault : Option Int) (sigs : Res Signatures) : Res SamplerCfg :=
  match options.validate with
  | some e => .err e
  | none => SamplerCfg.make options table localDefault (newSamplerSpec sigs table)

/-- The outputs of the op (ops/client.cc:51-59): the first four and the others. -/
structure Outputs where
  info : PyInfo
  data : List Tensor

/-- ops/client.cc:155-166: what `Compute` makes of the one call of `GetNextTimestep`, for `num` outputs besides the first four. `none` if the call has not returned. The
four tensors in front are those of the sample that the call has read (sampler.cc:744-752), which is the active one. -/
def compute (num : Nat) (v : ClientSampler) : Option (Res Outputs) :=
  if v.dead then some .died
  else
    match v.log with
    | [] => none
    | .error e :: _ => some (.err e)
    | .timestep rows _ :: _ =>
      match v.active with
      | none => some .died
      | some s =>
        if 4 + rows.length = 4 + num then some (.ok ⟨⟨s.info.key, s.info.probability, s.info.tableSize, s.info.priority⟩, rows⟩)
        else some (.err .invalidArgument)
    | _ :: _ => some .died

/-- TensorFlow code, run after ops/client.cc:166: the executor compares the types of the outputs with those that the graph expects. The first four always have the right
types (sampler.cc:744-752). -/
def typed (want : List DType) : Res Outputs → Res Outputs
  | .ok o => if o.data.map Tensor.dtype = want then .ok o else .err .internal
  | .err e => .err e
  | .died => .died

/-- tf_client.py:52-77 `TFClient.sample`, when the graph is run. -/
def sample (dtypes : PTree DType) (v : ClientSampler) : Option (PyRes ReplaySample) :=
  match compute dtypes.flattenWithPath.length v with
  | none => none
  | some r =>
    match typed (dtypes.flattenWithPath.map Prod.snd) r with
    | .err e => some (.raised (.status e))
    | .died => some .died
    | .ok o =>
      match dtypes.unflattenAs o.data with
      | none => some (.raised .valueError)
      | some t => some (.ok ⟨o.info, .nested t⟩)

end TFSample
end Verif
