import Verif.Model.NewSampler
/-
What it means that data agrees with a declared type and shape.
-/
namespace Verif

/-- A tensor of this type and shape agrees with a declaration: the type is the same, and if the rank is declared it is the same and the
dimensions that are declared are the same. -/
def TensorSpec.Allows (w : TensorSpec) (dtype : DType) (shape : List Nat) : Prop :=
  w.dtype = dtype ∧ ∀ dims, w.shape = some dims → dims.length = shape.length ∧ ∀ (i d : Nat), dims[i]? = some (some d) → shape[i]? = some d

/-- A column of the data of a call agrees with a declaration. What `GetNextSample` returns has an additional outer dimension. -/
def SampleCall.Agrees (k : SampleCall) (w : TensorSpec) (t : Tensor) : Prop :=
  match k with
  | .batched => ∃ n rest, t.shape = n :: rest ∧ w.Allows t.dtype rest
  | _ => w.Allows t.dtype t.shape

/-- The columns agree with the declarations one by one. -/
def SampleCall.AgreesAll (k : SampleCall) (sig : List TensorSpec) (data : List Tensor) : Prop :=
  data.length = sig.length ∧ ∀ (i : Nat) (w : TensorSpec) (t : Tensor), sig[i]? = some w → data[i]? = some t → k.Agrees w t

end Verif
