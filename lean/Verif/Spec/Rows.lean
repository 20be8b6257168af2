import Verif.Model.Tensor
/-
Tensors as sequences of rows.
-/
namespace Verif

/-- The batch of the given tensors of type `d` and shape `s`: they are its rows. -/
def Tensor.stack (d : DType) (s : List Nat) (rows : List Tensor) : Tensor := ⟨d, rows.length :: s, rows.flatMap Tensor.data⟩

/-- A well-formed tensor of type `d` and shape `s`. -/
def Tensor.Is (d : DType) (s : List Nat) (t : Tensor) : Prop := t.WF ∧ t.dtype = d ∧ t.shape = s

end Verif
