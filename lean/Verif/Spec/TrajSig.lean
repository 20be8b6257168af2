import Verif.Spec.TrajWriter
import Verif.Spec.OutputSpec
/-
Words for C111.
-/
namespace Verif
namespace TrajWriter

/-- `values` are the tensors that were appended for the references of the columns. -/
def Given (w : TrajWriter) (evs : List Event) (cols : List TrajCol) (values : List (List Tensor)) : Prop :=
  values.length = cols.length ∧ ∀ (i : Nat) (col : TrajCol) (ts : List Tensor), cols[i]? = some col → values[i]? = some ts →
    ts.length = col.refs.length ∧ ∀ (j : Nat) (r : Ref) (x : Tensor), col.refs[j]? = some r → ts[j]? = some x → w.Names evs r x

/-- If there are signatures, the table has one of them, or is known to have none; and if it has one, then there is a column for each of
its declarations, with the declared type and a shape that is allowed: that of a tensor if the column is squeezed, and otherwise with
the number of tensors as an additional first dimension. -/
def FitsTable (sigs : Option (AMap String (Option (List TensorSpec)))) (table : String) (cols : List TrajCol) (values : List (List Tensor)) : Prop :=
  ∀ m, sigs = some m → ∃ sig, m.get? table = some sig ∧ ∀ specs, sig = some specs → specs.length = cols.length ∧
    ∀ (i : Nat) (want : TensorSpec) (col : TrajCol) (ts : List Tensor) (x : Tensor), specs[i]? = some want → cols[i]? = some col →
      values[i]? = some ts → x ∈ ts → want.Allows x.dtype (if col.squeeze then x.shape else ts.length :: x.shape)

end TrajWriter
end Verif
