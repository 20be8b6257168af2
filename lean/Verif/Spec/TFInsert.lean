import Verif.Model.ClientOps
import Verif.Model.TensorSpec
/-
Words for C113: what a tensor of a graph says about its value, and when the arguments of an insert are right.
-/
namespace Verif
namespace TFInsert

/-- The known dimensions of a shape are those of the value, one by one. (Specification only, no code; for tf_client.py:79-114.) -/
def DimsOf : List (Option Nat) → List Nat → Prop
  | [], [] => True
  | d :: ds, n :: ns => (∀ m, d = some m → m = n) ∧ DimsOf ds ns
  | _, _ => False

/-- The value is one that the tensor of the graph can have. (Specification only, no code; for tf_client.py:79-114.) -/
def IsValueOf (t : TensorSpec) (shape : List Nat) : Prop := ∀ dims, t.shape = some dims → DimsOf dims shape

/-- Everything is known about the shape, as in a program that runs eagerly. (Specification only, no code; for tf_client.py:79-114.) -/
def Eager (t : TensorSpec) (shape : List Nat) : Prop := t.shape = some (shape.map some)

/-- What the documentation asks for (tf_client.py:85-104): strings and doubles, both vectors, of one length. (Specification only, no code.) -/
def Right (tables priorities : DType) (names values : List Nat) : Prop :=
  tables = .string ∧ priorities = .double ∧ ∃ n, names = [n] ∧ values = [n]

end TFInsert
end Verif
