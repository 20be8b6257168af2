import Verif.Model.ClientOps
import Verif.Model.PyWriter
import Verif.Model.TensorSpec
/-
Model of inserting from a TensorFlow graph: tf_client.py:79-114 `TFClient.insert`, on top of the kernel (ops/client.cc:225-273, Model/ClientOps). A `tf.Tensor` of a
graph is known by its type and by what is known of its shape; its value is there when the graph is run.
-/
namespace Verif
namespace TFInsert

/-- `tensor.shape.rank` (TensorFlow code, called in tf_client.py:105 and 107): `None` if the rank is not known. -/
def rank (t : TensorSpec) : Option Nat := t.shape.map List.length

/-- tf_client.py:105-110: the checks, made when the op is added to the graph. `is_compatible_with` is the one of Python, which does the same as that of
C++ (TensorFlow code). -/
def build (tables priorities : TensorSpec) : PyRes Unit :=
  if tables.dtype ≠ .string ∨ rank tables ≠ some 1 then .raised .valueError
  else if priorities.dtype ≠ .double ∨ rank priorities ≠ some 1 then .raised .valueError
  else if ¬ tables.shape.compatible priorities.shape then .raised .valueError
  else .ok ()

/-- ops/client.cc:230-270: the status of the kernel as it is seen from Python (TensorFlow code raises an exception for it). `none` if the kernel has not returned. -/
def raise : Ret (Option Code) → Option (PyRes Unit)
  | .ret none => some (.ok ())
  | .ret (some c) => some (.raised (.status c))
  | .blocked => none
  | .died => some .died

/-- tf_client.py:79-114 `TFClient.insert`: the op is made, and the graph is run with these values of the two tensors. The writer is that of the kernel
(ops/client.cc:256-258). -/
def insert (w : Writer) (data : List Tensor) (tables priorities : TensorSpec) (names : Vec String) (values : Vec Pri) (as : List (List Answer)) :
    Writer × Option (PyRes Unit) :=
  match build tables priorities with
  | .ok () => ((insertOp w data names values as).1, raise (insertOp w data names values as).2)
  | .raised e => (w, some (.raised e))
  | .died => (w, some .died)

end TFInsert
end Verif
