import Verif.Basic
/-
`tensorflow::Tensor` as far as Reverb looks into it, and reverb/cc/tensor_compression.cc.
-/
namespace Verif

/-- `tensorflow::DataType`: the integral types, and some others that stand for the rest (the types looked
at in tensor_compression.cc:61-68; TensorFlow code). -/
inductive DType where
  | int8 | int16 | int32 | int64 | uint8 | uint16 | uint32 | uint64
  | float | double | bool | string
  deriving DecidableEq, Repr

/-- The integer types of TensorFlow and the number of bits of their values (TensorFlow types, see
tensor_compression.h:43-63). -/
def DType.bits : DType → Option Nat
  | .int8 | .uint8 => some 8
  | .int16 | .uint16 => some 16
  | .int32 | .uint32 => some 32
  | .int64 | .uint64 => some 64
  | .float | .double | .bool | .string => none

/-- Width of the unsigned type that `DeltaEncode` uses (tensor_compression.h:43-63 `UnsignedType`); `none` for types not in
`TF_CALL_INTEGRAL_TYPES` (tensor_compression.cc:61-68). -/
def DType.width : DType → Option Nat
  | .int8 => some 8
  | .int16 => some 16
  | .int32 => some 32
  | .int64 => some 64
  | .uint8 => some 8
  | .uint16 => some 16
  | .uint32 => some 32
  | .uint64 => some 64
  | .float => none
  | .double => none
  | .bool => none
  | .string => none

/-- A tensor: its elements in row-major order. An element of an integral type is its bit pattern; elements of other types
are opaque (TensorFlow code; the tensors passed to trajectory_writer.cc:187-198, writer.cc:53-58,
tensor_compression.cc:31-53). -/
structure Tensor where
  dtype : DType
  shape : List Nat
  data : List Nat
  deriving DecidableEq, Repr

namespace Tensor

/-- `TensorShape::num_elements` (TensorFlow code, used in tensor_compression.cc:31-68). -/
def numElems (shape : List Nat) : Nat := shape.foldr (· * ·) 1

/-- What `tensorflow::Tensor` guarantees: the number of elements fits the shape, and elements of an integral type have its
width (TensorFlow code; of the tensors given to tensor_compression.cc:31-108). -/
structure WF (t : Tensor) : Prop where
  len : t.data.length = numElems t.shape
  bits : ∀ w, t.dtype.bits = some w → ∀ x ∈ t.data, x < 2 ^ w

/-- tensor_compression.cc:42-51: the contents of `dst` after the first `k` assignments. `flat_outer_dims` makes a matrix
of `cols` columns, which is filled row by row; element `(i, j)` is at position `i * cols + j`. The loop variables are of
type `int`; sizes beyond its range are not modelled. The arithmetic of the unsigned types wraps around (types narrower
than `int` are promoted and cut off at the assignment). -/
def deltaLoop (w cols : Nat) (encode : Bool) (src : List Nat) : Nat → List Nat
  | 0 => []
  | k + 1 =>
    let dst := deltaLoop w cols encode src k
    let at_ (l : List Nat) (i : Nat) : BitVec w := BitVec.ofNat w (l.getD i 0)
    dst ++ [(if k < cols then at_ src k
      else at_ src k + (if encode then -(at_ src (k - cols)) else at_ dst (k - cols))).toNat]

/-- tensor_compression.cc:57-69 `DeltaEncode`. If there are no rows but columns, the first loop (42-44) reads and writes out of
bounds. -/
def deltaEncode (t : Tensor) (encode : Bool) : Res Tensor :=
  match t.shape with
  | rows :: d :: rest =>
    match t.dtype.width with
    | none => .ok t
    | some w =>
      let cols := numElems (d :: rest)
      if rows = 0 ∧ 0 < cols then .died
      else .ok { t with data := deltaLoop w cols encode t.data (rows * cols) }
  | _ => .ok t

/-- tensor_compression.cc:71-79 `DeltaEncodeList`. -/
def deltaEncodeList (ts : List Tensor) (encode : Bool) : Res (List Tensor) :=
  match ts with
  | [] => .ok []
  | t :: ts =>
    match deltaEncode t encode with
    | .ok t' =>
      match deltaEncodeList ts encode with
      | .ok ts' => .ok (t' :: ts')
      | .err c => .err c
      | .died => .died
    | .err c => .err c
    | .died => .died

end Tensor
end Verif
