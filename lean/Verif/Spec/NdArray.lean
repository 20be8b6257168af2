import Verif.Model.NdArray
/-
Words for C122: the elements of an array as a Python user sees them.
-/
namespace Verif.NdArray

/-- An index has one number per dimension, each below the length of the dimension (numpy's indexing; for pybind.cc:306-389). -/
def Within : List Nat → List Nat → Prop
  | [], [] => True
  | i :: is, n :: ns => i < n ∧ Within is ns
  | _, _ => False

/-- Where numpy finds the element at an index (for pybind.cc:306-389). -/
def address : List Nat → List Int → Int
  | i :: is, s :: ss => i * s + address is ss
  | _, _ => 0

/-- `a[idx]` of an array of numbers: the bytes, as they lie in memory (for pybind.cc:306-389). -/
def NdArray.raw (a : NdArray) (idx : List Nat) : List UInt8 :=
  (List.range a.type.size).map fun (k : Nat) => a.byte (address idx a.strides + k)

/-- `a[idx]` of an array of strings or objects (for pybind.cc:306-389). -/
def NdArray.obj (a : NdArray) (idx : List Nat) : Option Obj := a.item (address idx a.strides)

/-- Bytes of a number, lowest first, as a number (for pybind.cc:337, 378). -/
def little : List UInt8 → Nat
  | [] => 0
  | b :: bs => b.toNat + 256 * little bs

/-- `a[idx]` of an array of unsigned integers (on a little endian machine; for pybind.cc:337, 378). -/
def NdArray.nat (a : NdArray) (idx : List Nat) : Nat := little (if a.swapped then (a.raw idx).reverse else a.raw idx)

/-- What the numbers of a type are (for pybind.cc:202-293). -/
inductive Kind where
  | bool | signed | unsigned | float | complex
  deriving DecidableEq

/-- The numeric types of numpy that can be stored, with kind and width in bits (numpy's documentation; for pybind.cc:241-293). -/
def NpyType.number : NpyType → Option (Kind × Nat)
  | .bool => some (.bool, 8)
  | .byte => some (.signed, 8)
  | .ubyte => some (.unsigned, 8)
  | .short => some (.signed, 16)
  | .ushort => some (.unsigned, 16)
  | .int => some (.signed, 32)
  | .uint => some (.unsigned, 32)
  | .long | .longlong => some (.signed, 64)
  | .ulong | .ulonglong => some (.unsigned, 64)
  | .half => some (.float, 16)
  | .float => some (.float, 32)
  | .double => some (.float, 64)
  | .cfloat => some (.complex, 64)
  | .cdouble => some (.complex, 128)
  | _ => none

/-- Bytes in the other order; a complex number consists of two numbers (numpy's documentation; for pybind.cc:337, 378). -/
def mirror : Kind → List UInt8 → List UInt8
  | .complex, bs => (bs.take (bs.length / 2)).reverse ++ (bs.drop (bs.length / 2)).reverse
  | _, bs => bs.reverse

/-- `a[idx]` of a numeric array as a user sees it: the bytes of the number in the order of the machine (for pybind.cc:337, 378). -/
def NdArray.value (a : NdArray) (k : Kind) (idx : List Nat) : List UInt8 := if a.swapped then mirror k (a.raw idx) else a.raw idx

/-- The same for tensors (TensorFlow's documentation; for pybind.cc:202-234). -/
def TfType.number : TfType → Option (Kind × Nat)
  | .bool => some (.bool, 8)
  | .int8 => some (.signed, 8)
  | .uint8 => some (.unsigned, 8)
  | .int16 => some (.signed, 16)
  | .uint16 => some (.unsigned, 16)
  | .int32 => some (.signed, 32)
  | .uint32 => some (.unsigned, 32)
  | .int64 => some (.signed, 64)
  | .uint64 => some (.unsigned, 64)
  | .half => some (.float, 16)
  | .float => some (.float, 32)
  | .double => some (.float, 64)
  | .complex64 => some (.complex, 64)
  | .complex128 => some (.complex, 128)
  | _ => none

/-- The types of arrays of strings (for pybind.cc:272-274). -/
def NpyType.text (t : NpyType) : Prop := t = .object ∨ t = .string ∨ t = .unicode

/-- An array with a stride for each dimension: every array of numpy (for pybind.cc:306). -/
def NdArray.Ok (a : NdArray) : Prop := a.strides.length = a.shape.length

/-- A tensor with as much data as its type and shape tell: every tensor of TensorFlow (for pybind.cc:354). -/
structure Tensor.Ok (t : Tensor) : Prop where
  data : t.type ≠ .string → t.data.length = t.type.size * count t.shape ∧ t.strings = []
  strings : t.type = .string → t.strings.length = count t.shape ∧ t.data = []

/-- The bytes that stand for a Python string: its UTF-8 form, which belongs to no other string (for pybind.cc:127-147). -/
inductive Text : Obj → List UInt8 → Prop where
  | bytes (b) : Text (.bytes b) b
  | str (s) : Text (.str s) s.toByteArray.data.toList

end Verif.NdArray
