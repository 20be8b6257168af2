/-
The conversion between numpy arrays and tensors (pybind.cc:127-389, 437-471): what happens to the data that a Python client writes and reads.
What numpy, Python and TensorFlow do is modelled from their documentation. Sizes are those of 64 bit Linux.
-/
namespace Verif.NdArray

/-- The numpy type numbers (pybind.cc:86-123), with `NPY_INT8 = NPY_BYTE` etc.; `other`: any number without a name, -1 is bfloat16 (282-287). -/
inductive NpyType where
  | bool | byte | ubyte | short | ushort | int | uint | long | ulong | longlong | ulonglong | float | double | longdouble
  | cfloat | cdouble | clongdouble | object | string | unicode | void | datetime | timedelta | half | bfloat16 | other
  deriving Repr, DecidableEq

/-- `PyArray_ITEMSIZE`, as used by `PyArray_NBYTES` (pybind.cc:336, 378). Simplified: strings and structs have a width of their own, which the
code does not use. -/
def NpyType.size : NpyType → Nat
  | .bool | .byte | .ubyte => 1
  | .short | .ushort | .half | .bfloat16 => 2
  | .int | .uint | .float => 4
  | .long | .ulong | .longlong | .ulonglong | .double | .cfloat | .object | .datetime | .timedelta => 8
  | .longdouble | .cdouble => 16
  | .clongdouble => 32
  | .string | .unicode | .void | .other => 1

/-- The TensorFlow types that pybind.cc names (206-220); `bfloat16`, `quantized`, `resource`: three kinds of types that it does not name. -/
inductive TfType where
  | half | float | double | int32 | uint8 | uint16 | uint32 | int8 | int16 | bool | complex64 | complex128 | string | uint64 | int64
  | bfloat16 | quantized | resource
  deriving Repr, DecidableEq

/-- TensorFlow's `DataTypeSize`, by which the buffer of a tensor is allocated (pybind.cc:335). -/
def TfType.size : TfType → Nat
  | .int8 | .uint8 | .bool | .quantized => 1
  | .half | .int16 | .uint16 | .bfloat16 => 2
  | .float | .int32 | .uint32 => 4
  | .double | .int64 | .uint64 | .complex64 => 8
  | .complex128 => 16
  | .string | .resource => 0

/-- TensorFlow's `DataTypeCanUseMemcpy` (pybind.cc:297, 334, 377). -/
def TfType.memcpy : TfType → Bool
  | .string | .resource => false
  | _ => true

/-- The status codes of pybind.cc:127-389. -/
inductive Err where
  | invalidArgument | unimplemented | internal
  deriving Repr, DecidableEq

/-- How a function of pybind.cc:127-389 ends: a result, a status that is not OK, or undefined behaviour. -/
inductive Out (α : Type) where
  | ok (a : α)
  | err (e : Err)
  | ub
  deriving Repr, DecidableEq

/-- `TF_RETURN_IF_ERROR` (pybind.cc:165, 324-325, 342, 356, 360, 380). -/
def Out.bind {α β : Type} (x : Out α) (f : α → Out β) : Out β :=
  match x with
  | .ok a => f a
  | .err e => .err e
  | .ub => .ub

/-- The Python objects that an element of an array can be (pybind.cc:127-147): bytes, a string, a string with a surrogate (it has no UTF-8
form), something else. -/
inductive Obj where
  | bytes (b : List UInt8)
  | str (s : String)
  | badStr
  | other
  deriving DecidableEq

/-- A numpy array (pybind.cc:306-316). `byte` and `item` give the byte and, for arrays of strings and objects, the element
(`PyArray_GETITEM`, 156; `none`: it fails) at a distance from the start of the data. -/
structure NdArray where
  type : NpyType
  /-- the byte order is not that of the machine -/
  swapped : Bool
  shape : List Nat
  /-- distance in bytes between neighbours, one number per dimension -/
  strides : List Int
  byte : Int → UInt8
  item : Int → Option Obj

/-- An array whose elements lie one after the other, last index fastest: the result of `PyArray_FromAny` with `NPY_ARRAY_CARRAY_RO`
(pybind.cc:309-315). -/
structure CArray where
  type : NpyType
  shape : List Nat
  /-- `PyArray_DATA` -/
  data : List UInt8
  /-- what the iterator (153) yields -/
  items : List (Option Obj)

/-- A `tensorflow::Tensor` (pybind.cc:306-352): the buffer, or the elements if it is a tensor of strings. -/
structure Tensor where
  type : TfType
  shape : List Nat
  data : List UInt8
  strings : List (List UInt8)
  deriving DecidableEq

/-- Number of elements of a shape (pybind.cc:327-332). -/
def count : List Nat → Nat
  | [] => 1
  | n :: ns => n * count ns

/-- Where the elements of an array are, last index fastest (numpy, for pybind.cc:309-315). -/
def offsets : List Nat → List Int → Int → List Int
  | [], _, o => [o]
  | n :: ns, ss, o => (List.range n).flatMap fun (i : Nat) => offsets ns ss.tail (o + i * ss.headD 0)

/-- `PyArray_FromAny` (pybind.cc:309-315) on an array: without a type argument and without `NPY_ARRAY_NOTSWAPPED` it keeps type and byte order. -/
def NdArray.carray (a : NdArray) : CArray :=
  let os := offsets a.shape a.strides 0
  ⟨a.type, a.shape, os.flatMap fun o => (List.range a.type.size).map fun (k : Nat) => a.byte (o + k), os.map a.item⟩

/-- `GetTensorDtypeFromPyArray` (pybind.cc:241-293). -/
def tfType : NpyType → Out TfType
  | .half => .ok .half
  | .float => .ok .float
  | .double => .ok .double
  | .byte => .ok .int8
  | .short => .ok .int16
  | .int => .ok .int32
  | .longlong => .ok .int64
  | .long => .ok .int64
  | .ubyte => .ok .uint8
  | .ushort => .ok .uint16
  | .uint => .ok .uint32
  | .ulonglong => .ok .uint64
  | .ulong => .ok .uint64
  | .bool => .ok .bool
  | .cfloat => .ok .complex64
  | .cdouble => .ok .complex128
  | .object => .ok .string
  | .string => .ok .string
  | .unicode => .ok .string
  | .void => .err .unimplemented
  | .bfloat16 => .err .unimplemented
  | .longdouble | .clongdouble | .datetime | .timedelta | .other => .err .internal

/-- `GetPyDescrFromDataType` (pybind.cc:202-234). -/
def npyType : TfType → Out NpyType
  | .half => .ok .half
  | .float => .ok .float
  | .double => .ok .double
  | .int32 => .ok .int
  | .uint8 => .ok .ubyte
  | .uint16 => .ok .ushort
  | .uint32 => .ok .uint
  | .int8 => .ok .byte
  | .int16 => .ok .short
  | .bool => .ok .bool
  | .complex64 => .ok .cfloat
  | .complex128 => .ok .cdouble
  | .string => .ok .object
  | .uint64 => .ok .ulong
  | .int64 => .ok .long
  | .bfloat16 | .quantized | .resource => .err .internal

/-- `VerifyDtypeIsSupported` (pybind.cc:295-304). -/
def verify (t : TfType) : Out Unit := if !t.memcpy && t != .string then .err .unimplemented else .ok ()

/-- `memcpy` (pybind.cc:337, 378): undefined if one of the buffers is too short. -/
def copy (dst src : List UInt8) (n : Nat) : Out (List UInt8) :=
  if n ≤ dst.length ∧ n ≤ src.length then .ok (src.take n ++ dst.drop n) else .ub

/-- The largest `int` (pybind.cc:340, 180). -/
def intMax : Nat := 2 ^ 31 - 1

/-- The loops that write one element after the other with a counter of type `int` (pybind.cc:155-169 with 343-345; 180-197): a write
behind the end and an overflow of the counter are undefined. -/
def loop {α β : Type} (f : α → Out β) : List α → Nat → List β → Out (List β)
  | [], _, dst => .ok dst
  | x :: xs, i, dst => (f x).bind fun y => if i < dst.length ∧ i + 1 ≤ intMax then loop f xs (i + 1) (dst.set i y) else .ub

/-- `PyObjectToString` (pybind.cc:127-147) on an element (156-161). -/
def toBytes : Option Obj → Out (List UInt8)
  | some (.bytes b) => .ok b
  | some (.str s) => .ok s.toByteArray.data.toList
  | some .badStr => .err .internal
  | some .other => .err .internal
  | none => .err .internal

/-- `NdArrayToTensor` (pybind.cc:306-352); `none`: numpy cannot make an array of the argument (316-319). Simplified: the buffer of a new
tensor has zeros. -/
def toTensor (a : Option NdArray) : Out Tensor :=
  match a with
  | none => .err .invalidArgument
  | some a =>
    let c := a.carray
    (tfType c.type).bind fun t =>
    (verify t).bind fun _ =>
    if t.memcpy then
      (copy (List.replicate (t.size * count c.shape) 0) c.data (c.type.size * count c.shape)).bind fun d => .ok ⟨t, c.shape, d, []⟩
    else if t = .string then
      (loop toBytes c.items 0 (List.replicate (count c.shape) [])).bind fun ss => .ok ⟨t, c.shape, [], ss⟩
    else .err .unimplemented

/-- The strides of a new array, last index fastest (`PyArray_Empty`, pybind.cc:369). -/
def cstrides (sz : Nat) : List Nat → List Int
  | [] => []
  | _ :: ns => (sz * count ns : Nat) :: cstrides sz ns

/-- A new array (`PyArray_Empty`, pybind.cc:369) with data or elements; what lies outside is arbitrary. -/
def fresh (ty : NpyType) (shape : List Nat) (data : List UInt8) (items : List (Option Obj)) : NdArray where
  type := ty
  swapped := false
  shape := shape
  strides := cstrides ty.size shape
  byte o := if 0 ≤ o then data.getD o.toNat 0 else 0
  item o := if 0 ≤ o then items.getD (o.toNat / ty.size) none else none

/-- `TensorToNdArray` (pybind.cc:354-389). Simplified: allocations succeed. -/
def toArray (t : Tensor) : Out NdArray :=
  (verify t.type).bind fun _ =>
  (npyType t.type).bind fun ty =>
  if t.type.memcpy then
    (copy (List.replicate (ty.size * count t.shape) 0) t.data (ty.size * count t.shape)).bind fun d => .ok (fresh ty t.shape d [])
  else if t.type = .string then
    (loop (fun b => .ok (some (Obj.bytes b))) t.strings 0 (List.replicate (count t.shape) (some .other))).bind fun is => .ok (fresh ty t.shape [] is)
  else .err .unimplemented

/-- What Python sees of the conversions (`type_caster`, pybind.cc:437-471). -/
inductive Raised (α : Type) where
  | value (a : α)
  /-- `load` returns false (455): no overload matches the arguments -/
  | typeError
  /-- 464-468 -/
  | valueError
  | ub

/-- `type_caster::load` (pybind.cc:442-458). -/
def load (a : Option NdArray) : Raised Tensor :=
  match toTensor a with
  | .ok t => .value t
  | .err _ => .typeError
  | .ub => .ub

/-- `type_caster::cast` (pybind.cc:460-470). -/
def cast (t : Tensor) : Raised NdArray :=
  match toArray t with
  | .ok a => .value a
  | .err _ => .valueError
  | .ub => .ub

end Verif.NdArray
