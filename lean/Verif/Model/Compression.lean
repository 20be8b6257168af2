import Verif.Model.Tensor
/-
reverb/cc/platform/default/snappy.cc and the compression part of reverb/cc/tensor_compression.cc.

The snappy library itself is not part of the repository. It is a parameter: what it gives to a sink, piece by piece. The sinks through
which its output gets into the string of a proto and into the memory of a tensor are part of the repository and modelled with the memory they
write to.
-/
namespace Verif

/-- A byte (`char` in snappy.cc:68-137). -/
abbrev Byte := BitVec 8

/-- What the snappy library does with a sink (snappy-sinksource.h, not in the repository): it appends bytes from memory of its own, or it asks
for a buffer of `length` bytes with `GetAppendBuffer`, writes `bytes` to the start of it and appends them
from there (the calls go to the sinks of snappy.cc:61-151). -/
inductive SinkCall where
  | append (bytes : List Byte)
  | fill (length : Nat) (bytes : List Byte)
  deriving DecidableEq, Repr

/-- The bytes that a call appends (snappy.cc:68 and 115). -/
def SinkCall.bytes : SinkCall → List Byte
  | .append bytes => bytes
  | .fill _ bytes => bytes

/-- `snappy::Compress` and `snappy::Uncompress`: the calls that they make to the sink, given the bytes of the source, and for `Uncompress` the
result (called in snappy.cc:159 and 167). -/
structure Snappy where
  compress : List Byte → List SinkCall
  uncompress : List Byte → Bool × List SinkCall

/-- `std::string`: its bytes and those of the rest of its capacity (`dest_` of snappy.cc:99). -/
structure StdString where
  chars : List Byte
  spare : List Byte
  deriving DecidableEq, Repr

namespace StdString

/-- snappy.cc:56-59 `STLStringResizeUninitialized` where the library supports it: bytes that are added have the values the memory had. If the
capacity does not suffice, the bytes move to memory `fresh`, of which the string takes what it needs. -/
def resizeUninitialized (s : StdString) (fresh : Nat → Byte) (n : Nat) : StdString :=
  if n ≤ s.chars.length + s.spare.length then ⟨(s.chars ++ s.spare).take n, (s.chars ++ s.spare).drop n⟩
  else ⟨s.chars ++ (List.range (n - s.chars.length)).map fresh, []⟩

/-- `std::string::append` (called in snappy.cc:77). -/
def append (s : StdString) (bytes : List Byte) : StdString := ⟨s.chars ++ bytes, s.spare.drop bytes.length⟩

end StdString

namespace StringSink

/-- snappy.cc:80-96 `StringSink::GetAppendBuffer`: the string afterwards and whether the buffer is the memory behind its bytes (otherwise it is
the scratch memory of the caller). `nontrashing`: snappy.cc:50-53 `STLStringSupportsNontrashingResize`, which depends on the C++ library. -/
def getAppendBuffer (nontrashing : Bool) (fresh : Nat → Byte) (dest : StdString) (size : Nat) : StdString × Bool :=
  if !nontrashing then (dest, false)
  else if size + dest.chars.length > dest.chars.length + dest.spare.length then
    ((dest.resizeUninitialized fresh (size + dest.chars.length)).resizeUninitialized fresh dest.chars.length, true)
  else (dest, true)

/-- The library writes to the buffer it got behind the bytes of the string. A write beyond the capacity
is undefined behaviour (the buffer is given in snappy.cc:95). -/
def write (dest : StdString) (bytes : List Byte) : Res StdString :=
  if bytes.length ≤ dest.spare.length then .ok ⟨dest.chars, bytes ++ dest.spare.drop bytes.length⟩ else .died

/-- snappy.cc:68-78 `StringSink::Append`; `behind`: the bytes are in the memory behind those of the string. -/
def append (nontrashing : Bool) (fresh : Nat → Byte) (dest : StdString) (behind : Bool) (bytes : List Byte) : StdString :=
  if nontrashing && behind then dest.resizeUninitialized fresh (dest.chars.length + bytes.length)
  else dest.append bytes

/-- The library writes `bytes` to the buffer it got and appends them (snappy.cc:80-96 and 68-78). -/
def fill (nontrashing : Bool) (fresh : Nat → Byte) (dest : StdString) (behind : Bool) (bytes : List Byte) : Res StdString :=
  if behind then
    match write dest bytes with
    | .ok dest => .ok (append nontrashing fresh dest behind bytes)
    | .err c => .err c
    | .died => .died
  else .ok (append nontrashing fresh dest behind bytes)

/-- One call of the library (snappy.cc:61-100). -/
def call (nontrashing : Bool) (fresh : Nat → Byte) (dest : StdString) : SinkCall → Res StdString
  | .append bytes => .ok (append nontrashing fresh dest false bytes)
  | .fill length bytes =>
    fill nontrashing fresh (getAppendBuffer nontrashing fresh dest length).1 (getAppendBuffer nontrashing fresh dest length).2 bytes

/-- The calls of the library, one after the other (snappy.cc:159). -/
def calls (nontrashing : Bool) (fresh : Nat → Byte) (dest : StdString) : List SinkCall → Res StdString
  | [] => .ok dest
  | c :: cs =>
    match call nontrashing fresh dest c with
    | .ok dest => calls nontrashing fresh dest cs
    | .err c => .err c
    | .died => .died

end StringSink

/-- snappy.cc:155-160 `SnappyCompressFromString`. -/
def Snappy.compressFromString (z : Snappy) (nontrashing : Bool) (fresh : Nat → Byte) (input : List Byte) (output : StdString) : Res StdString :=
  StringSink.calls nontrashing fresh output (z.compress input)

/-- snappy.cc:103-151 `CheckedByteArraySink`. `mem`: the memory from `outbuf_` on, also beyond the capacity. -/
structure ByteSink where
  mem : Nat → Byte
  capacity : Nat
  size : Nat
  overflowed : Bool

namespace ByteSink

/-- `memcpy` (snappy.cc:125). -/
def write (mem : Nat → Byte) (start : Nat) (bytes : List Byte) : Nat → Byte :=
  fun i => if start ≤ i then bytes.getD (i - start) (mem i) else mem i

/-- snappy.cc:130-137 `GetAppendBuffer`: whether the buffer is `outbuf_ + size_` (otherwise it is the scratch memory of the caller). -/
def getAppendBuffer (s : ByteSink) (length : Nat) : Bool := decide (s.capacity - s.size ≥ length)

/-- snappy.cc:116-120: how many of `n` bytes are appended. -/
def taken (s : ByteSink) (n : Nat) : Nat :=
  let available := s.capacity - s.size
  if n > available then available else n

/-- snappy.cc:115-128 `Append`; `inPlace`: the bytes are at `outbuf_ + size_`. The assertion of 124 is left out. -/
def append (s : ByteSink) (inPlace : Bool) (bytes : List Byte) : ByteSink :=
  { s with
    overflowed := s.overflowed || decide (bytes.length > s.capacity - s.size)
    mem := if s.taken bytes.length > 0 ∧ !inPlace then write s.mem s.size (bytes.take (s.taken bytes.length)) else s.mem
    size := s.size + s.taken bytes.length }

/-- One call of the library (snappy.cc:103-151). -/
def call (s : ByteSink) : SinkCall → ByteSink
  | .append bytes => s.append false bytes
  | .fill length bytes =>
    if s.getAppendBuffer length then { s with mem := write s.mem s.size bytes }.append true bytes
    else s.append false bytes

end ByteSink

/-- snappy.cc:162-168 `SnappyUncompressToString`: the result and the memory afterwards. -/
def Snappy.uncompressToString (z : Snappy) (input : List Byte) (capacity : Nat) (mem : Nat → Byte) : Bool × (Nat → Byte) :=
  let (ok, calls) := z.uncompress input
  (ok, (calls.foldl ByteSink.call ⟨mem, capacity, 0, false⟩).mem)

/-- `tensorflow::DataTypeSize`: the bytes of an element. Strings have none, their elements are elsewhere
(used by `tensor_data` in tensor_compression.cc:88 and 104). -/
def DType.bytes : DType → Nat
  | .int8 | .uint8 | .bool => 1
  | .int16 | .uint16 => 2
  | .int32 | .uint32 | .float => 4
  | .int64 | .uint64 | .double => 8
  | .string => 0

/-- The bytes of an element in memory; the machine is little-endian (`tensor_data` in
tensor_compression.cc:88). -/
def toBytes : Nat → Nat → List Byte
  | 0, _ => []
  | n + 1, x => BitVec.ofNat 8 (x % 256) :: toBytes n (x / 256)

/-- The element at a place in memory (`tensor_data` in tensor_compression.cc:105). -/
def fromMemory (mem : Nat → Byte) (start : Nat) : Nat → Nat
  | 0 => 0
  | n + 1 => (mem start).toNat + 256 * fromMemory mem (start + 1) n

/-- `Tensor::tensor_data`: the bytes of the elements, one after the other (tensor_compression.cc:88). -/
def Tensor.tensorData (t : Tensor) : List Byte := t.data.flatMap (toBytes t.dtype.bytes)

/-- `tensorflow.TensorProto`, as far as it is used: the type, the shape, `tensor_content` and, for
strings, the elements (tensor_compression.cc:81-108). -/
structure TensorProto where
  dtype : DType
  shape : List Nat
  content : StdString
  strings : List Nat
  deriving DecidableEq, Repr

/-- A proto that has just been made by `add_tensors()`; the type is `DT_INVALID`, for which any type
stands here (the argument of tensor_compression.cc:81-82). -/
def TensorProto.empty : TensorProto := ⟨.float, [], ⟨[], []⟩, []⟩

/-- tensor_compression.cc:81-91 `CompressTensorAsProto`. `AsProtoTensorContent` of TensorFlow puts the strings into the content, encoded in a
way that is not modelled. -/
def compressTensorAsProto (z : Snappy) (nontrashing : Bool) (fresh : Nat → Byte) (t : Tensor) (proto : TensorProto) : Res TensorProto :=
  if t.dtype = .string then .ok ⟨t.dtype, t.shape, proto.content, t.data⟩
  else
    match z.compressFromString nontrashing fresh t.tensorData proto.content with
    | .ok content => .ok ⟨t.dtype, t.shape, content, proto.strings⟩
    | .err c => .err c
    | .died => .died

/-- tensor_compression.cc:93-108 `DecompressTensorFromProto`: the tensor, and the memory afterwards. `mem`: what the memory, from the start of
the buffer of the new tensor on, has in it. `REVERB_CHECK(tensor.FromProto(proto))` fails if the number of strings does not fit the shape. -/
def decompressTensorFromProto (z : Snappy) (mem : Nat → Byte) (proto : TensorProto) : Res (Tensor × (Nat → Byte)) :=
  if proto.dtype = .string then
    if proto.strings.length = Tensor.numElems proto.shape then .ok (⟨proto.dtype, proto.shape, proto.strings⟩, mem) else .died
  else
    let size := proto.dtype.bytes
    let count := Tensor.numElems proto.shape
    let (_, mem) := z.uncompressToString proto.content.chars (count * size) mem
    .ok (⟨proto.dtype, proto.shape, (List.range count).map fun i => fromMemory mem (i * size) size⟩, mem)

end Verif
