import Verif.Model.Tensor
import Verif.Model.Trajectory
/-
The operations on tensors that Reverb takes from TensorFlow, the proto `ChunkData`, and the unpacking of chunks in
support/trajectory_util.cc. Compression and the conversion to protos are taken to be lossless and are not modelled.
-/
namespace Verif
namespace Tensor

/-- chunker.cc:144-153: a batch dimension is put in front. -/
def addBatchDim (t : Tensor) : Tensor := { t with shape := 1 :: t.shape }

/-- chunker.cc:318-322: the batch dimension is taken off. -/
def dropBatchDim (t : Tensor) : Tensor := { t with shape := t.shape.tail }

/-- Number of elements of a row (used for `Concat` and `Slice`, chunker.cc:195, trajectory_util.cc:172).
-/
def rowSize (t : Tensor) : Nat := numElems t.shape.tail

/-- `tensorflow::tensor::Concat` along the first dimension. It refuses an empty list, scalars and different types; it does not
look at the other dimensions, and if they differ it dies or writes rubbish (`died`) (called in
chunker.cc:195, writer.cc:414, sampler.cc:876; TensorFlow code). -/
def concat (ts : List Tensor) : Res Tensor :=
  match ts with
  | [] => .err .invalidArgument
  | t :: rest =>
    if (t :: rest).any (fun u => u.shape.isEmpty) then .err .invalidArgument
    else if rest.any (fun u => u.dtype ≠ t.dtype) then .err .invalidArgument
    else if rest.any (fun u => u.shape.tail ≠ t.shape.tail) then .died
    else .ok ⟨t.dtype, ((t :: rest).map fun u => u.shape.headD 0).sum :: t.shape.tail, (t :: rest).flatMap Tensor.data⟩

/-- `tensorflow::Tensor::Slice(start, limit)`, with its `CHECK`s (called in trajectory_util.cc:172;
TensorFlow code). -/
def slice (t : Tensor) (start limit : Nat) : Res Tensor :=
  match t.shape with
  | [] => .died
  | n :: rest =>
    if start ≤ limit ∧ limit ≤ n then
      .ok ⟨t.dtype, (limit - start) :: rest, (t.data.drop (start * numElems rest)).take ((limit - start) * numElems rest)⟩
    else .died

/-- `tensorflow::Tensor::SubSlice(index)`, with its `CHECK`s (called in chunker.cc:296, writer.cc:141,
sampler.cc:755 and 847; TensorFlow code). -/
def subSlice (t : Tensor) (index : Nat) : Res Tensor :=
  match t.shape with
  | [] => .died
  | n :: rest =>
    if index < n then .ok ⟨t.dtype, rest, (t.data.drop (index * numElems rest)).take (numElems rest)⟩
    else .died

end Tensor

/-- schema.proto `SequenceRange` (schema.proto:49-65). -/
structure SeqRange where
  episode : Key
  start : Int
  end_ : Int
  sparse : Bool
  deriving DecidableEq, Repr

/-- schema.proto `ChunkData`, without the deprecated field (schema.proto:13-37). -/
structure ChunkData where
  key : Key
  range : Option SeqRange
  tensors : List Tensor
  deltaEncoded : Bool
  deriving DecidableEq, Repr

/-- trajectory_util.cc:145-159 `UnpackChunkColumn`. -/
def unpackChunkColumn (c : ChunkData) (column : Int) : Res Tensor :=
  if c.tensors.length ≤ column ∨ column < 0 then .err .invalidArgument
  else
    match c.tensors[column.toNat]? with
    | none => .err .invalidArgument
    | some t => if c.deltaEncoded then t.deltaEncode false else .ok t

/-- trajectory_util.cc:161-179 `UnpackChunkColumnAndSlice`; `dim_size(0)` of a scalar and a negative length fail a `CHECK`.
Overflow of `offset + length` is not modelled. -/
def unpackChunkColumnAndSlice (c : ChunkData) (column offset length : Int) : Res Tensor :=
  match unpackChunkColumn c column with
  | .ok t =>
    match t.shape with
    | [] => .died
    | n :: _ =>
      if offset < 0 ∨ n < offset + length then .err .invalidArgument
      else if length < 0 then .died
      else t.slice offset.toNat (offset + length).toNat
  | .err e => .err e
  | .died => .died

/-- trajectory_util.cc:181-185. -/
def unpackSlice (c : ChunkData) (s : Slice) : Res Tensor := unpackChunkColumnAndSlice c s.index s.offset s.length

end Verif
