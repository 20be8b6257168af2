import Verif.Model.ChunkData
/-
`internal::TensorSpec` and TensorFlow's `PartialTensorShape`.
-/
namespace Verif

/-- `tensorflow::PartialTensorShape`: `none` is an unknown rank, a dimension `none` an unknown size
(TensorFlow code; support/signature.h:38-42). -/
abbrev PShape := Option (List (Option Nat))

/-- A shape without unknown dimensions (TensorFlow code; chunker.cc:119, trajectory_writer.cc:225-228).
-/
def PShape.ofShape (s : List Nat) : PShape := some (s.map some)

/-- `PartialTensorShape::IsCompatibleWith`, dimension by dimension (TensorFlow code, called in
chunker.cc:119, client.cc:274, sampler.cc:610, trajectory_writer.cc:354 and 691, writer.cc:206). -/
def dimsCompatible : List (Option Nat) → List (Option Nat) → Bool
  | [], [] => true
  | some a :: as, some b :: bs => a == b && dimsCompatible as bs
  | _ :: as, _ :: bs => dimsCompatible as bs
  | _, _ => false

/-- `PartialTensorShape::IsCompatibleWith` (TensorFlow code, called in chunker.cc:119, client.cc:274,
sampler.cc:610, trajectory_writer.cc:354 and 691, writer.cc:206). -/
def PShape.compatible : PShape → PShape → Bool
  | some a, some b => dimsCompatible a b
  | _, _ => true

/-- `PartialTensorShape::InsertDim(0, n)` for a shape of known rank (TensorFlow code, called in
trajectory_writer.cc:132). -/
def PShape.insertDim0 (s : PShape) (n : Int) : PShape := s.map fun dims => (if n < 0 then none else some n.toNat) :: dims

/-- support/signature.h `TensorSpec`, without the name (support/signature.h:38-42). -/
structure TensorSpec where
  dtype : DType
  shape : PShape
  deriving DecidableEq, Repr

/-- trajectory_writer.cc:354, sampler.cc:609-610: does a tensor with spec `got` fit `want`? -/
def TensorSpec.accepts (want got : TensorSpec) : Bool := want.dtype == got.dtype && want.shape.compatible got.shape

end Verif
