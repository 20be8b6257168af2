import Verif.Model.Compression
/-
Words for the properties of the compression (C104).
-/
namespace Verif

/-- The library uses a buffer only as far as it asked for it. -/
def SinkCall.Fits : SinkCall → Prop
  | .append _ => True
  | .fill length bytes => bytes.length ≤ length

/-- The bytes that are given to a sink. -/
def appended (calls : List SinkCall) : List Byte := calls.flatMap SinkCall.bytes

/-- The library keeps to its interface. -/
structure Snappy.Polite (z : Snappy) : Prop where
  compress : ∀ x, ∀ c ∈ z.compress x, c.Fits
  uncompress : ∀ x, ∀ c ∈ (z.uncompress x).2, c.Fits

/-- The library gets back what it compressed. -/
def Snappy.Lossless (z : Snappy) : Prop :=
  ∀ x, (z.uncompress (appended (z.compress x))).1 = true ∧ appended (z.uncompress (appended (z.compress x))).2 = x

/-- What `tensorflow::Tensor` guarantees: as many elements as the shape says, and each fits the type. -/
structure Tensor.Real (t : Tensor) : Prop where
  len : t.data.length = Tensor.numElems t.shape
  fits : t.dtype ≠ .string → ∀ x ∈ t.data, x < 256 ^ t.dtype.bytes

end Verif
