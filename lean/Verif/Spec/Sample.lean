import Verif.Model.Sample
import Verif.Spec.Rows
/-
Words for C44 and C46.
-/
namespace Verif

/-- A column of a sample: rows of one type and shape, cut into chunks. -/
structure RowColumn where
  dtype : DType
  shape : List Nat
  chunks : List (List Tensor)

namespace RowColumn

/-- All rows. -/
def rows (c : RowColumn) : List Tensor := c.chunks.flatten

/-- The tensors that are unpacked from the chunks. -/
def tensors (c : RowColumn) : List Tensor := c.chunks.map (Tensor.stack c.dtype c.shape)

/-- The rows fit the type and shape, and there are no empty chunks. -/
structure Valid (c : RowColumn) : Prop where
  rows : ∀ t ∈ c.rows, Tensor.Is c.dtype c.shape t
  chunks : ∀ ch ∈ c.chunks, ch ≠ []

/-- The lengths of the chunks. -/
def lengths (c : RowColumn) : List Nat := c.chunks.map List.length

end RowColumn

/-- The sample made of the columns, as the workers of the sampler make it. -/
def Sample.ofColumns (info : SampleInfo) (cols : List RowColumn) (squeeze : List Bool) : Res Sample :=
  Sample.new info (cols.map RowColumn.tensors) squeeze

/-- `n` calls of `GetNextTimestep` on a sample: the data and the marks, and the sample after the calls. -/
def Sample.deliverN : Nat → Sample → Res (List (List Tensor × Bool) × Sample)
  | 0, s => .ok ([], s)
  | n + 1, s =>
    match s.deliver with
    | .err e => .err e
    | .died => .died
    | .ok (data, last, s') =>
      match deliverN n s' with
      | .err e => .err e
      | .died => .died
      | .ok (out, s'') => .ok ((data, last) :: out, s'')

/-- The entries carry the sample: together all its chunks in order, the information in the first one, and the mark in the last
one only. -/
structure Carries (s : SampledItem) (es : List Entry) : Prop where
  data : es.flatMap Entry.data = s.chunks
  info : es.head?.bind Entry.info = some (s.info, s.traj)
  last : ∃ init e, es = init ++ [e] ∧ e.last = true ∧ ∀ x ∈ init, x.last = false

/-- A sampled item as the table gives it: at least one chunk, no chunk twice, and all chunks of the trajectory. -/
structure SampledItem.Valid (s : SampledItem) : Prop where
  ne : s.chunks ≠ []
  nodup : (s.chunks.map ChunkData.key).Nodup
  all : ∀ col ∈ s.traj, ∀ sl ∈ col.slices, sl.chunk ∈ s.chunks.map ChunkData.key

/-- The slice selects `rows`: they stand from `offset` on in the column `index` of its chunk. -/
def Slice.Selects (chunks : List ChunkData) (d : DType) (shape : List Nat) (sl : Slice) (rows : List Tensor) : Prop :=
  ∃ c all off len, c ∈ chunks ∧ c.key = sl.chunk ∧ unpackChunkColumn c sl.index = .ok (Tensor.stack d shape all) ∧
    (∀ t ∈ all, Tensor.Is d shape t) ∧ sl.offset = Int.ofNat off ∧ sl.length = Int.ofNat len ∧ off + len ≤ all.length ∧
    rows = (all.drop off).take len

/-- The sampled item consists of the columns `cols`: slice by slice they are what the trajectory selects. -/
def SampledItem.Shows (s : SampledItem) (cols : List RowColumn) : Prop :=
  s.traj.length = cols.length ∧ ∀ (i : Nat) (col : Column) (rc : RowColumn), s.traj[i]? = some col → cols[i]? = some rc →
    col.slices.length = rc.chunks.length ∧ ∀ (j : Nat) (sl : Slice) (rows : List Tensor), col.slices[j]? = some sl → rc.chunks[j]? = some rows →
      sl.Selects s.chunks rc.dtype rc.shape rows

namespace Reactor

/-- The calls that the writing side of the reactor gets. -/
inductive Event where
  | batch (samples : List SampledItem)
  | writeDone

/-- One call. gRPC calls `OnWriteDone` only if a write is going on. -/
def step (bytes : ChunkData → Nat) (max : Nat) (r : Reactor) : Event → Reactor
  | .batch samples => r.sampled bytes max samples
  | .writeDone => if r.queue = [] then r else r.writeDone

/-- All calls. -/
def run (bytes : ChunkData → Nat) (max : Nat) (r : Reactor) (evs : List Event) : Reactor := evs.foldl (step bytes max) r

/-- The samples of the batches. -/
def samplesOf (evs : List Event) : List SampledItem := evs.flatMap fun
  | .batch samples => samples
  | .writeDone => []

end Reactor
end Verif
