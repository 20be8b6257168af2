import Verif.Basic
/-
Trajectory descriptions (schema.proto `FlatTrajectory`) and support/trajectory_util.cc.
Tensors appear in `Model/Chunk.lean`.
-/
namespace Verif

/-- schema.proto `FlatTrajectory.ChunkSlice` (schema.proto:68-80). -/
structure Slice where
  chunk : Key
  offset : Int
  length : Int
  index : Int
  deriving DecidableEq, Repr

/-- schema.proto `FlatTrajectory.Column` (schema.proto:82-92). -/
structure Column where
  slices : List Slice
  squeeze : Bool
  deriving DecidableEq, Repr

/-- schema.proto `FlatTrajectory` (schema.proto:67-96). -/
abbrev FlatTraj := List Column

/-- trajectory_util.cc:42-45: one pass of the inner loop. `seen` always holds the same keys as
`keys`, so one list models both. -/
def chunkKeysStep (keys : List Key) (s : Slice) : List Key :=
  if s.chunk ∈ keys then keys else keys ++ [s.chunk]

/-- trajectory_util.cc:37-48 `GetChunkKeys`. -/
def getChunkKeys (t : FlatTraj) : List Key :=
  t.foldl (fun keys col => col.slices.foldl chunkKeysStep keys) []

/-- trajectory_util.cc:61-73: the slices of one column of `FlatTimestepTrajectory`; `none` is a
failed `REVERB_CHECK`. -/
def timestepSlices (col : Nat) : List (Key × Int) → Int → Int → Option (List Slice)
  | [], _, remaining => if remaining = 0 then some [] else none
  | (k, len) :: rest, offset, remaining =>
    if 0 < remaining then
      let l := min (len - offset) remaining
      match timestepSlices col rest 0 (remaining - l) with
      | none => none
      | some ss => some (⟨k, offset, l, col⟩ :: ss)
    else none

/-- trajectory_util.cc:50-78 `FlatTimestepTrajectory`; the two spans of equal length are one list of
pairs. -/
def flatTimestepTrajectory (chunks : List (Key × Int)) (numColumns : Nat) (offset length : Int) :
    Option FlatTraj :=
  (List.range numColumns).mapM fun col =>
    (timestepSlices col chunks offset length).map fun ss => ⟨ss, false⟩

/-- trajectory_util.cc:93-100 `ColumnLength`. -/
def Column.length (c : Column) : Int := (c.slices.map Slice.length).sum

/-- trajectory_util.cc:131-137: does a slice of column `ci` agree with that of the first column? -/
def sliceAgrees (ci : Nat) (s f : Slice) : Bool :=
  s.chunk == f.chunk && s.offset == f.offset && s.length == f.length && s.index == (ci : Int)

/-- trajectory_util.cc:121-140: does a column agree with the first one? -/
def columnAgrees (first : Column) (ci : Nat) (c : Column) : Bool :=
  c.slices.length == first.slices.length &&
    (c.slices.zip first.slices).all (fun p => sliceAgrees ci p.1 p.2)

/-- trajectory_util.cc:107-143 `IsTimestepTrajectory`. -/
def isTimestepTrajectory (t : FlatTraj) : Bool :=
  match t with
  | [] => false
  | first :: _ =>
    (first.slices.drop 1).all (fun s => !decide (0 < s.offset)) &&
      (t.zipIdx.all fun p => columnAgrees first p.2 p.1)

/-- trajectory_util.cc:102-105 `TimestepTrajectoryLength`; `none` is the failed `REVERB_CHECK`. -/
def timestepTrajectoryLength (t : FlatTraj) : Option Int := t.head?.map Column.length

/-- trajectory_util.cc:187-189 `TimestepTrajectoryOffset`; `none` is an access out of range. -/
def timestepTrajectoryOffset (t : FlatTraj) : Option Int := do
  let c ← t.head?
  let s ← c.slices.head?
  return s.offset

end Verif
