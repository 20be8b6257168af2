import Verif.Model.Chunker
/-
The comparison of chunker options in Python (pybind.cc:859-878).
-/
namespace Verif.OptsEq

/-- What `a == b` gives in Python (pybind.cc:859-878). -/
inductive EqRes where
  | bool (b : Bool)
  /-- pybind11 refuses an argument of another class -/
  | typeError
  deriving DecidableEq, Repr

/-- `__eq__` of the two classes of options (pybind.cc:864-868, 875-878). -/
def pyEq : ChunkerOpts → ChunkerOpts → EqRes
  | .constant m k _, .constant m' k' _ => .bool (m == m' && k == k')
  | .auto a, .auto b => .bool (a.keep == b.keep)
  | _, _ => .typeError

/-- `ConstantChunkerOptions(max_chunk_length, num_keep_alive_refs)` in Python (pybind.cc:862-863). -/
def constant (maxLen keep : Int) : ChunkerOpts := .constant maxLen keep false

/-- `AutoTunedChunkerOptions(num_keep_alive_refs, throughput_weight)` in Python (pybind.cc:873-874). -/
def auto (keep : Int) (weight : Rat) : ChunkerOpts := .auto (.new keep weight false)

/-- `OnItemFinalized` for one item after the other (chunker.cc:329-342); `none`: a check has failed. -/
def feed (o : ChunkerOpts) : List (List ChunkObs) → Option ChunkerOpts
  | [] => some o
  | refs :: items => (o.onItemFinalized refs).bind fun o => feed o items

/-- The options of a column of a trajectory writer that was given `o`: a clone (trajectory_writer.cc:225, 649, 652), which is told about the
items. -/
def serve (o : ChunkerOpts) (items : List (List ChunkObs)) : Option ChunkerOpts := feed o.clone items

end Verif.OptsEq
