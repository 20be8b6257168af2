import Verif.Model.Chunker
import Verif.Spec.Rows
/-
Words for C34–C36.
-/
namespace Verif
namespace Chunker

/-- What is given to `Append`. -/
structure Row where
  tensor : Tensor
  episode : Key
  step : Int
  deriving DecidableEq, Repr

/-- What a call appended: something only if it is an `Append` that returned a reference. -/
def Op.accepted : Op → Res (Option Nat) → List Row
  | .append t e s, .ok _ => [⟨t, e, s⟩]
  | _, _ => []

/-- The rows appended so far, oldest first. -/
def appended (c : Chunker) : List Op → List Row
  | [] => []
  | op :: ops => op.accepted (c.step op).2 ++ appended (c.step op).1 ops

/-- Is the call a `Reset`? -/
def Op.isReset : Op → Bool
  | .reset => true
  | _ => false

/-- Tensors are well formed and options are newly made, as by `Clone`. -/
def Op.Valid : Op → Prop
  | .append t _ _ => t.WF
  | .configure (.auto a) => a.items = [] ∧ a.chunks = []
  | _ => True

/-- A new chunker as the writer makes it: with options that are valid and newly made, and keys that do not repeat. -/
structure Started (c : Chunker) : Prop where
  opts : c.opts.validate = .ok ()
  fresh : Op.Valid (.configure c.opts)
  keys : ∀ i j, c.keyGen i = c.keyGen j → i = j
  new : Chunker.new c.dtype c.shape c.opts c.keyGen = .ok c

/-- The cells of a chunk, oldest first. -/
def cellsOf (c : Chunker) (ch : ChunkData) : List Cell := c.cells.filter fun cell => cell.key = ch.key

/-- Options with a constant length of at most `B`. -/
def ConstantLe (B : Nat) (o : ChunkerOpts) : Prop := ∃ m k d, o = .constant m k d ∧ m ≤ B

end Chunker

namespace AutoTuned

/-- The options after some items. -/
def after (a : AutoTuned) : List (List ChunkObs) → Option AutoTuned
  | [] => some a
  | refs :: items =>
    match a.onItemFinalized refs with
    | none => none
    | some a' => after a' items

end AutoTuned

/-- Steps without gaps. -/
def Consecutive (steps : List Int) : Prop := ∀ (i : Nat) (a b : Int), steps[i]? = some a → steps[i + 1]? = some b → b = a + 1

/-- The chunk `ch` was made of `rows`: they are from one episode, their steps increase, and the chunk names the episode, the
first and the last step and whether there are gaps, and its only column contains the rows' tensors. -/
structure ChunkData.MadeOf (ch : ChunkData) (dtype : DType) (shape : List Nat) (rows : List Chunker.Row) : Prop where
  range : ∃ first last range, rows.head? = some first ∧ rows.getLast? = some last ∧ ch.range = some range ∧
    range.start = first.step ∧ range.end_ = last.step ∧ (∀ r ∈ rows, r.episode = range.episode) ∧
    (range.sparse = true ↔ ¬ Consecutive (rows.map Chunker.Row.step))
  increasing : (rows.map Chunker.Row.step).Pairwise (· < ·)
  column : ch.tensors.length = 1
  data : unpackChunkColumn ch 0 = .ok (Tensor.stack dtype shape (rows.map Chunker.Row.tensor))

end Verif
