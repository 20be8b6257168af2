import Verif.Model.Writer
import Verif.Spec.Sample
import Verif.Spec.OutputSpec
/-
Words for C42, C43 and C71 to C74: what a user of the old writer has appended and asked for, and what an item shows.
-/
namespace Verif

/-- The data of one call of `Append`. -/
abbrev Timestep := List Tensor

/-- The last `n` of some steps. -/
def lastSteps (n : Nat) (steps : List Timestep) : List Timestep := steps.drop (steps.length - n)

/-- An item with trajectory `traj`, looked up in `chunks`, shows exactly `steps`: it has one column per tensor of a step, none of them is squeezed, and the
steps are cut into parts so that the rows which the `j`-th slice of the `i`-th column selects are the `i`-th tensors of the `j`-th part. -/
def ShowsSteps (traj : FlatTraj) (chunks : List ChunkData) (columns : Nat) (steps : List Timestep) : Prop :=
  traj.length = columns ∧ ∃ parts : List (List Timestep), parts.flatten = steps ∧ (∀ p ∈ parts, p ≠ []) ∧
    ∀ (i : Nat) (col : Column), traj[i]? = some col → col.squeeze = false ∧ col.slices.length = parts.length ∧
      ∀ (j : Nat) (sl : Slice) (p : List Timestep), col.slices[j]? = some sl → parts[j]? = some p →
        ∃ d shape rows, sl.Selects chunks d shape rows ∧ rows.map some = p.map (·[i]?)

/-- The chunk holds exactly these steps: it has `columns` tensors, and the `i`-th of them is made of the `i`-th tensors of the steps. -/
def ChunkData.HasSteps (c : ChunkData) (columns : Nat) (steps : List Timestep) : Prop :=
  c.tensors.length = columns ∧ ∀ i < columns, ∃ d shape rows, unpackChunkColumn c i = .ok (Tensor.stack d shape rows) ∧
    rows.map some = steps.map (·[i]?)

/-- The chunk says that it has the steps `start` to `end` of the episode, counted from zero, and it has exactly these. -/
def ChunkData.InPlace (c : ChunkData) (episode : Key) (columns : Nat) (steps : List Timestep) : Prop :=
  ∃ (r : SeqRange) (start end_ : Nat), c.range = some r ∧ r.episode = episode ∧ r.start = start ∧ r.end_ = end_ ∧ start ≤ end_ ∧ end_ < steps.length ∧
    c.HasSteps columns ((steps.take (end_ + 1)).drop start)

namespace Writer

/-- The step that a call wants to append. -/
def Call.offered : Call → List Timestep
  | .append data => [data]
  | _ => []

/-- A call with the answers it gets from outside. -/
abbrev Event := Call × List Answer

/-- The step that a call has appended: that of an `Append` that returns OK. -/
def appended (w : Writer) : Event → List Timestep
  | (.append data, as) => if (w.append data as).2.1 = .ret none then [data] else []
  | _ => []

/-- The steps that have been appended, oldest first. -/
def history (w : Writer) : List Event → List Timestep
  | [] => []
  | (c, as) :: rest => w.appended (c, as) ++ history (w.call c as).1 rest

/-- The requests written to the streams of the writer, one list for each stream. The last one of a stream may not have got through. -/
def streams (w : Writer) : List (List Msg) := w.past ++ [w.msgs]

/-- A new writer. The keys that `NewID` draws are different. -/
structure New (w : Writer) : Prop where
  new : w = .new w.chunkLength w.maxTimesteps w.delta w.maxInFlight w.sigs w.gen w.big
  keys : ∀ i j, w.gen i = w.gen j → i = j

/-- The number of steps that are in the chunks and in the buffer. -/
def held (w : Writer) : Int := (w.chunks.map ChunkData.rangeLength).sum + w.buffer.length

/-- The item was asked for by one of the calls, with this table and this priority, and `steps` were then the last ones. Its key is the one
that this call, and no other, drew. -/
def AskedFor (w : Writer) (evs : List Event) (it : WItem) (steps : List Timestep) : Prop :=
  ∃ pre table priority as post w1, ∃ n : Nat, evs = pre ++ (.createItem table n priority, as) :: post ∧ w.run pre = some w1 ∧
    it.key = w1.gen w1.drawn ∧ (w1.createItem table n priority as).1.drawn = w1.drawn + 1 ∧ it.table = table ∧ it.priority = priority ∧
    n ≤ (w.history pre).length ∧ steps = lastSteps n (w.history pre)

/-- What C42 needs of a call, made in state `w`: every step has `columns` tensors, each of which is well-formed; items ask for at least one
step, and for no more than the writer has unless they are refused; and no stream ends with OK though a `Write` on it failed. -/
def Sound (w : Writer) (columns : Nat) : Event → Prop
  | (.append data, as) => data.length = columns ∧ (∀ t ∈ data, t.WF) ∧ .finish none ∉ as
  | (.createItem table n priority, as) =>
    0 < n ∧ (n ≤ w.held ∨ ∃ e, w.createItem table n priority as = (w, .ret (some e), as)) ∧ .finish none ∉ as
  | (.flush, as) => .finish none ∉ as
  | (.close _, _) => True

/-- All calls are so. -/
def AllSound (w : Writer) (columns : Nat) : List Event → Prop
  | [] => True
  | e :: rest => w.Sound columns e ∧ AllSound (w.call e.1 e.2).1 columns rest

/-- Calls of a user who does not call `Flush`; for these `n` need not be restricted from above. -/
def Plain (columns : Nat) : Event → Prop
  | (.append data, as) => data.length = columns ∧ (∀ t ∈ data, t.WF) ∧ .finish none ∉ as
  | (.createItem _ n _, as) => 0 < n ∧ .finish none ∉ as
  | (.flush, _) => False
  | (.close _, _) => True

/-- A step agrees with the signature of a table. -/
def _root_.Verif.Timestep.Fits (step : Timestep) (sig : List TensorSpec) : Prop :=
  step.length = sig.length ∧ ∀ (i : Nat) (want : TensorSpec) (t : Tensor), sig[i]? = some want → step[i]? = some t → want.Allows t.dtype t.shape

/-- The steps agree with what the client knows about the tables: if it knows about tables then it knows about this one, and if this one has a
signature then each step agrees with it. -/
def _root_.Verif.Signatures.Allow (sigs : Option Signatures) (table : String) (steps : List Timestep) : Prop :=
  ∀ s, sigs = some s → ∃ sig, s.get? table = some sig ∧ ∀ want, sig = some want → ∀ step ∈ steps, step.Fits want

/-- `Append` for one step after the other, while it returns OK. -/
def appendEach (w : Writer) (as : List Answer) : List Timestep → Writer × Ret (Option Code) × List Answer
  | [] => (w, .ret none, as)
  | step :: rest =>
    if (w.append step as).2.1 = .ret none then (w.append step as).1.appendEach (w.append step as).2.2 rest
    else w.append step as

/-- What the calls change only by writing to streams is left out. -/
def core (w : Writer) : Writer :=
  { w with
    inFlight := 0
    running := false
    pending := []
    streamed := []
    stream := false
    half := false
    msgs := []
    past := []
    sent := []
    written := 0
    acks := 0 }

end Writer
end Verif
