import Verif.Spec.Service
import Verif.Spec.SampleOrder
import Verif.Spec.TrajWriter
/-
Words for the way of data from a writer through the server to a sampler: how the runs of the three are connected.
-/
namespace Verif

/-- The function with one value changed. -/
def setAt {α : Type} (f : Nat → α) (i : Nat) (a : α) : Nat → α := fun j => if j = i then a else f j

/-- The sample streams of a sampler: the stream that each worker uses, all streams that have been opened, what has been read from each
of them, and the samples that came from it into the queue. -/
structure Links where
  conn : Nat → Option Nat
  opened : List Nat
  read : Nat → List Entry
  came : Nat → List Sample

/-- No stream yet. -/
def Links.none : Links := ⟨fun _ => Option.none, [], fun _ => [], fun _ => []⟩

namespace ClientSampler

/-- Runs of a sampler that is connected to a server which has written `written q` to the sample stream `q`. Each call of `SampleStream` by
a worker opens a new stream of the server; what `Read` gives then is what was written to that stream, in order, as gRPC promises. -/
inductive Linked (c : SamplerCfg) (now : Int) (written : Nat → List Entry) : List Event → ClientSampler → Links → Prop
  | init : Linked c now written [] (ClientSampler.init c now) .none
  | opens {evs v v' L i q n got} : Linked c now written evs v L → v.workers[i]? = some ⟨false, .fetch n got .opening⟩ → q ∉ L.opened →
      step c v (.work i) = some v' → Linked c now written (evs ++ [.work i]) v' { L with
        conn := setAt L.conn i (some q)
        opened := L.opened ++ [q] }
  | reads {evs v v' L i q es} : Linked c now written evs v L → L.conn i = some q → L.read q ++ es <+: written q →
      step c v (.response i es) = some v' → Linked c now written (evs ++ [.response i es]) v' { L with read := setAt L.read q (L.read q ++ es) }
  | pushes {evs v v' L i q s} : Linked c now written evs v L → L.conn i = some q → step c v (.work i) = some v' →
      v'.pushed = v.pushed ++ [(i, s)] → Linked c now written (evs ++ [.work i]) v' { L with came := setAt L.came q (L.came q ++ [s]) }
  | other {evs v v' L e} : Linked c now written evs v L → (∀ i es, e ≠ .response i es) →
      (∀ i n got, e = .work i → v.workers[i]? ≠ some ⟨false, .fetch n got .opening⟩) → step c v e = some v' → v'.pushed = v.pushed →
      Linked c now written (evs ++ [e]) v' L

end ClientSampler

namespace TrajWriter

/-- The event of a writer that made the item, and what was given to it: `CreateItem` for the table, which returned OK and drew the key, with columns
of references. -/
structure Made (W : TrajWriter) (E : List Event) (name : String) (key : Key) (pre : List Event) (cols : List TrajCol) : Prop where
  mk ::
  event : ∃ p post, E = pre ++ .createItem name p cols :: post ∧ W.replyAt pre (.createItem name p cols) = .ok (.item key)

/-- The tensors that the references of the columns were returned for, column by column. -/
structure Gives (W : TrajWriter) (pre : List Event) (cols : List TrajCol) (values : List (List Tensor)) : Prop where
  mk ::
  length : values.length = cols.length
  names : ∀ (i : Nat) (col : TrajCol) (ts : List Tensor), cols[i]? = some col → values[i]? = some ts → ts.length = col.refs.length ∧
    ∀ (j : Nat) (r : Ref) (x : Tensor), col.refs[j]? = some r → ts[j]? = some x → W.Names pre r x

/-- What is read back are these tensors: one tensor for a squeezed column, otherwise all of the column one on the other. -/
structure ReadsBack (cols : List TrajCol) (values : List (List Tensor)) (out : List Tensor) : Prop where
  mk ::
  length : out.length = cols.length
  column : ∀ (i : Nat) (col : TrajCol) (ts : List Tensor) (x : Tensor), cols[i]? = some col → values[i]? = some ts → out[i]? = some x →
    if col.squeeze then ts = [x] else ∃ d sh, (∀ y ∈ ts, Tensor.Is d sh y) ∧ x = Tensor.stack d sh ts

end TrajWriter
end Verif
