import Verif.Model.InsertStream
import Verif.Spec.Sample
import Verif.Spec.Chunker
/-
Words for C33 and C37–C41.
-/
namespace Verif
namespace TrajWriter

/-- A new writer. The keys from the generators do not repeat, and the options are newly made. -/
structure Started (w : TrajWriter) : Prop where
  new : TrajWriter.new w.opts w.sig w.colGen w.gen = .ok w
  gen : ∀ i j, w.gen i = w.gen j → i = j
  colGen : ∀ i j m n, w.colGen i m = w.colGen j n → i = j ∧ m = n

/-- Tensors are well formed. -/
def Event.Valid : Event → Prop
  | .append data _ => ∀ t, some t ∈ data → t.WF
  | _ => True

/-- The reply to an event that happens after `pre`. -/
def replyAt (w : TrajWriter) (pre : List Event) (e : Event) : Res Reply := ((w.run pre).handle e).2

/-- The keys of the items created by an event. -/
def Event.creates : Event → Res Reply → List Key
  | .createItem .., .ok (.item k) => [k]
  | _, _ => []

/-- The keys of the items created so far, oldest first. -/
def created (w : TrajWriter) : List Event → List Key
  | [] => []
  | e :: evs => e.creates (w.handle e).2 ++ created (w.handle e).1 evs

/-- The keys that the server confirmed. -/
def confirmed (evs : List Event) : List Key := evs.flatMap fun
  | .confirm keys => keys
  | _ => []

/-- The requests of all streams so far, each a list in the order of writing. A request counts even if `Write` failed. -/
def streams (w : TrajWriter) : List (List Msg) := w.past ++ [w.msgs]

/-- The reference was returned by an `Append` of the tensor. -/
def Names (w : TrajWriter) (evs : List Event) (r : Ref) (t : Tensor) : Prop :=
  ∃ pre data inc post refs, evs = pre ++ .append data inc :: post ∧ w.replyAt pre (.append data inc) = .ok (.refs refs) ∧
    data[r.col]? = some (some t) ∧ refs[r.col]? = some (some r)

end TrajWriter

/-- The items of a stream, in the order of writing. -/
def itemsOf (s : List Msg) : List WItem := s.filterMap fun m => m.item.map Prod.fst

/-- Their keys. -/
def itemKeys (s : List Msg) : List Key := (itemsOf s).map WItem.key

namespace TrajWriter

/-- The server confirms only items that it was sent on the current stream. -/
def Honest (w : TrajWriter) (evs : List Event) : Prop :=
  ∀ pre keys post, evs = pre ++ .confirm keys :: post → ∀ k ∈ keys, k ∈ itemKeys (w.run pre).msgs

/-- The key of the item that is successfully written by an event. -/
def Event.writes (w : TrajWriter) : Event → List Key
  | .worker inp =>
    match w.phase with
    | .send it => if inp.ok then [it.key] else []
    | _ => []
  | _ => []

/-- The keys of the items that were successfully written, on any stream. -/
def written (w : TrajWriter) : List Event → List Key
  | [] => []
  | e :: evs => e.writes w ++ written (w.handle e).1 evs

/-- The options that the user asked for column `i`: those of the last `ConfigureChunker` for the column that returned OK, at first
those of the writer, given as `o`. -/
def asked (w : TrajWriter) (i : Nat) (o : ChunkerOpts) : List Event → ChunkerOpts
  | [] => o
  | e :: evs => asked (w.handle e).1 i
      (match e, (w.handle e).2 with
        | .configure col o', .ok .done => if col = i then o' else o
        | _, _ => o) evs

/-- Whenever two neighbours in the column belong to the same chunk, the second one is the step of the column after the first one. -/
def Contiguous (w : TrajWriter) (refs : List Ref) : Prop :=
  ∀ a r s b, refs = a ++ r :: s :: b → w.keyOf r = w.keyOf s → s = ⟨r.col, r.id + 1⟩

end TrajWriter
end Verif
