import Verif.Spec.Service
import Verif.Model.Table
/-
Words for what becomes of the items that clients send to a queue of a server.
-/
namespace Verif

/-- The part of a list that belongs to a stream. -/
def part {α : Type} (s : Nat) (l : List (Nat × α)) : List α := (l.filter fun x => x.1 = s).map Prod.snd

/-- The samples from a table. -/
def takenFrom (n : String) (l : List (String × Sampled)) : List Sampled := (l.filter fun x => x.1 = n).map Prod.snd

namespace Service

/-- The items for the table that the server has read: their streams and keys, in order. -/
def sent (n : String) (evs : List Event) : List (Nat × Key) :=
  evs.filterMap fun e => match e with
    | .insert (.request s ⟨_, some it⟩) => if it.table = n then some (s, it.key) else none
    | _ => none

/-- How the table is used: its items are not deleted by calls, and items are new when they are sent. -/
structure AsQueue (n : String) (evs : List Event) : Prop where
  deletes : ∀ us ds, .unary (.mutate n us ds) ∈ evs → ds = []
  reset : .unary (.reset n) ∉ evs
  new : ∀ s r it, .insert (.request s r) ∈ evs → r.item = some it → it.table = n → it.timesSampled = 0

/-- The history of a table: `inserted` are the items that were put into it (with the stream that sent them), `given` the samples taken (with the stream that got them). -/
structure History (n : String) (evs : List Event) (v : Service) (inserted : List (Nat × Key)) (given : List (Nat × Sampled)) : Prop where
  /-- from each stream, the items come in the order in which they were sent -/
  order : ∀ s, part s inserted <+: part s (sent n evs)
  /-- if the stream waits for a request, or has ended with OK, none is missing -/
  all : ∀ s, (∃ cache, v.inserts.get? s = some ⟨cache, .reading⟩ ∨ v.inserts.get? s = some ⟨cache, .ended none⟩) → part s inserted = part s (sent n evs)
  /-- confirmed items were inserted -/
  confirmed : ∀ s k, (s, n, k) ∈ v.confirmed → (s, k) ∈ inserted
  /-- each stream got what was taken for it, in order -/
  got : ∀ q, part q given = takenFrom n (v.got q)

end Service
end Verif
