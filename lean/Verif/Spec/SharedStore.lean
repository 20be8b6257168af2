import Verif.Model.SharedStore
/-
The words used in C121.
-/
namespace Verif.SharedStore

/-- The proto that a pointer leads to. -/
def W.content (w : W) (id : Nat) : Option ChunkData :=
  match w.store.chunks[id]? with
  | none => none
  | some c => (w.sent[c.data]?).map Prod.snd

/-- The chunk has not been destroyed. -/
def W.lives (w : W) (id : Nat) : Prop := ∃ c, w.store.chunks[id]? = some c ∧ 0 < c.refs

/-- A stream or an item has a pointer to the chunk. -/
def W.held (w : W) (id : Nat) : Prop := (∃ s k, (s, k, id) ∈ w.cache) ∨ ∃ ids ∈ w.items, id ∈ ids

/-- Stream `s` has sent the chunk. -/
def Sent (s : Nat) (c : ChunkData) (as : List Act) : Prop := Act.chunk s c ∈ as

/-- No two different chunks with the same key have been sent. -/
def NoCollision (as : List Act) : Prop := ∀ s s' c c', Sent s c as → Sent s' c' as → c.key = c'.key → c = c'

/-- The keys that stream `s` has sent and not given up, as its own requests tell: an item for which one of them is missing ends the stream. -/
def ownKeys (s : Nat) (as : List Act) : Key → Bool :=
  as.foldl (fun f a => match a with
    | .chunk t c => fun k => if t = s ∧ c.key = k then true else f k
    | .item t keys keep => if t = s then (if keys.all f then fun k => f k && keep.contains k else fun _ => false) else f
    | .end_ t => if t = s then fun _ => false else f
    | _ => f) fun _ => false

end Verif.SharedStore
