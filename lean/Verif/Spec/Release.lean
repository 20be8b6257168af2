import Verif.Spec.Reach
/-
Words for C105: producers that insert new items, one after the other, and consumers that take samples.
-/
namespace Verif
open Table (Op)

/-- What a producer inserts: the item, the time, and the randomness for an eviction. -/
structure Arrival where
  item : Item
  now : Int
  draw : Draw

/-- The call of the producer. -/
def Arrival.op (a : Arrival) : Op := .insert a.item a.now a.draw

/-- New items: their keys differ and are not in the table; the items are well formed and have priorities that the selectors accept. -/
structure NewItems (c : Config) (t : Table) (l : List Arrival) : Prop where
  valid : ∀ a ∈ l, Table.itemValid a.item = true
  admits : ∀ a ∈ l, c.admits a.item.priority
  distinct : (l.map fun a => a.item.key).Nodup
  new : ∀ a ∈ l, t.get a.item.key = none

/-- The limiter of the configuration never blocks both sides, whatever the counters are. -/
def Config.Unstuck (c : Config) : Prop :=
  ∀ inserts samples deletes : Int,
    (⟨c.spi, c.minSize, c.minDiff, c.maxDiff, inserts, samples, deletes, false⟩ : Limiter).canInsert 1 = true ∨
    (⟨c.spi, c.minSize, c.minDiff, c.maxDiff, inserts, samples, deletes, false⟩ : Limiter).canSample 1 = true

end Verif
