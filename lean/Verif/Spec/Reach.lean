import Verif.Model.Table
/-
Which table states are meant by "every execution".
-/
namespace Verif
open Table (Op)

/-- The configuration of a table as a user gives it. The constructor of the rate limiter dies unless
`minSize` is positive (rate_limiter.cc:50-63). -/
structure Config where
  maxSize : Nat
  maxTimesSampled : Int
  sampler : SelKind
  remover : SelKind
  spi : Rat
  minSize : Int
  minDiff : Rat
  maxDiff : Rat
  minSize_pos : 0 < minSize

namespace Config

/-- A new table. -/
def init (c : Config) : Table :=
  Table.make c.maxSize c.maxTimesSampled c.sampler c.remover
    ⟨c.spi, c.minSize, c.minDiff, c.maxDiff, 0, 0, 0, false⟩

/-- The sampler and the remover both admit the priority. Only prioritized selectors refuse priorities:
those that are negative or NaN. -/
def admits (c : Config) (p : Pri) : Prop := c.sampler.accept p = true ∧ c.remover.accept p = true

/-- All priorities that a request carries are admitted. -/
def Admissible (c : Config) : Op → Prop
  | .insert i _ _ | .insertResume i _ _ | .workerInsert i _ _ => c.admits i.priority
  | .mutate updates _ => ∀ u ∈ updates, c.admits u.2
  | _ => True

/-- States after any number of critical sections, in any order and by any callers, as long as the
priorities are admitted. -/
def Reachable (c : Config) (t : Table) : Prop :=
  ∃ ops : List Op, (∀ op ∈ ops, c.Admissible op) ∧ c.init.run ops = some t

/-- As `Reachable`, for clients that hand over items with sample count 0, as the writers of the library
do (trajectory_writer.cc:266-311, writer.cc:153-274). -/
def ReachableFresh (c : Config) (t : Table) : Prop :=
  ∃ ops : List Op, (∀ op ∈ ops, c.Admissible op) ∧
    (∀ op ∈ ops, ∀ i now d, op = .insert i now d ∨ op = .insertResume i now d ∨ op = .workerInsert i now d →
      i.timesSampled = 0) ∧
    c.init.run ops = some t

instance (c : Config) (op : Op) : Decidable (c.Admissible op) := by
  cases op <;> simp only [Admissible, admits] <;> infer_instance

/-- A concrete reachable table. -/
theorem witness {c : Config} (ops : List Op) (P : Table → Bool) (h : ∀ op ∈ ops, c.Admissible op)
    (hp : (c.init.run ops).any P = true) : ∃ t, c.Reachable t ∧ P t = true := by
  cases hr : c.init.run ops with
  | none => simp [hr] at hp
  | some t => exact ⟨t, ⟨ops, h, hr⟩, by simpa [hr] using hp⟩

/-- For a table without prioritized selectors every request is admissible. -/
theorem admissible_of_not_prioritized (c : Config) (hs : ∀ w, c.sampler ≠ .prio w)
    (hr : ∀ w, c.remover ≠ .prio w) (op : Op) : c.Admissible op := by
  have h : ∀ p, c.admits p := by
    intro p
    constructor
    · cases hk : c.sampler <;> simp [SelKind.accept, Spec.acceptAll]; exact absurd hk (hs _)
    · cases hk : c.remover <;> simp [SelKind.accept, Spec.acceptAll]; exact absurd hk (hr _)
  cases op <;> simp [Admissible, h]

end Config
end Verif
