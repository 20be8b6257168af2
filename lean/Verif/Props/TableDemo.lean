import Verif.Proofs.TableReach
import Verif.Props.C05_Prioritized
/-
A table in operation, used as the concrete case beside the table theorems.
-/
namespace Verif
open Table (Op)

/-- A draw. -/
def draw (idx : Nat) (u : Rat := 0) (h : 0 ≤ u ∧ u < 1 := by decide +kernel) : Draw := ⟨idx, u, h.1, h.2⟩

/-- An item over one chunk of an episode. -/
def demoItem (k : Key) (p : Rat) (chunk episode : Key) : Item :=
  ⟨k, .val p, 0, 0, [⟨[⟨chunk, 0, 1, 0⟩], false⟩], [⟨chunk, episode⟩]⟩

/-- Prioritized sampler, FIFO remover, room for three items, each sampled at most twice. -/
def demoCfg : Config := ⟨3, 2, .prio powOne, .fifo, 3, 2, -2, 13, by decide⟩

/-- Four inserts into a table for three, updates, deletes, samples, one insert of an existing key. -/
def demoOps : List Op :=
  [.insert (demoItem 1 5 10 100) 11 (draw 0),
   .insert (demoItem 2 1 10 100) 12 (draw 0),
   .sample 1 (fun _ => draw 0),
   .insert (demoItem 3 2 11 101) 13 (draw 0),
   .insert (demoItem 1 4 10 100) 14 (draw 0),
   .insert (demoItem 4 0 12 102) 15 (draw 0),
   .mutate [(2, .val 3), (77, .val 1)] [99],
   .sample 2 (fun i => if i = 0 then draw 0 else draw 0 (1/2)),
   .workerInsert (demoItem 5 1 13 103) 16 (draw 0),
   .mutate [] [5]]

theorem demo_ok : ∀ op ∈ demoOps, demoCfg.Admissible op := by decide +kernel

/-- The keys and sample counts in a table. -/
def summary (t : Table) : List (Key × Int) := t.data.entries.map fun e => (e.1, e.2.timesSampled)

/-- The keys of the samples in a reply, with the reported table size and sample count. -/
def sampledKeys : Res Table.Reply → List (Key × Int × Int)
  | .ok (.samples l) => l.map fun s => (s.item.key, s.tableSize, s.timesSampled)
  | _ => []

end Verif
