import Verif.Spec.TableLog
import Verif.Props.C23_Checkpoint
/-
What happens to a table over the lives of several servers: requests, and checkpoints that are loaded.
-/
namespace Verif
open Table (Op)

/-- A table with configuration `c` that has been used, saved and loaded any number of times, and what has
happened to its items since it was new: the notifications of the requests of all servers. The notifications
with which the items are put into the table while a checkpoint is loaded are not counted.

Requests carry admitted priorities, well-formed items (they are checked before they are queued,
table.cc:461, 548) and sample counts of 0 (as the writers of the library send them). A checkpoint is that
of the table at any moment of such a history. So a server that is started from an old checkpoint continues
the history that had been reached when it was written. -/
inductive Config.Life (c : Config) : List ExtEvent → Table → Prop
  | new : c.Life [] c.init
  | used {log : List ExtEvent} {t t' : Table} {ops : List Op} {news : List ExtEvent} : c.Life log t →
      (∀ op ∈ ops, c.Admissible op) →
      (∀ op ∈ ops, ∀ i now, Op.item op = some (i, now) → Table.itemValid i = true ∧ i.timesSampled = 0) →
      t.run ops = some t' → t'.log = t.log ++ news → c.Life (log ++ news) t'
  | loaded {log : List ExtEvent} {t t' : Table} {items : List Item} {chunks : List ChunkRef} : c.Life log t →
      t.Saved items chunks → restore (t.checkpoint items) chunks = .ok t' → c.Life log t'

/-- The times at which items were inserted, oldest first. -/
def Spec.stamps (log : List ExtEvent) : List Int :=
  log.filterMap fun e => match e with | .insert i => some i.insertedAt | _ => none

end Verif
