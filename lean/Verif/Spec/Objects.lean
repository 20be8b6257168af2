import Verif.Model.Objects
import Verif.Spec.Reach
/-
Words for the properties of programs that make tables and servers.
-/
namespace Verif
namespace World

/-- The selectors that a statement hands to a table. -/
def Stmt.selectors : Stmt → List Nat
  | .table a => [a.sampler, a.remover]
  | _ => []

/-- The limiters that a statement hands to a table. -/
def Stmt.limiters : Stmt → List Nat
  | .table a => [a.limiter]
  | _ => []

/-- Every selector and every limiter is handed to one table only, and a selector to a table once only. -/
def Separate (program : List Stmt) : Prop := (program.flatMap Stmt.selectors).Nodup ∧ (program.flatMap Stmt.limiters).Nodup

/-- What is seen of a table has come about from a new table, or from one restored from a checkpoint, through calls on this table alone, in the way of
`Model/Table.lean`. -/
def OwnHistory (t : Table) : Prop :=
  ∃ (start : Table) (ops : List Table.Op), start.run ops = some t ∧
    ((∃ c : Config, start = c.init) ∨ ∃ (c : Checkpoint) (chunks : List ChunkRef), restore c chunks = .ok start)

/-- The table that a client of the server `s` reaches under a name. -/
def served (w : World) (s : Nat) (name : String) : Option Nat :=
  match w.servers[s]? with
  | some (some l) => l.lookup name
  | _ => none

/-- The server `s` has the table `t`. -/
def Hosts (w : World) (s t : Nat) : Prop := ∃ (l : List (String × Nat)) (name : String), w.servers[s]? = some (some l) ∧ (name, t) ∈ l

end World
end Verif
