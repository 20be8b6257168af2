import Verif.Model.ServerCkpt
import Verif.Spec.Isolation
/-
The words used in C98.
-/
namespace Verif
namespace ServerCkpt

/-- Tables as they are configured, for a start of the server. -/
def fresh (cfgs : AMap String Config) : List (String × Table) := (newTables cfgs).entries

/-- The table of that name, if the server runs. -/
def Job.table (j : Job) (n : String) : Option Table :=
  match j.server with
  | .ok v => if v.dead then none else v.tables.get? n
  | _ => none

/-- Clients send priorities that the tables admit, two chunks with one key are the same chunk, and the server is started again with the tables it
had. -/
def Proper (w : Wire) (cfgs : AMap String Config) : Event → Prop
  | .serve (.insert (.request _ r)) => r.Admits cfgs ∧ ∀ ch ∈ r.chunks, w.content ch.key = ch
  | .serve (.unary (.mutate n us _)) => ∀ c, cfgs.get? n = some c → ∀ u ∈ us, c.admits u.2
  | .restart given => given = fresh cfgs
  | _ => True

end ServerCkpt
end Verif
