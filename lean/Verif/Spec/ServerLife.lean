import Verif.Model.ServerLife
/-
Words for the life of servers.
-/
namespace Verif

/-- One run after the other, and their starts at least a period apart. -/
def Periodic.Serial (period : Int) (log : List PRun) : Prop :=
  log.Pairwise fun a b => (∃ f, a.finish = some f ∧ a.start ≤ f ∧ f ≤ b.start) ∧ a.start + period ≤ b.start

/-- The call of `Wait` is about this server and has returned this. -/
def Process.Returned (p : Process) (call server : Nat) (signalled : Bool) : Prop := p.waits[call]? = some (server, .returned signalled)

/-- The call of `Wait` is about this server and waits. -/
def Process.Waiting (p : Process) (call server : Nat) : Prop := p.waits[call]? = some (server, .waiting)

/-- The server is there and runs. -/
def Process.Running (p : Process) (server : Nat) : Prop := ∃ s, p.servers[server]? = some s ∧ s.running = true

end Verif
