import Verif.Model.Handshake
/-
Words for what a client that looks for a table in its own process gets.
-/
namespace Verif
namespace Handshake

/-- The table that the client may access directly: the peer is on this machine, the process is the same, and the server has a table of this name. -/
def Direct (near : Bool) (clientPid serverPid : Nat) (tables : AMap String Nat) (name : String) (t : Nat) : Prop :=
  near = true ∧ clientPid = serverPid ∧ tables.get? name = some t

/-- Both sides are done. -/
def State.Over (s : State) : Prop := s.server = .done ∧ ∃ r, s.client = .done r

end Handshake
end Verif
