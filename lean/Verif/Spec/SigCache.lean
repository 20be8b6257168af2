import Verif.Model.SigCache
/-
Words for the cache of signatures.
-/
namespace Verif
namespace SigCache

/-- The servers there have been, from the first to the present one. -/
def servers (server : Info) (evs : List Event) : List Info :=
  server :: evs.filterMap fun e => match e with
    | .replace i => some i
    | _ => none

/-- The present server. -/
def present (server : Info) (evs : List Event) : Info := (servers server evs).getLast (by simp [servers])

/-- The signatures of the tables of a server are `s`. -/
def Info.Tells (i : Info) (s : Signatures) : Prop := flatSignatures i.tables .empty = .ok s

/-- What calls of `ServerInfo` have returned, in the order of the calls' ends. -/
def infos (log : List (Nat × Out)) : List Info :=
  log.filterMap fun x => match x.2 with
    | .info (.ok i) => some i
    | _ => none

/-- A call for a new writer or sampler that is not `atOnce`, or `ServerInfo`, has succeeded. -/
def Heard (evs : List Event) (log : List (Nat × Out)) : Prop :=
  (∃ i, i ∈ infos log) ∨ (∀ t, .make t true ∉ evs) ∧ ∃ t s, (t, Out.signatures (.ok s)) ∈ log

end SigCache
end Verif
