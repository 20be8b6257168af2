import Verif.Model.Stats
/-
Specification of the call statistics: the list of calls, in the order in which they were started.
-/
namespace Verif.Stats

/-- A call: when it began, and for how long it was blocked if it is over. -/
structure Rec where
  start : Int
  blocked : Option Int
  deriving DecidableEq, Repr

/-- One more thing happens. A call that did not have to wait counts as blocked for no time. -/
def recStep (cs : List Rec) : Op → List Rec
  | .create now => cs ++ [⟨now, none⟩]
  | .finish h wasBlocked now =>
    match cs[h]? with
    | some c => cs.set h ⟨c.start, some (if wasBlocked then now - c.start else 0)⟩
    | none => cs

/-- The calls so far; call number `i` is at position `i`. -/
def recs (ops : List Op) : List Rec := ops.foldl recStep []

/-- The number of the oldest call still running, or of the next call if none is running. -/
def oldestRunning (ops : List Op) : Nat := (recs ops).findIdx (·.blocked.isNone)

/-- There were never more than `size` calls between a running one and the latest. -/
def Fits (size : Nat) (ops : List Op) : Prop :=
  ∀ p, p <+: ops → ∀ i c, (recs p)[i]? = some c → c.blocked = none → (recs p).length ≤ i + size

/-- The events are those of the finished calls number `a` to `b - 1`, in order. -/
def Reports (es : List Event) (cs : List Rec) (a b : Nat) : Prop :=
  es.length = b - a ∧ ∀ j, j < b - a → ∃ st bl, cs[a + j]? = some ⟨st, some bl⟩ ∧ es[j]? = some ⟨a + j, st, bl⟩

end Verif.Stats
