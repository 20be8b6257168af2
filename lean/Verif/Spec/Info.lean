import Verif.Model.Info
/-
Specification of the call statistics of a table: the calls that had to ask the limiter, read off the states of the table and its callers.
-/
namespace Verif.Info
open Table (itemValid)
open Waiters (Act S)

/-- A question to the limiter: who asked, when the call began, when it was over if it is, and whether it had to wait. -/
structure Asked where
  id : Nat
  start : Int
  stop : Option Int
  waited : Bool
  deriving DecidableEq, Repr

/-- The caller waits. -/
def waits (s : S) (id : Nat) : Bool := s.waiters.any (·.id = id)

/-- The samples that were granted in a step. -/
def granted (s s' : S) : Nat := (s'.table.limiter.samples - s.table.limiter.samples).toNat

/-- The question of the caller that is still open is over. -/
def over (id : Nat) (now : Int) (l : List Asked) : List Asked :=
  l.map fun q => if q.id = id ∧ q.stop = none then { q with stop := some now } else q

/-- What a step adds to the questions whether to insert. An item that is not valid, or whose key is in the table, is not asked about. -/
def askInsert (s s' : S) (now : Int) (l : List Asked) : Act → List Asked
  | .call id (.insert i) _ =>
    if itemValid i = true ∧ s.table.data.get? i.key = none then
      l ++ [if waits s' id then ⟨id, now, none, true⟩ else ⟨id, now, some now, false⟩]
    else l
  | .call _ _ _ => l
  | .wake id _ => if waits s' id then l else over id now l
  | .timeout id => over id now l

/-- What a step adds to the questions whether to sample: one for every sample that is granted; one for a call that is cancelled. -/
def askSample (s s' : S) (now : Int) (l : List Asked) : Act → List Asked
  | .call id (.sample _) _ =>
    if waits s' id then l ++ [⟨id, now, none, true⟩]
    else l ++ List.replicate (max 1 (granted s s')) ⟨id, now, some now, false⟩
  | .call _ _ _ => l
  | .wake id _ => if waits s' id then l else over id now l ++ List.replicate (granted s s' - 1) ⟨id, now, some now, false⟩
  | .timeout id => over id now l

/-- There are not more than `size` questions from one that is open to the latest. -/
def InTime (size : Nat) (l : List Asked) : Prop := ∀ (i : Nat) (q : Asked), l[i]? = some q → q.stop = none → l.length ≤ i + size

/-- A table, its callers, and what they have asked so far. The buffer for the events is large enough all the time. -/
inductive Seen (size : Nat) (t : Table) : Obs → List Asked → List Asked → Prop
  | init : Seen size t (init size t) [] []
  | step {o o' : Obs} {ins smp : List Asked} {a : Act} {now : Int} (h : Seen size t o ins smp) (hs : step o a now = some o')
      (hi : InTime size (askInsert o.base o'.base now ins a)) (hq : InTime size (askSample o.base o'.base now smp a)) :
      Seen size t o' (askInsert o.base o'.base now ins a) (askSample o.base o'.base now smp a)

/-- For how long a question that is over has waited. -/
def Asked.waitedFor (q : Asked) : Int :=
  match q.stop with
  | some e => if q.waited then e - q.start else 0
  | none => 0

/-- The statistics as schema.proto:196-212 describes them. -/
def reported (l : List Asked) (now : Int) : CallStats where
  pending := l.countP (·.stop.isNone)
  completed := l.countP (·.stop.isSome)
  limited := l.countP fun q => decide (0 < q.waitedFor)
  completedWait := (l.map Asked.waitedFor).sum
  pendingWait := ((l.filter (·.stop.isNone)).map fun q => now - q.start).sum

end Verif.Info
