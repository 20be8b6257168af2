import Verif.Basic
/-
Specification of item selectors: what a caller knows from the history of calls alone.
Nothing here refers to the data structures of the implementation.
-/
namespace Verif.Spec

/-- The state-changing calls of `ItemSelector` (reverb/cc/selectors/interface.h:31-66). -/
inductive Call where
  | insert (k : Key) (p : Pri)
  | update (k : Key) (p : Pri)
  | delete (k : Key)
  | clear
  deriving DecidableEq, Repr

/-- What the history says about a present key: when it was inserted (position of the call in the
history), its current priority, and when it was last written (inserted or updated). -/
structure Entry where
  since : Nat
  pri : Pri
  written : Nat
  deriving DecidableEq, Repr

/-- Knowledge about all keys, `none` for absent keys. -/
abbrev Book := Key → Option Entry

/-- Effect of the call made at position `t` of the history. `accept` says which priorities the
selector admits. -/
def Book.step (accept : Pri → Bool) (t : Nat) (b : Book) : Call → Book
  | .insert k p => fun k' =>
      if k' = k ∧ accept p = true ∧ b k = none then some ⟨t, p, t⟩ else b k'
  | .update k p => fun k' =>
      if k' = k ∧ accept p = true then (b k).map (fun e => { e with pri := p, written := t })
      else b k'
  | .delete k => fun k' => if k' = k then none else b k'
  | .clear => fun _ => none

/-- Knowledge after a history, where the first call of the list is number `t`. -/
def Book.runFrom (accept : Pri → Bool) : Nat → Book → List Call → Book
  | _, b, [] => b
  | t, b, c :: cs => Book.runFrom accept (t + 1) (b.step accept t c) cs

/-- Knowledge after a whole history. -/
def book (accept : Pri → Bool) (cs : List Call) : Book :=
  Book.runFrom accept 0 (fun _ => none) cs

/-- Whether a call must succeed in a given situation. -/
def succeeds (accept : Pri → Bool) (b : Book) : Call → Bool
  | .insert k p => accept p && (b k).isNone
  | .update k p => accept p && (b k).isSome
  | .delete k => (b k).isSome
  | .clear => true

/-- Selectors that take every priority. -/
def acceptAll : Pri → Bool := fun _ => true

/-- The prioritized selector takes priorities that are numbers and not negative. -/
def acceptNonneg : Pri → Bool
  | .nan => false
  | .val q => decide (0 ≤ q)

end Verif.Spec
