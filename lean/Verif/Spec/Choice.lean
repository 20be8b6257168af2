import Verif.Proofs.SelEquiv
import Verif.Spec.Reach
/-
What it means that two selectors choose alike, and which request histories a checkpoint is taken after.
-/
namespace Verif
open Spec (Call)
open Table (Op)

/-- The selector after some calls. -/
def Sel.after (s : Sel) (cs : List Call) : Sel := runCalls Sel.apply s cs

/-- Each of the `n` equally likely values of the drawn integer can be paired with one of the other selector
such that paired draws return the same. -/
def SameUpToRelabelling (s s' : Sel) : Prop :=
  ∃ (n : Nat) (σ : Nat → Nat), ((List.range n).map σ).Perm (List.range n) ∧
    (∀ d, s.sample d = s.sample { d with idx := d.idx % n }) ∧
    (∀ d, s'.sample d = s'.sample { d with idx := d.idx % n }) ∧
    ∀ d, d.idx < n → s'.sample { d with idx := σ d.idx } = s.sample d

/-- For every key, the values of the drawn real number for which it is returned form an interval, of the
same length for both selectors, and the reported probability is that length. -/
def SameIntervals (s s' : Sel) : Prop :=
  ∀ k, ∃ p a a' : Rat, 0 ≤ p ∧
    (∀ d q, s.sample d = .ok (k, q) ↔ q = p ∧ a ≤ d.u ∧ d.u < a + p) ∧
    (∀ d q, s'.sample d = .ok (k, q) ↔ q = p ∧ a' ≤ d.u ∧ d.u < a' + p)

/-- The two selectors of the given kind choose alike, now and after any further calls. Nothing is said
about heaps. -/
def SameChoices (kind : SelKind) (s s' : Sel) : Prop :=
  match kind with
  | .fifo | .lifo => Sel.Equiv s s'
  | .uniform => ∀ cs, SameUpToRelabelling (s.after cs) (s'.after cs)
  | .prio _ => ∀ cs, SameIntervals (s.after cs) (s'.after cs)
  | .heap _ => True

/-- The item of a request together with the time the clock shows if it is inserted. -/
def Op.item : Op → Option (Item × Int)
  | .insert i now _ | .insertResume i now _ | .workerInsert i now _ => some (i, now)
  | _ => none

/-- The requests `ops` carried admitted priorities and well-formed items and led to the table `t`. (Items
are checked before they are queued: table.cc:461, 548.) -/
structure Config.History (c : Config) (ops : List Op) (t : Table) : Prop where
  admissible : ∀ op ∈ ops, c.Admissible op
  valid : ∀ op ∈ ops, ∀ i now, Op.item op = some (i, now) → Table.itemValid i = true
  run : c.init.run ops = some t

/-- The clock read by the inserts advances from each to the next. -/
def ClockAdvances (ops : List Op) : Prop := (ops.filterMap fun op => (Op.item op).map Prod.snd).Pairwise (· < ·)

end Verif
