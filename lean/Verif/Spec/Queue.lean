import Verif.Model.Table
/-
A bounded queue or stack of items as an abstract machine: a list whose first element is the next to be
delivered, and a flag that says whether it has been closed.
-/
namespace Verif.Spec
open Table (Op)

/-- First in, first out or last in, first out. -/
inductive Discipline where
  | queue | stack
  deriving DecidableEq

structure Buf where
  items : List Item
  closed : Bool

/-- What a caller sees. `blocked`: has to wait (a timeout if nothing changes). -/
inductive Answer where
  | done
  | blocked
  | delivered (l : List Item)
  | error (c : Code)
  | died
  deriving DecidableEq

namespace Buf

def put (m : Discipline) (b : Buf) (i : Item) : Buf :=
  match m with
  | .queue => { b with items := b.items ++ [i] }
  | .stack => { b with items := i :: b.items }

def has (b : Buf) (k : Key) : Bool := b.items.any fun j => j.key = k

/-- A new priority for an item that waits for delivery. -/
def setPriority (b : Buf) (k : Key) (p : Pri) : Buf :=
  { b with items := b.items.map fun j => if j.key = k then { j with priority := p } else j }

def setPriorities (b : Buf) (us : List (Key × Pri)) : Buf := us.foldl (fun b u => b.setPriority u.1 u.2) b

/-- An insert when there is room. -/
def accept (m : Discipline) (b : Buf) (i : Item) (now : Int) : Buf :=
  if b.has i.key then b.setPriority i.key i.priority else b.put m { i with insertedAt := now }

/-- The first `n` items, each marked as sampled once. -/
def deliver (b : Buf) (n : Nat) : Buf × Answer :=
  ({ b with items := b.items.drop n },
   .delivered ((b.items.take n).map fun i => { i with timesSampled := 1 }))

/-- The machine with room for `cap` items. -/
def step (m : Discipline) (cap : Nat) (b : Buf) : Op → Buf × Answer
  | .insert i now _ =>
    if !Table.itemValid i then (b, .error .invalidArgument)
    else if b.has i.key then (b.setPriority i.key i.priority, .done)
    else if b.closed then (b, .error .cancelled)
    else if b.items.length < cap then (b.put m { i with insertedAt := now }, .done)
    else (b, .blocked)
  | .insertResume i now _ =>
    if b.closed then (b, .error .cancelled)
    else if b.items.length < cap then (b.accept m i now, .done)
    else (b, .blocked)
  | .workerInsert i now _ =>
    if b.items.length < cap then (b.accept m i now, .done) else (b, .blocked)
  | .mutate us _ => (b.setPriorities us, .done)
  | .sample n _ =>
    if b.items.length = 0 then (b, if b.closed then .error .cancelled else .blocked) else b.deliver (max 1 n)
  | .sampleResume n _ =>
    if b.closed then (b, .error .cancelled)
    else if b.items.length = 0 then (b, .blocked)
    else b.deliver (max 1 n)
  | .workerSample _ _ => if b.items.length = 0 then (b, .blocked) else b.deliver 1
  | .reset => ({ b with items := [] }, .done)
  | .close => ({ b with closed := true }, .done)

/-- The answers to a sequence of requests. -/
def answers (m : Discipline) (cap : Nat) (b : Buf) : List Op → List Answer
  | [] => []
  | op :: ops => (b.step m cap op).2 :: answers m cap (b.step m cap op).1 ops

end Buf

/-- What a caller of the table sees. -/
def answer : Res Table.Reply → Answer
  | .ok .done => .done
  | .ok .blocked => .blocked
  | .ok (.samples l) => .delivered (l.map Sampled.item)
  | .err c => .error c
  | .died => .died

/-- Requests a queue or stack is used with: no explicit deletes, and new items count zero samples. -/
def QueueOp : Op → Prop
  | .insert i _ _ | .insertResume i _ _ | .workerInsert i _ _ => i.timesSampled = 0
  | .mutate _ ds => ds = []
  | _ => True

end Verif.Spec
