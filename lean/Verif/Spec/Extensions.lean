import Verif.Model.Extensions
/-
Words for C60, C54 (asynchronous extensions), C75 and C76.
-/
namespace Verif.Ext

open Table (Op Reply)

/-- Does the caller lock `mu_` anew, be it for a call, after a wait for the rate limiter or for the extension worker, or to read? -/
def Event.enters : Event → Bool
  | .call .. => true
  | .resume .. => true
  | .drained .. => true
  | .read => true
  | _ => false

/-- No caller waits in `ExtensionOperation`. -/
def State.Quiet (s : State) : Prop := ∀ tid th, s.threads.get? tid = some th → th.inBuffer = false

/-- Nobody comes to the table while a caller waits in `ExtensionOperation`. This is so if requests are handled before there are too many of
them, and if only one thread uses the table. -/
def Apart (c : Cfg) (s : State) : List Event → Prop
  | [] => True
  | e :: es => (e.enters = true → step c s e ≠ .impossible → s.Quiet) ∧ ∀ s', step c s e = .next s' → Apart c s' es

/-- The calls that have returned, in this order, with their replies. -/
def returned (trace : List Entry) : List (Op × Res Reply) :=
  trace.filterMap fun e =>
    match e with
    | .ret _ op r => some (op, r)
    | _ => none

/-- `op'` is the call itself, or its attempt after it waited for the rate limiter. -/
def Follows (op op' : Op) : Prop := op' = op ∨ ∃ w, op.waiting = some w ∧ again w op'

/-- The calls of one thread: each returns, or ends with a timeout, before the next one begins. The last argument is the call that has not
returned. -/
inductive Calls (tid : Nat) : List Entry → Option Op → Prop
  | nil : Calls tid [] none
  | call {l : List Entry} {op : Op} : Calls tid l none → Calls tid (l ++ [.call tid op]) (some op)
  | ret {l : List Entry} {op op' : Op} {r : Res Reply} : Calls tid l (some op) → Follows op op' → Calls tid (l ++ [.ret tid op' r]) none
  | timeout {l : List Entry} {op : Op} : Calls tid l (some op) → op.waiting.isSome = true → Calls tid (l ++ [.timeout tid]) none
  | read {l : List Entry} {o : Option Op} {t : Table} : Calls tid l o → Calls tid (l ++ [.read t]) o
  | otherCall {l : List Entry} {o : Option Op} {tid' : Nat} {op : Op} : Calls tid l o → tid' ≠ tid → Calls tid (l ++ [.call tid' op]) o
  | otherRet {l : List Entry} {o : Option Op} {tid' : Nat} {op : Op} {r : Res Reply} : Calls tid l o → tid' ≠ tid →
      Calls tid (l ++ [.ret tid' op r]) o
  | otherTimeout {l : List Entry} {o : Option Op} {tid' : Nat} : Calls tid l o → tid' ≠ tid → Calls tid (l ++ [.timeout tid']) o

/-- Of which notifications do asynchronous extensions get to know? -/
def Cfg.passes (c : Cfg) : ExtEvent → Bool
  | .insert _ => c.enqueues .insert
  | .sample _ => c.enqueues .sample
  | .update _ => c.enqueues .update
  | .delete _ => c.enqueues .delete
  | .reset => true

/-- The call or attempt that an event makes. -/
def Event.op? : Event → Option Op
  | .call _ op => some op
  | .resume _ op => some op
  | _ => none

/-- Is it a step of the thread of a caller? -/
def Event.tid? : Event → Option Nat
  | .call tid _ => some tid
  | .resume tid _ => some tid
  | .timeout tid => some tid
  | .drained tid => some tid
  | .push tid => some tid
  | .spurious tid => some tid
  | _ => none

/-- Is it a step of the extension worker? -/
def Event.ofWorker : Event → Bool
  | .start => true
  | .check => true
  | .lock _ => true
  | .handle => true
  | _ => false

/-- The caller waits in `ExtensionOperation`. -/
def State.Waits (s : State) (tid : Nat) : Prop := ∃ th, s.threads.get? tid = some th ∧ th.inBuffer = true

/-- The caller waits there and nobody has signalled it. -/
def State.Unsignalled (s : State) (tid : Nat) : Prop := ∃ th, s.threads.get? tid = some th ∧ th.unsignalled = true

/-- `stop_worker_` is set, and the extension worker neither waits nor is about to wait. -/
def State.Ends (s : State) : Prop := s.stop = true ∧ s.phase ≠ .asleep ∧ (s.phase = .checked → s.reqs ≠ [])

end Verif.Ext
