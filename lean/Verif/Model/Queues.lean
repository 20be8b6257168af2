import Verif.Basic
/-
reverb/cc/support/queue.h, reverb/cc/support/unbounded_queue.h and reverb/cc/support/task_executor.cc.

A call waits with `Mutex::Await`, which returns with the mutex held at a moment when the condition holds. So a call has its
effect atomically at that moment; in the model a call is a step that is possible (`some`) only when the call does
not wait.
-/
namespace Verif

namespace BQueue

/-- `internal::Queue<T>` (queue.h:186-215). `none` in the buffer stands for a default-constructed or moved-from element. -/
structure S (α : Type) where
  /-- `buffer_.size()` -/
  cap : Nat
  buffer : Nat → Option α
  pushes : Nat
  pops : Nat
  closed : Bool
  last : Bool

variable {α : Type}

/-- queue.h:48-53. -/
def init (cap : Nat) : S α := ⟨cap, fun _ => none, 0, 0, false, false⟩

/-- queue.h:58-61 `Close`. -/
def close (s : S α) : S α := { s with closed := true }

/-- queue.h:65-79 `Push`. -/
def push (s : S α) (x : α) : Option (S α × Bool) :=
  if s.closed || s.last || decide (s.pushes - s.pops < s.cap) then
    if s.closed || s.last then some (s, false)
    else some ({ s with
      buffer := fun i => if i = s.pushes % s.cap then some x else s.buffer i
      pushes := s.pushes + 1 }, true)
  else none

/-- queue.h:125-128: the loop of `PopBatch`. -/
def takeBatch (s : S α) : Nat → S α × List (Option α)
  | 0 => (s, [])
  | n + 1 =>
    let x := s.buffer (s.pops % s.cap)
    let r := takeBatch { s with
      buffer := fun i => if i = s.pops % s.cap then none else s.buffer i
      pops := s.pops + 1 } n
    (r.1, x :: r.2)

/-- queue.h:93-136 `PopBatch`; `expired` if the timeout has passed. A negative batch size becomes a huge number in the
comparison at 95 and is refused like any other size above the capacity; it is not modelled. -/
def popBatch (s : S α) (n : Nat) (expired : Bool) : Option (S α × Res (List (Option α))) :=
  if s.cap < n then some (s, .err .invalidArgument)
  else
    let trigger := s.closed || decide (n ≤ s.pushes - s.pops) || s.last
    if !trigger && !expired then none
    else if !trigger && !s.last && !s.closed then some (s, .err .deadlineExceeded)
    else if s.closed then some (s, .err .cancelled)
    else if s.last then some (s, .err .resourceExhausted)
    else
      let r := takeBatch s n
      let s' := r.1
      some (if s'.pops = s'.pushes ∧ s'.last then { s' with closed := true } else s', .ok r.2)

/-- queue.h:143-149 `SetLastItemPushed`. -/
def setLast (s : S α) : S α :=
  let s1 := { s with last := true }
  if s1.pushes = s1.pops then { s1 with closed := true } else s1

/-- queue.h:157-170 `Pop`; the outer `Option` is waiting, the inner one is `none` if `false` is returned. -/
def pop (s : S α) : Option (S α × Option (Option α)) :=
  if s.closed || decide (s.pops < s.pushes) then
    if s.closed then some (s, none)
    else
      let x := s.buffer (s.pops % s.cap)
      let s1 := { s with
        buffer := fun i => if i = s.pops % s.cap then none else s.buffer i
        pops := s.pops + 1 }
      some (if s1.pushes = s1.pops ∧ s1.last then { s1 with closed := true } else s1, some x)
  else none

/-- queue.h:173-176 `size`. -/
def size (s : S α) : Nat := s.pushes - s.pops

end BQueue

/-- The calls of both queues, with what they return (queue.h:58-176, unbounded_queue.h:50-92). -/
inductive QEvent (α : Type) where
  | push (x : α) (ok : Bool)
  /-- `none` is the answer `false` -/
  | pop (r : Option (Option α))
  | popBatch (n : Nat) (expired : Bool) (r : Res (List (Option α)))
  | setLast
  | close

namespace BQueue
variable {α : Type} [DecidableEq α]

/-- One completed call takes the queue from `s` to `s'` (queue.h:58-171). -/
inductive Step : S α → QEvent α → S α → Prop
  | push {s s' x ok} : push s x = some (s', ok) → Step s (.push x ok) s'
  | pop {s s' r} : pop s = some (s', r) → Step s (.pop r) s'
  | popBatch {s s' n expired r} : popBatch s n expired = some (s', r) → Step s (.popBatch n expired r) s'
  | setLast {s} : Step s .setLast (setLast s)
  | close {s} : Step s .close (close s)

/-- Any number of completed calls, in the order in which they took effect (model only: queue.h:58-171,
each call takes effect while it holds `mu_`). -/
inductive Runs (cap : Nat) : List (QEvent α) → S α → Prop
  | nil : Runs cap [] (init cap)
  | snoc {es s e s'} : Runs cap es s → Step s e s' → Runs cap (es ++ [e]) s'

end BQueue

namespace UQueue

/-- `internal::UnboundedQueue<T>` (unbounded_queue.h:100-118). -/
structure S (α : Type) where
  buffer : List α
  size : Nat
  closed : Bool
  last : Bool

variable {α : Type}

/-- unbounded_queue.h:41-45. -/
def init : S α := ⟨[], 0, false, false⟩

/-- unbounded_queue.h:50-53 `Close`. -/
def close (s : S α) : S α := { s with closed := true }

/-- unbounded_queue.h:57-63 `Push`; never waits. -/
def push (s : S α) (x : α) : S α × Bool :=
  if s.closed || s.last then (s, false)
  else ({ s with
    buffer := s.buffer ++ [x]
    size := s.size + 1 }, true)

/-- unbounded_queue.h:66-72 `SetLastItemPushed`. -/
def setLast (s : S α) : S α :=
  let s1 := { s with last := true }
  if s1.buffer.isEmpty then { s1 with closed := true } else s1

/-- unbounded_queue.h:80-92 `Pop`. `front` of an empty buffer is undefined behaviour, here `some none`. -/
def pop (s : S α) : Option (S α × Option (Option α)) :=
  if s.closed || decide (0 < s.size) then
    if s.closed then some (s, none)
    else
      let s1 := { s with
        buffer := s.buffer.tail
        size := s.size - 1 }
      some (if s1.buffer.isEmpty && s1.last then { s1 with closed := true } else s1, some s.buffer.head?)
  else none

/-- One completed call (unbounded_queue.h:50-92). -/
inductive Step : S α → QEvent α → S α → Prop
  | push {s x} : Step s (.push x (push s x).2) (push s x).1
  | pop {s s' r} : pop s = some (s', r) → Step s (.pop r) s'
  | setLast {s} : Step s .setLast (setLast s)
  | close {s} : Step s .close (close s)

/-- Any number of completed calls, in the order in which they took effect (model only:
unbounded_queue.h:50-92, each call takes effect while it holds `mu_`). -/
inductive Runs : List (QEvent α) → S α → Prop
  | nil : Runs [] init
  | snoc {es s e s'} : Runs es s → Step s e s' → Runs (es ++ [e]) s'

end UQueue
end Verif
