import Verif.Basic
/-
`RateLimiter::StatsManager` (reverb/cc/rate_limiter.h:195-268, reverb/cc/rate_limiter.cc:244-330): statistics about the calls that
go through the limiter, and a ring buffer of recent ones. Times and durations are integers (nanoseconds).
-/
namespace Verif.Stats

/-- `RateLimiterEvent` (rate_limiter.h) (rate_limiter.h:41-52). -/
structure Event where
  id : Nat
  start : Int
  blockedFor : Int
  deriving DecidableEq, Repr

/-- A `StatsManager`. `events` stands for the array; only indices below `size` are used
(rate_limiter.h:195-275). -/
structure S where
  /-- `events_.size()`, 1,000,000 in the code -/
  size : Nat
  events : Nat → Event
  next : Nat
  /-- `active_`, a set -/
  active : List Nat
  completed : Nat
  limited : Nat
  totalWait : Int
  /-- the `ScopedEvent` objects that exist: the ids they were created with. Each points to slot `id % size`. -/
  handles : List Nat

/-- rate_limiter.cc:244-250. -/
def init (size : Nat) : S := ⟨size, fun _ => ⟨0, 0, 0⟩, 0, [], 0, 0, 0, []⟩

/-- rate_limiter.cc:252-263 `CreateEvent`. -/
def create (s : S) (now : Int) : S :=
  let id := s.next
  { s with
    next := id + 1
    events := fun i => if i = id % s.size then ⟨id, now, 0⟩ else s.events i
    active := id :: s.active
    handles := id :: s.handles }

/-- rate_limiter.cc:325-330, the destructor of `ScopedEvent`, and 265-270 `CompleteEvent`. The handle keeps a pointer to its
slot, so it acts on whatever event is there. -/
def finish (s : S) (h : Nat) (wasBlocked : Bool) (now : Int) : S :=
  let slot := h % s.size
  let e0 := s.events slot
  let e := if wasBlocked then { e0 with blockedFor := now - e0.start } else e0
  { s with
    events := fun i => if i = slot then e else s.events i
    active := s.active.filter (· ≠ e.id)
    completed := s.completed + 1
    limited := if 0 < e.blockedFor then s.limited + 1 else s.limited
    totalWait := s.totalWait + e.blockedFor
    handles := s.handles.filter (· ≠ h) }

/-- `*std::min_element` of a non-empty set, `d` for the empty one (rate_limiter.cc:302-304). -/
def minElement (d : Nat) : List Nat → Nat
  | [] => d
  | a :: l => l.foldl min a

/-- rate_limiter.cc:288-315 `GetEventHistory`. -/
def history (s : S) (minId : Nat) : Res (List Event) :=
  if s.next < minId then .died
  else
    let minId := if s.size ≤ s.next - minId then s.next - s.size else minId
    let maxId := minElement s.next s.active
    if maxId < minId + 1 then .ok []
    else .ok ((List.range (maxId - minId - 1)).map fun i => s.events ((minId + i) % s.size))

/-- rate_limiter.cc:272-286 `ToProto`: pending, completed, limited, completed wait time, pending wait time. -/
def toProto (s : S) (now : Int) : Nat × Nat × Nat × Int × Int :=
  (s.active.length, s.completed, s.limited, s.totalWait,
    (s.active.map fun id => now - (s.events (id % s.size)).start).sum)

/-- What happens to a `StatsManager` (rate_limiter.cc:252-329). -/
inductive Op where
  | create (now : Int)
  /-- the scoped event created as number `h` goes out of scope -/
  | finish (h : Nat) (wasBlocked : Bool) (now : Int)

/-- One step; `none` if there is no such scoped event (rate_limiter.cc:252-329). -/
def step (s : S) : Op → Option S
  | .create now => some (create s now)
  | .finish h b now => if h ∈ s.handles then some (finish s h b now) else none

/-- A sequence of steps (model only), rate_limiter.cc:252-329. -/
def run (s : S) : List Op → Option S
  | [] => some s
  | op :: ops =>
    match step s op with
    | none => none
    | some s' => run s' ops

end Verif.Stats
