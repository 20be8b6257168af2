import Verif.Model.Table
/-
Callers that wait for the rate limiter of a table without table worker: the condition variables of
reverb/cc/rate_limiter.cc and the waits in `InsertOrAssign` and `SampleFlexibleBatch`.

`Table.points` lists the states of the limiter in which a critical section calls `MaybeSignalCondVars`. The functions below
follow those of `Model/Table.lean` one by one.
-/
namespace Verif.Table

/-- table.cc:831-854 `DeleteItem` calls `RateLimiter::Delete` (rate_limiter.cc:117-120) if the item exists. -/
def deletePoints (t : Table) (k : Key) : List Limiter :=
  match t.data.get? k with
  | none => []
  | some it =>
    match decRefs t.episodeRefs t.numDeletedEpisodes it.chunks with
    | none => []
    | some _ => [t.limiter.delete]

/-- table.cc:501-536: insertion of a new key; a possible eviction signals, then `RateLimiter::Insert`
(rate_limiter.cc:112-115) does, unless an error ends the call before. -/
def insertNewPoints (t : Table) (i : Item) (now : Int) (d : Draw) : List Limiter :=
  let i := { i with insertedAt := now }
  let t1 := { t with data := t.data.insert i.key i }
  let r := t1.sampler.apply (.insert i.key i.priority)
  let t2 := { t1 with sampler := r.1 }
  match r.2 with
  | .ok () =>
    let r := t2.remover.apply (.insert i.key i.priority)
    let t3 := { t2 with remover := r.1 }
    match r.2 with
    | .ok () =>
      let t4 := { t3 with
        log := t3.log ++ [ExtEvent.insert i]
        episodeRefs := incRefs t3.episodeRefs i.chunks }
      if t4.maxSize < t4.data.size then
        match t4.remover.sample d with
        | .ok (victim, _) =>
          let r := t4.deleteItem victim
          match r.2 with
          | .ok () => t4.deletePoints victim ++ [r.1.limiter.insert]
          | _ => t4.deletePoints victim
        | _ => []
      else [t4.limiter.insert]
    | _ => []
  | _ => []

/-- table.cc:488-536: a caller of `InsertOrAssign` that finds that it may go on. If the key is in the table by now it
signals itself (505-509). -/
def insertResumePoints (t : Table) (i : Item) (now : Int) (d : Draw) : List Limiter :=
  match t.limiter.awaitInsert with
  | .proceed => if t.data.contains i.key then [t.limiter] else t.insertNewPoints i now d
  | _ => []

/-- table.cc:460-542 `InsertOrAssign`. -/
def insertPoints (t : Table) (i : Item) (now : Int) (d : Draw) : List Limiter :=
  if !itemValid i then []
  else if t.data.contains i.key then []
  else t.insertResumePoints i now d

/-- table.cc:620-622: the deletions of `MutateItems`. -/
def deleteAllPoints (t : Table) : List Key → List Limiter
  | [] => []
  | k :: ks =>
    match (t.deleteItem k).2 with
    | .ok () => t.deletePoints k ++ (t.deleteItem k).1.deleteAllPoints ks
    | _ => t.deletePoints k

/-- table.cc:711-748: one sample; signals if the item is deleted because it was sampled often enough. -/
def sampleOnePoints (t : Table) (d : Draw) : List Limiter :=
  match t.sampler.sample d with
  | .ok (k, _) =>
    match t.data.get? k with
    | none => []
    | some it =>
      let it' := { it with timesSampled := it.timesSampled + 1 }
      let t1 := { t with
        numUniqueSamples := if it.timesSampled = 0 then t.numUniqueSamples + 1 else t.numUniqueSamples
        data := t.data.insert k it'
        log := t.log ++ [ExtEvent.sample it'] }
      if it'.timesSampled = t1.maxTimesSampled then t1.deletePoints it'.key else []
  | _ => []

/-- table.cc:749-750: further samples; `MaybeCommitSample` signals (rate_limiter.cc:159-169). -/
def sampleMorePoints (t : Table) (rateLimited : Bool) : Nat → (Nat → Draw) → List Limiter
  | 0, _ => []
  | more + 1, ds =>
    match t.limiter.maybeCommitSample with
    | none => []
    | some l =>
      let t' := { t with limiter := l }
      let r := t'.sampleOne rateLimited (ds 0)
      match r.2 with
      | .ok _ => l :: t'.sampleOnePoints (ds 0) ++ r.1.sampleMorePoints rateLimited more (fun i => ds (i + 1))
      | _ => l :: t'.sampleOnePoints (ds 0)

/-- table.cc:711-751: the loop of `SampleFlexibleBatch`. -/
def sampleLoopPoints (t : Table) (rateLimited : Bool) (batch : Nat) (ds : Nat → Draw) : List Limiter :=
  let r := t.sampleOne rateLimited (ds 0)
  match r.2 with
  | .ok _ => t.sampleOnePoints (ds 0) ++ r.1.sampleMorePoints rateLimited (batch - 1) (fun i => ds (i + 1))
  | _ => t.sampleOnePoints (ds 0)

/-- table.cc:705-751: a caller of `SampleFlexibleBatch` that has waited; `AwaitAndFinalizeSample` signals
(rate_limiter.cc:145-146). -/
def sampleResumePoints (t : Table) (batch : Nat) (ds : Nat → Draw) : List Limiter :=
  match t.limiter.awaitSample with
  | .proceed =>
    let l := { t.limiter with samples := t.limiter.samples + 1 }
    l :: { t with limiter := l }.sampleLoopPoints true batch ds
  | _ => []

/-- table.cc:671-754 `SampleFlexibleBatch`. -/
def samplePoints (t : Table) (batch : Nat) (ds : Nat → Draw) : List Limiter :=
  match t.limiter.maybeCommitSample with
  | some l => l :: { t with limiter := l }.sampleLoopPoints false batch ds
  | none => t.sampleResumePoints batch ds

/-- The states of the limiter in which a critical section calls `MaybeSignalCondVars`, in order. (The sections of
the table worker do not occur here.) (rate_limiter.cc:112-169, 190-215). -/
def points (t : Table) : Op → List Limiter
  | .insert i now d => t.insertPoints i now d
  | .insertResume i now d => t.insertResumePoints i now d
  | .mutate _ ds => t.deleteAllPoints ds
  | .sample n ds => t.samplePoints n ds
  | .sampleResume n ds => t.sampleResumePoints n ds
  | .reset => [t.reset.limiter]
  | .close => []
  | .workerInsert .. => []
  | .workerSample .. => []

end Verif.Table

namespace Verif.Waiters
open Table (Op)

/-- What a client may call (table.cc:460-542, 612-633, 671-754, 819-829, 921-960). -/
inductive Call where
  | insert (i : Item)
  | sample (batch : Nat)
  | mutate (updates : List (Key × Pri)) (deletes : List Key)
  | reset
  | close

/-- A caller in `WaitWithDeadline` of one of the two condition variables (rate_limiter.cc:102-107, 134-140). -/
structure Waiter where
  id : Nat
  call : Call
  /-- a signal has been sent to it; it will run when it gets the mutex -/
  signalled : Bool

/-- The call waits for permission to insert (`can_insert_cv_`) (rate_limiter.h:190). -/
def Waiter.inserts (w : Waiter) : Bool := match w.call with
  | .insert _ => true
  | _ => false

/-- The call waits for permission to sample (`can_sample_cv_`) (rate_limiter.h:191). -/
def Waiter.samples (w : Waiter) : Bool := match w.call with
  | .sample _ => true
  | _ => false

/-- The clock and the random numbers of a critical section, and which of the waiting threads its signals
wake (model only; table.cc:460-542, 671-754). -/
structure Env where
  now : Int
  draws : Nat → Draw
  pick : Nat → Nat

/-- How a call has ended (rate_limiter.cc:96-146: granted, deadline or cancelled). -/
inductive Ending where
  | returned (r : Res Table.Reply)
  /-- `RateLimiterTimeout` -/
  | timedOut

/-- A table without table worker and its clients (table.h:430-477, rate_limiter.h:150-191). -/
structure S where
  table : Table
  waiters : List Waiter
  /-- the calls that have ended, in order -/
  ended : List (Nat × Ending)
  /-- the process has died -/
  dead : Bool
  /-- ghost: the critical sections executed, with the caller -/
  trace : List (Nat × Op)

/-- No calls yet (table.cc:131-156). -/
def init (t : Table) : S := ⟨t, [], [], false, []⟩

/-- The first critical section of a call (table.cc:460-542, 612-633, 671-754, 819-829, 921-960). -/
def Call.start (c : Call) (e : Env) : Op :=
  match c with
  | .insert i => .insert i e.now (e.draws 0)
  | .sample n => .sample n e.draws
  | .mutate us ds => .mutate us ds
  | .reset => .reset
  | .close => .close

/-- The critical section of a caller that returns from `WaitWithDeadline` (table.cc:488-536, 705-751). -/
def Call.resume (c : Call) (e : Env) : Op :=
  match c with
  | .insert i => .insertResume i e.now (e.draws 0)
  | .sample n => .sampleResume n e.draws
  | c => c.start e

/-- `CondVar::Signal`: one of the waiting threads that satisfy `p` and have not been signalled is woken, if there
are any; `n` tells which (rate_limiter.cc:190-215). -/
def wakeOne (p : Waiter → Bool) (n : Nat) (ws : List Waiter) : List Waiter :=
  let free := ws.filter fun w => p w && !w.signalled
  match free[n % free.length]? with
  | none => ws
  | some x => ws.map fun w => if w.id = x.id then { w with signalled := true } else w

/-- rate_limiter.cc:210-213 `MaybeSignalCondVars`, in each of the given states of the limiter. -/
def signalAt (pick : Nat → Nat) : List Limiter → List Waiter → List Waiter
  | [], ws => ws
  | l :: ls, ws =>
    let ws := if l.canInsert 1 then wakeOne Waiter.inserts (pick 0) ws else ws
    let ws := if l.canSample 1 then wakeOne Waiter.samples (pick 1) ws else ws
    signalAt (fun i => pick (i + 2)) ls ws

/-- rate_limiter.cc:186-190 `Cancel`: `SignalAll` on both condition variables. -/
def signalAll (ws : List Waiter) : List Waiter := ws.map fun w => { w with signalled := true }

/-- `Close` cancels the limiter (table.cc:819-823). -/
def _root_.Verif.Table.Op.isClose : Op → Bool
  | .close => true
  | _ => false

/-- A critical section of the caller `id`, who is not among the waiting any more. If it has to wait it joins
them (table.cc:460-542, 671-754). -/
def section_ (s : S) (id : Nat) (c : Call) (op : Op) (e : Env) : S :=
  let r := s.table.step op
  let ws := signalAt e.pick (s.table.points op) s.waiters
  let ws := if op.isClose then signalAll ws else ws
  let s1 := { s with
    table := r.1
    trace := s.trace ++ [(id, op)] }
  match r.2 with
  | .ok .blocked => { s1 with waiters := ws ++ [⟨id, c, false⟩] }
  | .died => { s1 with
    waiters := ws
    ended := s.ended ++ [(id, .returned .died)]
    dead := true }
  | x => { s1 with
    waiters := ws
    ended := s.ended ++ [(id, .returned x)] }

/-- What can happen next (table.cc:460-542, 671-754; threads and the clock are explicit). -/
inductive Act where
  /-- a client calls; `id` must be fresh -/
  | call (id : Nat) (c : Call) (e : Env)
  /-- `WaitWithDeadline` returns false: signalled or spuriously -/
  | wake (id : Nat) (e : Env)
  /-- `WaitWithDeadline` returns true. By the contract of `absl::CondVar` that may happen also to a caller that was
  signalled, if the deadline passes before it runs. -/
  | timeout (id : Nat)

/-- `id` belongs to a call already made (model only), of those of table.cc:460-542, 671-754. -/
def S.known (s : S) (id : Nat) : Bool := s.waiters.any (·.id = id) || s.ended.any (·.1 = id)

/-- One step; `none` if it is not possible (table.cc:460-542, 671-754, rate_limiter.cc:96-146). -/
def step (s : S) (a : Act) : Option S :=
  if s.dead then none
  else
    match a with
    | .call id c e => if s.known id then none else some (section_ s id c (c.start e) e)
    | .wake id e =>
      match s.waiters.find? (·.id = id) with
      | none => none
      | some w =>
        some (section_ { s with waiters := s.waiters.filter (·.id ≠ id) } id w.call (w.call.resume e) e)
    | .timeout id =>
      match s.waiters.find? (·.id = id) with
      | none => none
      | some _ =>
        some { s with
          waiters := s.waiters.filter (·.id ≠ id)
          ended := s.ended ++ [(id, .timedOut)] }

/-- A schedule (model only) of the calls of table.cc:460-542, 671-754. -/
def run (s : S) : List Act → Option S
  | [] => some s
  | a :: as =>
    match step s a with
    | none => none
    | some s' => run s' as

end Verif.Waiters
