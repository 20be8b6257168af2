import Verif.Model.Table
/-
Model of table.cc with an extension worker: `ExtensionOperation` may wait for room in `extension_requests_`, and releases `mu_` while it
does. The functions of `Model/Table.lean` are written here as programs that stop at every `ExtensionOperation`; any number of threads run
such programs. The table worker is one of these threads: what it does under one lock of `mu_` is here any number of calls.
-/
namespace Verif

/-- All values of a map are changed (model only, used for `extension_buffer_available_cv_.SignalAll()`,
table.cc:158-181). -/
def AMap.mapVals {κ α β : Type} (f : α → β) (m : AMap κ α) : AMap κ β :=
  ⟨m.entries.map fun e => (e.1, f e.2), by rw [List.map_map]; exact m.nodup⟩

/-- table.h `ExtensionRequest::CallType`. A request to release memory is not made for items of the table
and is left out (table.h:376-386). -/
inductive ExtKind where
  | insert
  | sample
  | update
  | delete
  deriving DecidableEq, Repr

/-- The notification of an extension (table.cc:383-416). -/
def ExtKind.event : ExtKind → Item → ExtEvent
  | .insert => .insert
  | .sample => .sample
  | .update => .update
  | .delete => .delete

/-- A program under `mu_`: it ends with a result, or calls `ExtensionOperation` for an item of the table and goes on with the table it then
finds. In both cases the table as the program leaves it is given (model only, the functions of
table.cc:460-960 cut at the calls of `ExtensionOperation`, table.cc:856-906). -/
inductive Prog (α : Type) where
  | ret (t : Table) (r : Res α)
  | ext (t : Table) (kind : ExtKind) (key : Key) (next : Table → Prog α)

/-- One program after the other; `REVERB_RETURN_IF_ERROR` (used in table.cc:574-610). -/
def Prog.bind {α β : Type} (f : Table → α → Prog β) : Prog α → Prog β
  | .ret t (.ok a) => f t a
  | .ret t (.err e) => .ret t (.err e)
  | .ret t .died => .ret t .died
  | .ext t kind key next => .ext t kind key fun t => (next t).bind f

namespace Table

/-- table.cc:846-853: the end of `DeleteItem`. -/
def erased (t : Table) (k : Key) : Table × Res Unit :=
  let t1 := { t with
    data := t.data.erase k
    limiter := t.limiter.delete }
  let r := t1.sampler.apply (.delete k)
  let t2 := { t1 with sampler := r.1 }
  match r.2 with
  | .ok () =>
    let r := t2.remover.apply (.delete k)
    ({ t2 with remover := r.1 }, r.2)
  | e => (t2, e)

/-- table.cc:831-854 `DeleteItem`. -/
def deleteItemP (t : Table) (k : Key) : Prog Unit :=
  match t.data.get? k with
  | none => .ret t (.ok ())
  | some it =>
    match decRefs t.episodeRefs t.numDeletedEpisodes it.chunks with
    | none => .ret t .died
    | some (refs, nd) =>
      .ext { t with
        episodeRefs := refs
        numDeletedEpisodes := nd
        log := t.log ++ [ExtEvent.delete it] } .delete k fun t => .ret (t.erased k).1 (t.erased k).2

/-- table.cc:908-919 `UpdateItem`. -/
def updateItemP (t : Table) (k : Key) (p : Pri) : Prog Unit :=
  match t.data.get? k with
  | none => .ret t (.ok ())
  | some it =>
    let it := { it with priority := p }
    let t1 := { t with data := t.data.insert k it }
    let r := t1.sampler.apply (.update k p)
    let t2 := { t1 with sampler := r.1 }
    match r.2 with
    | .ok () =>
      let r := t2.remover.apply (.update k p)
      let t3 := { t2 with remover := r.1 }
      match r.2 with
      | .ok () => .ext { t3 with log := t3.log ++ [ExtEvent.update it] } .update k fun t => .ret t (.ok ())
      | e => .ret t3 e
    | e => .ret t2 e

/-- table.cc:521-536 and 599-609: the end of an insertion. -/
def insertEndP (t : Table) (d : Draw) : Prog Unit :=
  if t.maxSize < t.data.size then
    match t.remover.sample d with
    | .ok (victim, _) => (t.deleteItemP victim).bind fun t () => .ret { t with limiter := t.limiter.insert } (.ok ())
    | .err c => .ret t (.err c)
    | .died => .ret t .died
  else .ret { t with limiter := t.limiter.insert } (.ok ())

/-- table.cc:501-536 and 583-609: insertion of a key that is not in the table. After `ExtensionOperation` the chunks are read through the
iterator. -/
def insertNewP (t : Table) (i : Item) (now : Int) (d : Draw) : Prog Unit :=
  let i := { i with insertedAt := now }
  let t1 := { t with data := t.data.insert i.key i }
  let r := t1.sampler.apply (.insert i.key i.priority)
  let t2 := { t1 with sampler := r.1 }
  match r.2 with
  | .ok () =>
    let r := t2.remover.apply (.insert i.key i.priority)
    let t3 := { t2 with remover := r.1 }
    match r.2 with
    | .ok () =>
      .ext { t3 with log := t3.log ++ [ExtEvent.insert i] } .insert i.key fun t =>
        match t.data.get? i.key with
        | none => .ret t .died
        | some it => { t with episodeRefs := incRefs t.episodeRefs it.chunks }.insertEndP d
    | e => .ret t3 e
  | e => .ret t2 e

/-- Turns the status of an internal function into a reply (table.cc:460-542). -/
def replyP (p : Prog Unit) : Prog Reply := p.bind fun t () => .ret t (.ok .done)

/-- table.cc:488-536: `InsertOrAssign` from the wait on. -/
def insertResumeP (t : Table) (i : Item) (now : Int) (d : Draw) : Prog Reply :=
  match t.limiter.awaitInsert with
  | .cancelled => .ret t (.err .cancelled)
  | .wait => .ret t (.ok .blocked)
  | .proceed => if t.data.contains i.key then replyP (t.updateItemP i.key i.priority) else replyP (t.insertNewP i now d)

/-- table.cc:460-542 `InsertOrAssign` without table worker. -/
def insertOrAssignP (t : Table) (i : Item) (now : Int) (d : Draw) : Prog Reply :=
  if !itemValid i then .ret t (.err .invalidArgument)
  else if t.data.contains i.key then replyP (t.updateItemP i.key i.priority)
  else t.insertResumeP i now d

/-- table.cc:240-246: the worker's attempt to process one insert, with `InsertOrAssignInternal` (574-610). -/
def workerInsertP (t : Table) (i : Item) (now : Int) (d : Draw) : Prog Reply :=
  if t.limiter.canInsert 1 then
    replyP (if t.data.contains i.key then t.updateItemP i.key i.priority else t.insertNewP i now d)
  else .ret t (.ok .blocked)

/-- table.cc:620-622: the deletions of `MutateItems`. -/
def deleteAllP (t : Table) : List Key → Prog Unit
  | [] => .ret t (.ok ())
  | k :: ks => (t.deleteItemP k).bind fun t () => t.deleteAllP ks

/-- table.cc:623-625: the updates of `MutateItems`. -/
def updateAllP (t : Table) : List (Key × Pri) → Prog Unit
  | [] => .ret t (.ok ())
  | u :: us => (t.updateItemP u.1 u.2).bind fun t () => t.updateAllP us

/-- table.cc:612-633 `MutateItems`. -/
def mutateItemsP (t : Table) (updates : List (Key × Pri)) (deletes : List Key) : Prog Reply :=
  (t.deleteAllP deletes).bind fun t () => replyP (t.updateAllP updates)

/-- table.cc:711-748 and 756-787: one sample. After `ExtensionOperation` the item is read through a reference into the map. -/
def sampleOneP (t : Table) (rateLimited : Bool) (d : Draw) : Prog Sampled :=
  match t.sampler.sample d with
  | .err c => .ret t (.err c)
  | .died => .ret t .died
  | .ok (k, prob) =>
    match t.data.get? k with
    | none => .ret t .died
    | some it =>
      let it' := { it with timesSampled := it.timesSampled + 1 }
      let s : Sampled := ⟨it', prob, t.data.size, it'.priority, it'.timesSampled, rateLimited⟩
      .ext { t with
        numUniqueSamples := if it.timesSampled = 0 then t.numUniqueSamples + 1 else t.numUniqueSamples
        data := t.data.insert k it'
        log := t.log ++ [ExtEvent.sample it'] } .sample k fun t =>
          match t.data.get? k with
          | none => .ret t .died
          | some it'' =>
            if it''.timesSampled = t.maxTimesSampled then (t.deleteItemP it''.key).bind fun t () => .ret t (.ok s)
            else .ret t (.ok s)

/-- table.cc:749-750: the further iterations of the loop of `SampleFlexibleBatch`. -/
def sampleMoreP (rateLimited : Bool) : Nat → Table → List Sampled → (Nat → Draw) → Prog (List Sampled)
  | 0, t, acc, _ => .ret t (.ok acc)
  | more + 1, t, acc, ds =>
    match t.limiter.maybeCommitSample with
    | none => .ret t (.ok acc)
    | some l => (sampleOneP { t with limiter := l } rateLimited (ds 0)).bind fun t s =>
      sampleMoreP rateLimited more t (acc ++ [s]) (fun i => ds (i + 1))

/-- table.cc:711-751: the loop of `SampleFlexibleBatch`. -/
def sampleLoopP (t : Table) (rateLimited : Bool) (batch : Nat) (ds : Nat → Draw) : Prog Reply :=
  (t.sampleOneP rateLimited (ds 0)).bind fun t s =>
    (sampleMoreP rateLimited (batch - 1) t [s] (fun i => ds (i + 1))).bind fun t l => .ret t (.ok (.samples l))

/-- table.cc:705-751: `SampleFlexibleBatch` from the wait on. -/
def sampleResumeP (t : Table) (batch : Nat) (ds : Nat → Draw) : Prog Reply :=
  match t.limiter.awaitSample with
  | .cancelled => .ret t (.err .cancelled)
  | .wait => .ret t (.ok .blocked)
  | .proceed => { t with limiter := { t.limiter with samples := t.limiter.samples + 1 } }.sampleLoopP true batch ds

/-- table.cc:671-754 `SampleFlexibleBatch`. -/
def sampleBatchP (t : Table) (batch : Nat) (ds : Nat → Draw) : Prog Reply :=
  match t.limiter.maybeCommitSample with
  | some l => { t with limiter := l }.sampleLoopP false batch ds
  | none => t.sampleResumeP batch ds

/-- table.cc:254-258: the worker's attempt to take one sample. -/
def workerSampleP (t : Table) (rateLimited : Bool) (d : Draw) : Prog Reply :=
  match t.limiter.maybeCommitSample with
  | none => .ret t (.ok .blocked)
  | some l => ({ t with limiter := l }.sampleOneP rateLimited d).bind fun t s => .ret t (.ok (.samples [s]))

/-- The program of a call, from the moment it has locked `mu_` (table.cc:460-960). -/
def prog (t : Table) : Op → Prog Reply
  | .insert i now d => t.insertOrAssignP i now d
  | .insertResume i now d => t.insertResumeP i now d
  | .workerInsert i now d => t.workerInsertP i now d
  | .mutate us ds => t.mutateItemsP us ds
  | .sample n ds => t.sampleBatchP n ds
  | .sampleResume n ds => t.sampleResumeP n ds
  | .workerSample rl d => t.workerSampleP rl d
  | .reset => .ret t.reset (.ok .done)
  | .close => .ret t.close (.ok .done)

/-- What a call does that the rate limiter has made wait, when it is woken (rate_limiter.cc); `none` for
calls that do not wait there (rate_limiter.cc:91-148). -/
def Op.waiting : Op → Option Op
  | .insert i now d => some (.insertResume i now d)
  | .insertResume i now d => some (.insertResume i now d)
  | .sample n ds => some (.sampleResume n ds)
  | .sampleResume n ds => some (.sampleResume n ds)
  | _ => none

end Table

namespace Ext

open Table (Op Reply)

/-- Is the extension worker running, are there asynchronous extensions (table.h `has_async_extensions_`), and how many requests may be
enqueued (table.cc:144-146, at least one)? -/
structure Cfg where
  worker : Bool
  async : Bool
  maxOps : Nat

/-- Where the extension worker is (table.cc:346-417): not started, before the check of `stop_worker_`, between the check and the lock of
`mu_`, waiting, signalled but not yet running, with requests to handle, at the end. -/
inductive Phase where
  | starting
  | top
  | checked
  | asleep
  | woken
  | busy
  | ended
  deriving DecidableEq, Repr

/-- A caller that waits: for the rate limiter, in `Reset` for the extension worker, or in `ExtensionOperation`; for the last one, `op` is
the call and `awake` tells whether it was signalled (table.cc:460-542, 671-754, 896-899 and 925-930). -/
inductive Thread where
  | limiter (op : Op)
  | reset
  | buffer (op : Op) (awake : Bool) (kind : ExtKind) (key : Key) (next : Table → Prog Reply)

/-- A record of what callers see: a call begins, a call returns (with the critical section that led to this), a call ends with a timeout,
the table is read (model only, a record of the calls of table.h:145-360). -/
inductive Entry where
  | call (tid : Nat) (op : Op)
  | ret (tid : Nat) (op : Op) (r : Res Reply)
  | timeout (tid : Nat)
  | read (t : Table)

/-- `reqs` is `extension_requests_`, `taken` the requests that the extension worker handles, `seen` the notifications that an asynchronous
extension has received. `threads` has the callers that wait. `trace` is a record and not read
(table.h:470-530). -/
structure State where
  t : Table
  reqs : List ExtEvent
  taken : List ExtEvent
  seen : List ExtEvent
  phase : Phase
  stop : Bool
  threads : AMap Nat Thread
  trace : List Entry

/-- A table before its first call, with its extension worker about to start (table.cc:131-156). -/
def init (t : Table) : State := ⟨t, [], [], [], .starting, false, AMap.empty, []⟩

/-- table.cc:887-895: is a request made for the extension worker? -/
def Cfg.enqueues (c : Cfg) (kind : ExtKind) : Bool := c.worker && (c.async || decide (kind = .delete))

/-- table.cc:900-905: the request is added, and the extension worker signalled if it is the first one. -/
def State.push (s : State) (e : ExtEvent) : State :=
  { s with
    reqs := s.reqs ++ [e]
    phase := if s.reqs = [] ∧ s.phase = .asleep then .woken else s.phase }

/-- A call has come to its end, or has to wait for the rate limiter (table.cc:460-754). -/
def State.finish (s : State) (tid : Nat) (op : Op) (t : Table) (r : Res Reply) : State :=
  match (if r = .ok .blocked then op.waiting else none) with
  | some op' => { s with
    t := t
    threads := s.threads.insert tid (.limiter op') }
  | none => { s with
    t := t
    threads := s.threads.erase tid
    trace := s.trace ++ [.ret tid op r] }

/-- A caller runs with `mu_` held, until it returns or has to wait; `none` if the process dies. table.cc:896-903: the item is read when
there is room for the request. If it is not there any more, the reference is not valid. (It may also become invalid when the table grows,
which is left out.) Without a request nothing is released, and the item is there. -/
def go (c : Cfg) (tid : Nat) (op : Op) : Prog Reply → State → Option State
  | .ret t r, s =>
    match r with
    | .died => none
    | _ => some (s.finish tid op t r)
  | .ext t kind key next, s =>
    if c.enqueues kind then
      if c.maxOps ≤ s.reqs.length then some { s with
        t := t
        threads := s.threads.insert tid (.buffer op false kind key next) }
      else
        match t.data.get? key with
        | none => none
        | some it => go c tid op (next t) ({ s with t := t }.push (kind.event it))
    else
      match t.data.get? key with
      | none => none
      | some _ => go c tid op (next t) { s with t := t }

/-- table.cc:925-930: may `Reset` go on? `extension_worker_sleeps_` is true until the worker starts and while it waits. -/
def State.drained (c : Cfg) (s : State) : Bool :=
  !c.worker || (decide (s.phase = .starting ∨ s.phase = .asleep ∨ s.phase = .woken) && s.reqs.isEmpty)

/-- table.cc:931-948 and 921-960: `Reset` tells the asynchronous extensions itself. -/
def State.reset (c : Cfg) (s : State) (tid : Nat) : Option State :=
  go c tid .reset (s.t.prog .reset) { s with seen := s.seen ++ [ExtEvent.reset] }

/-- `extension_buffer_available_cv_.Signal()` reaches `who` (table.cc:376-382). -/
def State.signal (s : State) (who : Nat) : Option State :=
  match s.threads.get? who with
  | some (.buffer op _ kind key next) => some { s with threads := s.threads.insert who (.buffer op true kind key next) }
  | _ => none

/-- Does the caller wait in `ExtensionOperation`? (table.cc:896-899). -/
def Thread.inBuffer : Thread → Bool
  | .buffer .. => true
  | _ => false

/-- Is it without a signal? (table.cc:896-899). -/
def Thread.unsignalled : Thread → Bool
  | .buffer _ awake _ _ _ => !awake
  | _ => false

/-- A caller that waits in `ExtensionOperation` is signalled (table.cc:158-181). -/
def Thread.wake : Thread → Thread
  | .buffer op _ kind key next => .buffer op true kind key next
  | th => th

/-- What may happen (table.cc:158-181, 340-416 and 460-960). -/
inductive Event where
  /-- a caller calls -/
  | call (tid : Nat) (op : Op)
  /-- the rate limiter lets a waiting caller look again, at another time and with other random draws -/
  | resume (tid : Nat) (op : Op)
  /-- the wait for the rate limiter ends with a timeout -/
  | timeout (tid : Nat)
  /-- `Reset` finds the extension worker asleep -/
  | drained (tid : Nat)
  /-- a caller in `ExtensionOperation` that was signalled goes on -/
  | push (tid : Nat)
  /-- one that was not signalled wakes up, which a condition variable may do -/
  | spurious (tid : Nat)
  /-- somebody reads the table, with `Get`, `size`, `info`, `Copy` or `Checkpoint` -/
  | read
  /-- the extension worker starts -/
  | start
  /-- it checks `stop_worker_` -/
  | check
  /-- it locks `mu_`, and if there are requests takes them; its signal, if it gives one, goes to `who` -/
  | lock (who : Option Nat)
  /-- it handles its requests -/
  | handle
  /-- the destructor sets `stop_worker_` -/
  | stop
  /-- the destructor signals all -/
  | signalAll

/-- rate_limiter.cc:91-148: the item or the number of samples is that of the call. -/
def again : Op → Op → Prop
  | .insertResume i _ _, .insertResume i' _ _ => i = i'
  | .sampleResume n _, .sampleResume n' _ => n = n'
  | _, _ => False

instance (a b : Op) : Decidable (again a b) := by
  cases a <;> cases b <;> simp only [again] <;> infer_instance

/-- table.cc:376-382: the requests are taken, and one waiting caller is signalled if they were many. -/
def State.take (c : Cfg) (s : State) (who : Option Nat) : Option State :=
  let s1 := { s with
    taken := s.reqs
    reqs := []
    phase := .busy }
  if c.maxOps ≤ s.reqs.length then
    match who with
    | some w => s1.signal w
    | none => if s.threads.entries.any (fun p => p.2.unsignalled) then none else some s1
  else
    match who with
    | some _ => none
    | none => some s1

/-- The result of an event: not possible, the process dies, or the next state (model only, for `Event`,
table.cc:340-960). -/
inductive Outcome where
  | impossible
  | died
  | next (s : State)

/-- `none` is death (model only, for `Event`, table.cc:340-960). -/
def Outcome.of : Option State → Outcome
  | none => .died
  | some s => .next s

/-- `none` is not possible (model only, for `Event`, table.cc:340-960). -/
def Outcome.guard : Option State → Outcome
  | none => .impossible
  | some s => .next s

/-- One event (table.cc:158-181, 340-416 and 460-960). -/
def step (c : Cfg) (s : State) : Event → Outcome
  | .call tid op =>
    match s.threads.get? tid with
    | some _ => .impossible
    | none =>
      let s1 := { s with trace := s.trace ++ [.call tid op] }
      match op with
      | .insertResume .. => .impossible
      | .sampleResume .. => .impossible
      | .reset =>
        if s.drained c then .of (s1.reset c tid) else .next { s1 with threads := s1.threads.insert tid .reset }
      | op => .of (go c tid op (s.t.prog op) s1)
  | .resume tid op =>
    match s.threads.get? tid with
    | some (.limiter op0) => if again op0 op then .of (go c tid op (s.t.prog op) s) else .impossible
    | _ => .impossible
  | .timeout tid =>
    match s.threads.get? tid with
    | some (.limiter _) => .next { s with
      threads := s.threads.erase tid
      trace := s.trace ++ [.timeout tid] }
    | _ => .impossible
  | .drained tid =>
    match s.threads.get? tid with
    | some .reset => if s.drained c then .of (s.reset c tid) else .impossible
    | _ => .impossible
  | .push tid =>
    match s.threads.get? tid with
    | some (.buffer op true kind key next) => .of (go c tid op (.ext s.t kind key next) s)
    | _ => .impossible
  | .spurious tid => .guard (s.signal tid)
  | .read => .next { s with trace := s.trace ++ [.read s.t] }
  | .start => if c.worker = true ∧ s.phase = .starting then .next { s with phase := .top } else .impossible
  | .check => if s.phase = .top then .next { s with phase := if s.stop then .ended else .checked } else .impossible
  | .lock who =>
    if s.phase = .checked then
      if s.reqs = [] then
        match who with
        | some _ => .impossible
        | none => .next { s with phase := .asleep }
      else .guard (s.take c who)
    else if s.phase = .woken then .guard (s.take c who)
    else .impossible
  | .handle =>
    if s.phase = .busy then .next { s with
      seen := s.seen ++ s.taken
      taken := []
      phase := .top }
    else .impossible
  | .stop => .next { s with stop := true }
  | .signalAll => .next { s with
    threads := s.threads.mapVals Thread.wake
    phase := if s.phase = .asleep then .woken else s.phase }

/-- Several events (model only: the events of table.cc:340-960 in any order). -/
def run (c : Cfg) (s : State) : List Event → Outcome
  | [] => .next s
  | e :: es =>
    match step c s e with
    | .next s' => run c s' es
    | o => o

end Ext
end Verif
