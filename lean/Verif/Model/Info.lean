import Verif.Model.Waiters
import Verif.Model.Checkpoint
import Verif.Model.Stats
import Verif.Model.Signature
/-
What `server_info` tells about the tables of a server: `Table::info` (table.cc:796-817), `RateLimiter::Info` (rate_limiter.cc:215-229) with the
statistics of the calls of the limiter, the handler `ServerInfo` (reverb_service_impl.cc:414-422, reverb_service_async_impl.cc:691-701) and the
Python side (client.py:495-517, reverb_types.py:76-97). `Model/Stats.lean` has the statistics as such; here they are kept by the calls of a table.
-/
namespace Verif
namespace Info
open Table (Op itemValid)
open Waiters (Act)

/-- schema.proto:196-212 `RateLimiterCallStats`. -/
structure CallStats where
  pending : Nat
  completed : Nat
  limited : Nat
  completedWait : Int
  pendingWait : Int
  deriving DecidableEq, Repr

/-- schema.proto:214-235 `RateLimiterInfo`. -/
structure LimiterInfo where
  samplesPerInsert : Rat
  minDiff : Rat
  maxDiff : Rat
  minSizeToSample : Int
  insertStats : CallStats
  sampleStats : CallStats
  deriving DecidableEq, Repr

/-- schema.proto:157-194 `TableInfo`; `KeyDistributionOptions` are the kind of the selector. -/
structure TableInfo where
  name : String
  samplerOptions : SelKind
  removerOptions : SelKind
  maxSize : Nat
  maxTimesSampled : Int
  limiter : LimiterInfo
  signature : Option Sig
  currentSize : Nat
  numEpisodes : Nat
  numDeletedEpisodes : Int
  numUniqueSamples : Int

/-- rate_limiter.cc:272-286 `ToProto`. -/
def callStats (m : Stats.S) (now : Int) : CallStats :=
  let p := Stats.toProto m now
  ⟨p.1, p.2.1, p.2.2.1, p.2.2.2.1, p.2.2.2.2⟩

/-- rate_limiter.cc:215-229 `Info` and `InfoWithoutCallStats`. -/
def limiterInfo (l : Limiter) (ins smp : Stats.S) (now : Int) : LimiterInfo :=
  ⟨l.spi, l.minDiff, l.maxDiff, l.minSize, callStats ins now, callStats smp now⟩

/-- table.cc:796-817 `info`. `now` is the clock; it is read twice in the code, once for each of the statistics. -/
def tableInfo (name : String) (signature : Option Sig) (t : Table) (ins smp : Stats.S) (now : Int) : TableInfo :=
  ⟨name, t.sampler.options, t.remover.options, t.maxSize, t.maxTimesSampled, limiterInfo t.limiter ins smp now, signature, t.size, t.numEpisodes,
   t.numDeletedEpisodes, t.numUniqueSamples⟩

/-- rate_limiter.cc:165 and 183: an event that is created and destroyed at once. -/
def instant (m : Stats.S) (now : Int) : Stats.S := Stats.finish (Stats.create m now) m.next false now

/-- Several of them (rate_limiter.cc:165). -/
def instants (m : Stats.S) (now : Int) : Nat → Stats.S
  | 0 => m
  | n + 1 => instants (instant m now) now n

/-- rate_limiter.cc:96-107 and 129-142: the event of a call that asks for permission, up to its wait or to its end. `found` is what the loop finds, `event`
the number of the event, if the call has waited before. The number is returned if it has to wait (again). Simplified: the clock does not move
while the mutex is held. -/
def await (m : Stats.S) (found : Limiter.Await) (event : Option Nat) (now : Int) : Stats.S × Option Nat :=
  match event with
  | none =>
    match found with
    | .wait => (Stats.create m now, some m.next)
    | _ => (instant m now, none)
  | some h =>
    match found with
    | .wait => (m, some h)
    | _ => (Stats.finish m h true now, none)

/-- table.cc:749-750: how many further samples are committed, see `Table.sampleMore`. -/
def moreCommits (t : Table) (rateLimited : Bool) : Nat → (Nat → Draw) → Nat
  | 0, _ => 0
  | more + 1, ds =>
    match t.limiter.maybeCommitSample with
    | none => 0
    | some l =>
      let r := { t with limiter := l }.sampleOne rateLimited (ds 0)
      match r.2 with
      | .ok _ => 1 + moreCommits r.1 rateLimited more (fun i => ds (i + 1))
      | _ => 1

/-- table.cc:711-751: the same for the whole loop, see `Table.sampleLoop`. -/
def loopCommits (t : Table) (rateLimited : Bool) (batch : Nat) (ds : Nat → Draw) : Nat :=
  let r := t.sampleOne rateLimited (ds 0)
  match r.2 with
  | .ok _ => moreCommits r.1 rateLimited (batch - 1) (fun i => ds (i + 1))
  | _ => 0

/-- What a critical section does to `insert_stats_` (rate_limiter.h:271); `event` is the event of its caller, if that has waited.
table.cc:460-497 `InsertOrAssign`, 238-239 the table worker. -/
def insertEvents (t : Table) (m : Stats.S) (event : Option Nat) (now : Int) : Op → Stats.S × Option Nat
  | .insert i _ _ =>
    if !itemValid i then (m, none)
    else if t.data.contains i.key then (m, none)
    else await m t.limiter.awaitInsert none now
  | .insertResume _ _ _ => await m t.limiter.awaitInsert event now
  | .workerInsert _ _ _ => if t.limiter.canInsert 1 then (instant m now, none) else (m, none)
  | _ => (m, none)

/-- What a critical section does to `sample_stats_` (rate_limiter.h:272). table.cc:698-751 `SampleFlexibleBatch`, 254 the table worker. -/
def sampleEvents (t : Table) (m : Stats.S) (event : Option Nat) (now : Int) : Op → Stats.S × Option Nat
  | .sample n ds =>
    match t.limiter.maybeCommitSample with
    | some l => (instants (instant m now) now (loopCommits { t with limiter := l } false n ds), none)
    | none =>
      let r := await m t.limiter.awaitSample none now
      match t.limiter.awaitSample with
      | .proceed => (instants r.1 now (loopCommits { t with limiter := { t.limiter with samples := t.limiter.samples + 1 } } true n ds), r.2)
      | _ => r
  | .sampleResume n ds =>
    let r := await m t.limiter.awaitSample event now
    match t.limiter.awaitSample with
    | .proceed => (instants r.1 now (loopCommits { t with limiter := { t.limiter with samples := t.limiter.samples + 1 } } true n ds), r.2)
    | _ => r
  | .workerSample _ _ =>
    match t.limiter.maybeCommitSample with
    | some _ => (instant m now, none)
    | none => (m, none)
  | _ => (m, none)

/-- A table without table worker, its callers (Model/Waiters.lean) and the statistics of its limiter (rate_limiter.h:150-191, 271-272). `events` has
the `ScopedEvent`s on the stacks of the waiting callers: the number of the event (rate_limiter.cc:100, 134). -/
structure Obs where
  base : Waiters.S
  ins : Stats.S
  smp : Stats.S
  events : AMap Nat Nat

/-- A new table (table.cc:131-156); `size` is `kEventHistoryBufferSize` (rate_limiter.h:38). -/
def init (size : Nat) (t : Table) : Obs := ⟨Waiters.init t, Stats.init size, Stats.init size, AMap.empty⟩

/-- A critical section of the caller `id` (table.cc:460-542, 671-754); `b` is what it does apart from the statistics. -/
def section_ (o : Obs) (id : Nat) (op : Op) (now : Int) (b : Waiters.S) : Obs :=
  let r := insertEvents o.base.table o.ins (o.events.get? id) now op
  let q := sampleEvents o.base.table o.smp (o.events.get? id) now op
  ⟨b, r.1, q.1,
    match r.2, q.2 with
    | some h, _ => o.events.insert id h
    | none, some h => o.events.insert id h
    | none, none => o.events.erase id⟩

/-- One step at the time `now`; `none` if it is not possible (table.cc:460-542, 671-754, rate_limiter.cc:96-146). -/
def step (o : Obs) (a : Act) (now : Int) : Option Obs :=
  match Waiters.step o.base a with
  | none => none
  | some b =>
    match a with
    | .call id c e => some (section_ o id (c.start e) now b)
    | .wake id e =>
      match o.base.waiters.find? (·.id = id) with
      | none => none
      | some w => some (section_ o id (w.call.resume e) now b)
    | .timeout id =>
      match o.base.waiters.find? (·.id = id), o.events.get? id with
      | some w, some h =>
        -- rate_limiter.cc:103-105 and 137-139: the event goes out of scope
        if w.inserts then some ⟨b, Stats.finish o.ins h true now, o.smp, o.events.erase id⟩
        else some ⟨b, o.ins, Stats.finish o.smp h true now, o.events.erase id⟩
      | _, _ => none

/-- A schedule with the times (model only), of the calls of table.cc:460-542, 671-754. -/
def run (o : Obs) : List (Act × Int) → Option Obs
  | [] => some o
  | (a, now) :: as =>
    match step o a now with
    | none => none
    | some o' => run o' as

/-- The statistics of a table with table worker (table.cc:183-344) after some of the critical sections of the table, with the times. Other
threads do not ask the limiter then (table.cc:462-486, 680-693). -/
def workerRun (t : Table) (ins smp : Stats.S) : List (Op × Int) → Table × Stats.S × Stats.S
  | [] => (t, ins, smp)
  | (op, now) :: ops => workerRun (t.step op).1 (insertEvents t ins none now op).1 (sampleEvents t smp none now op).1 ops

/-- A table of a server: its signature and its state (reverb_service_impl.h:113). -/
structure Entry where
  signature : Option Sig
  obs : Obs

/-- table.cc:796-817 `info`. -/
def Entry.info (x : Entry) (name : String) (now : Int) : TableInfo := tableInfo name x.signature x.obs.base.table x.obs.ins x.obs.smp now

/-- A server and a call of `ServerInfo`: the tables still to be asked and the answers so far (reverb_service_impl.cc:414-422). The call changes
nothing, so that it is enough to have one of them at a time. -/
structure Server where
  tables : AMap String Entry
  asking : Option (List String × List TableInfo)
  answer : Option (List TableInfo)

/-- What can happen (reverb_service_impl.cc:150-422). -/
inductive Event where
  /-- a step of a table or of its callers -/
  | act (name : String) (a : Act) (now : Int)
  /-- `ServerInfo` is called; the tables are in the order of the hash map -/
  | ask (order : List String)
  /-- `info` of the next table -/
  | read (now : Int)
  /-- the answer is sent -/
  | send

/-- One step; `none` if it is not possible (reverb_service_impl.cc:414-422). -/
def Server.step (v : Server) : Event → Option Server
  | .act name a now =>
    match v.tables.get? name with
    | none => none
    | some x =>
      match Info.step x.obs a now with
      | none => none
      | some o => some { v with tables := v.tables.insert name { x with obs := o } }
  | .ask order =>
    match v.asking with
    | some _ => none
    | none => if order.isPerm v.tables.keys then some { v with asking := some (order, []) } else none
  | .read now =>
    match v.asking with
    | some (n :: todo, got) =>
      match v.tables.get? n with
      | some x => some { v with asking := some (todo, got ++ [x.info n now]) }
      | none => none
    | _ => none
  | .send =>
    match v.asking with
    | some ([], got) => some { v with
        asking := none
        answer := some got }
    | _ => none

/-- A sequence of steps (model only), reverb_service_impl.cc:150-422. -/
def Server.run (v : Server) : List Event → Option Server
  | [] => some v
  | e :: es =>
    match v.step e with
    | none => none
    | some v' => v'.run es

/-- client.py:505-508: the dictionary that `server_info` returns. `from_serialized_proto` (reverb_types.py:76-97) copies all fields; that it decodes the
signature is in Model/PyDataset.lean. -/
def dictionary (infos : List TableInfo) : AMap String TableInfo := infos.foldl (fun d i => d.insert i.name i) AMap.empty

end Info
end Verif
