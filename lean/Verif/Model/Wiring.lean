import Verif.Model.Checkpoint
/-
Model of the objects that a table is built from: rate limiters and extensions know the table they belong to
(rate_limiter.cc:76-94, table_extensions/base.cc:25-43), tables list their extensions (table.cc:131-181,
419-447, 1039-1050, 1082-1100), and extensions are told about items (table.cc:856-960). Calls are made one after
the other; `extension_requests_` has no limit here (see `Model/Extensions.lean` for threads that wait).
-/
namespace Verif
namespace Wiring
open Table (Op Reply)

/-- A rate limiter that may be given to tables (rate_limiter.h:60-62, 170-200). `owner` is `table_`. While it
belongs to a table its numbers are in `Table.limiter`. -/
structure Lim where
  limiter : Limiter
  owner : Option Nat

/-- An extension derived from `TableExtensionBase` (table_extensions/base.h:27-72). `owner` is `table_`; `heard`
has the calls of `ApplyOn…` (base.cc:45-61). `before` and `skipped` are model only: what it had heard, and the length of
the log of the table, when it was last registered. -/
structure Xt where
  canAsync : Bool
  owner : Option Nat
  heard : List ExtEvent
  before : List ExtEvent
  skipped : Nat

/-- A table with its objects: `sync_extensions_`, `async_extensions_`, `extension_worker_`,
`has_async_extensions_` and `extension_requests_` (table.h:519-552). -/
structure Tb where
  table : Table
  lim : Nat
  sync : List Nat
  async : List Nat
  worker : Bool
  hasAsync : Bool
  reqs : List ExtEvent

/-- All objects of a process: the shared pointers that pybind.cc:534-560 makes and tables hold (table.h:519-560). -/
structure World where
  lims : AMap Nat Lim
  exts : AMap Nat Xt
  tabs : AMap Nat Tb

/-- The result of an event: not possible (an object that does not exist, a call that waits), the process dies
(`REVERB_CHECK…`, table.cc:152-154), or the next state. -/
inductive Outcome where
  | impossible
  | died
  | next (w : World)

/-- base.cc:25-36 `RegisterTable` and the check of its result (table.cc:154, 1040); `none`: the process dies. `log`
is the number of notifications there have been (model only). -/
def register (w : World) (tid log : Nat) (x : Nat) : Option World :=
  match w.exts.get? x with
  | none => none
  | some e =>
    match e.owner with
    | some _ => none
    | none => some { w with
      exts := w.exts.insert x { e with
        owner := some tid
        before := e.heard
        skipped := log } }

/-- table.cc:153-155: the extensions given to the constructor. -/
def registerAll (tid : Nat) : World → List Nat → Option World
  | w, [] => some w
  | w, x :: xs =>
    match register w tid 0 x with
    | none => none
    | some w => registerAll tid w xs

/-- base.cc:38-43 `UnregisterTable`; `none`: the process dies. -/
def unregister (w : World) (tid : Nat) (x : Nat) : Option World :=
  match w.exts.get? x with
  | none => none
  | some e => if e.owner = some tid then some { w with exts := w.exts.insert x { e with owner := none } } else none

/-- table.cc:175-180 and 1095-1097. -/
def unregisterAll (tid : Nat) : World → List Nat → Option World
  | w, [] => some w
  | w, x :: xs =>
    match unregister w tid x with
    | none => none
    | some w => unregisterAll tid w xs

/-- base.cc:45-61: the extension is told something. -/
def tell (w : World) (evs : List ExtEvent) (x : Nat) : World :=
  match w.exts.get? x with
  | none => w
  | some e => { w with exts := w.exts.insert x { e with heard := e.heard ++ evs } }

/-- table.cc:858-885: all synchronous extensions are told; table.cc:383-413: all asynchronous ones. (All events
at a time instead of one after the other.) -/
def tellAll (w : World) (evs : List ExtEvent) (xs : List Nat) : World := xs.foldl (fun w x => tell w evs x) w

/-- table.cc:131-156: the constructor, for a limiter that has the state `l`. The table is `t`: empty, or that of a
checkpoint before its items are inserted. -/
def construct (w : World) (tid : Nat) (t : Table) (lim : Nat) (xs : List Nat) : Outcome :=
  match w.lims.get? lim with
  | none => .impossible
  | some l =>
    if l.owner.isSome then .died
    else
      match registerAll tid { w with lims := w.lims.insert lim { l with owner := some tid } } xs with
      | none => .died
      | some w => .next { w with tabs := w.tabs.insert tid ⟨t, lim, xs, [], false, false, []⟩ }

/-- table.cc:158-181 the destructor: the limiter is cancelled (`Close`), unregistered, which resets its counters
(rate_limiter.cc:88-94), and the extensions are unregistered. Requests that the extension worker has not handled are
lost. -/
def destroy (w : World) (tid : Nat) : Outcome :=
  match w.tabs.get? tid with
  | none => .impossible
  | some b =>
    match w.lims.get? b.lim with
    | none => .died
    | some l =>
      if l.owner ≠ some tid then .died
      else
        match unregisterAll tid { w with lims := w.lims.insert b.lim ⟨b.table.limiter.cancel.reset, none⟩ } (b.sync ++ b.async) with
        | none => .died
        | some w => .next { w with tabs := w.tabs.erase tid }

/-- Can the extension run asynchronously? (table_extensions/interface.h:41-44). -/
def World.canAsync (w : World) (x : Nat) : Bool := ((w.exts.get? x).map Xt.canAsync).getD false

/-- table.cc:419-447 `EnableTableWorker`; it is called once (reverb_service_async_impl.cc:132). -/
def enableWorker (w : World) (tid : Nat) : Outcome :=
  match w.tabs.get? tid with
  | none => .impossible
  | some b =>
    if b.worker then .impossible
    else
      let async := b.async ++ b.sync.filter fun x => w.canAsync x
      .next { w with
        tabs := w.tabs.insert tid { b with
          sync := b.sync.filter fun x => !w.canAsync x
          async := async
          worker := true
          hasAsync := !async.isEmpty } }

/-- table.cc:1039-1050 `UnsafeAddExtension`. -/
def addExtension (w : World) (tid x : Nat) : Outcome :=
  match w.tabs.get? tid, w.exts.get? x with
  | some b, some e =>
    match register w tid b.table.log.length x with
    | none => .died
    | some w =>
      if b.table.data.size ≠ 0 then .died
      else if e.canAsync && b.worker then .next { w with tabs := w.tabs.insert tid { b with async := b.async ++ [x] } }
      else .next { w with tabs := w.tabs.insert tid { b with sync := b.sync ++ [x] } }
  | _, _ => .impossible

/-- table.cc:1082-1100 `UnsafeClearExtensions`: the extensions returned, and the state; `none`: the process dies. -/
def clearExtensions (w : World) (tid : Nat) (b : Tb) : Option (List Nat × World) :=
  if b.table.data.size ≠ 0 then none
  else
    match unregisterAll tid { w with
      tabs := w.tabs.insert tid { b with
        sync := []
        async := [] } } (b.sync ++ b.async) with
    | none => none
    | some w => some (b.sync ++ b.async, w)

/-- table.cc:890-895: the requests that are enqueued even if there are no asynchronous extensions. -/
def isDelete : ExtEvent → Bool
  | .delete _ => true
  | _ => false

/-- One critical section of a table and what its extensions are told: table.cc:856-906 and, for `Reset`, 921-938.
`Reset` waits until the extension worker has no requests left. -/
def operate (w : World) (tid : Nat) (op : Op) : Outcome :=
  match w.tabs.get? tid with
  | none => .impossible
  | some b =>
    if op matches .reset && b.worker && !b.reqs.isEmpty then .impossible
    else
      match (b.table.step op).2 with
      | .died => .died
      | _ =>
        let t := (b.table.step op).1
        let news := t.log.drop b.table.log.length
        let w := tellAll w news b.sync
        if op matches .reset then
          let w := tellAll w news b.async
          .next { w with tabs := w.tabs.insert tid { b with table := t } }
        else
          .next { w with
            tabs := w.tabs.insert tid { b with
              table := t
              reqs := if b.worker then b.reqs ++ (if b.hasAsync then news else news.filter isDelete) else b.reqs } }

/-- table.cc:346-417: the extension worker handles its requests. -/
def work (w : World) (tid : Nat) : Outcome :=
  match w.tabs.get? tid with
  | none => .impossible
  | some b =>
    if !b.worker then .impossible
    else
      let w := tellAll w b.reqs b.async
      .next { w with tabs := w.tabs.insert tid { b with reqs := [] } }

/-- tfrecord_checkpointer.cc:306-370: a table of a checkpoint takes the place of the table `tid` that was given to the
server. That one is destroyed when no one holds it any more: an event of its own. `lim` is the limiter made from the
checkpoint. The items are inserted before the worker is enabled, so all extensions are told about them at once
(table.cc:856-885). Simplified: an error or a failed check while the items are inserted ends the process. -/
def load (w : World) (tid tid' lim : Nat) (c : Checkpoint) (chunks : List ChunkRef) : Outcome :=
  match w.tabs.get? tid, w.tabs.get? tid', w.lims.get? lim with
  | some b, none, none =>
    match clearExtensions w tid b with
    | none => .died
    | some (xs, w) =>
      match construct { w with lims := w.lims.insert lim ⟨c.limiter.restored, none⟩ } tid'
        { Table.make c.maxSize c.maxTimesSampled c.sampler c.remover c.limiter.restored with
          numDeletedEpisodes := c.numDeletedEpisodes
          numUniqueSamples := c.numUniqueSamples } lim xs with
      | .next w =>
        match restore c chunks with
        | .ok t => .next { tellAll w t.log xs with tabs := w.tabs.insert tid' ⟨t, lim, xs, [], false, false, []⟩ }
        | _ => .died
      | o => o
  | _, _, _ => .impossible

/-- What may happen: the functions of table.cc and tfrecord_checkpointer.cc:306-370 modelled above. -/
inductive Event where
  | construct (tid : Nat) (maxSize : Nat) (maxTimes : Int) (sampler remover : SelKind) (lim : Nat) (exts : List Nat)
  | destroy (tid : Nat)
  | enableWorker (tid : Nat)
  | addExtension (tid x : Nat)
  | op (tid : Nat) (op : Op)
  | work (tid : Nat)
  | load (tid tid' lim : Nat) (c : Checkpoint) (chunks : List ChunkRef)

/-- One event (table.cc:131-181, 419-447, 856-960, 1039-1100, tfrecord_checkpointer.cc:306-370). A new table has a number that no table has, and its
objects exist. -/
def step (w : World) : Event → Outcome
  | .construct tid maxSize maxTimes kS kR lim xs =>
    match w.lims.get? lim, w.tabs.get? tid with
    | some l, none =>
      if xs.all fun x => (w.exts.get? x).isSome then construct w tid (Table.make maxSize maxTimes kS kR l.limiter) lim xs
      else .impossible
    | _, _ => .impossible
  | .destroy tid => destroy w tid
  | .enableWorker tid => enableWorker w tid
  | .addExtension tid x => addExtension w tid x
  | .op tid op => operate w tid op
  | .work tid => work w tid
  | .load tid tid' lim c chunks => load w tid tid' lim c chunks

/-- A sequence of events (table.cc:131-181, 419-447, 856-960, 1039-1100), all of them possible and without death. -/
def run : World → List Event → Option World
  | w, [] => some w
  | w, e :: es =>
    match step w e with
    | .next w => run w es
    | _ => none

/-- The objects before any table exists: new rate limiters (rate_limiter.cc:37-62) and extensions
(base.h:27-72) have `table_ == nullptr`. -/
def init (lims : AMap Nat Limiter) (exts : AMap Nat Bool) : World where
  lims := ⟨lims.entries.map fun e => (e.1, ⟨e.2, none⟩), by rw [List.map_map]; exact lims.nodup⟩
  exts := ⟨exts.entries.map fun e => (e.1, ⟨e.2, none, [], [], 0⟩), by rw [List.map_map]; exact exts.nodup⟩
  tabs := AMap.empty

end Wiring

/-- table.cc:514-541, the end of `InsertOrAssign` for a new key, if `sampler_` and `remover_` are the same
object (pybind.cc:537-538 takes any two selectors). Simplified: what follows if the second insertion into the selector
succeeds is left out (`died` stands for it); by `C118_one_selector_is_false` it never does. -/
def Table.insertNewShared (t : Table) (i : Item) (now : Int) : Table × Res Unit :=
  let i := { i with insertedAt := now }
  let r := t.sampler.apply (.insert i.key i.priority)
  let t1 := { t with
    data := t.data.insert i.key i
    sampler := r.1
    remover := r.1 }
  match r.2 with
  | .ok () =>
    let r := t1.remover.apply (.insert i.key i.priority)
    let t2 := { t1 with
      sampler := r.1
      remover := r.1 }
    match r.2 with
    | .ok () => (t2, .died)
    | e => (t2, e)
  | e => (t1, e)

end Verif
