import Verif.Model.ServerCkpt
import Verif.Model.PyWriter
/-
Tables, selectors, limiters and servers as objects of a Python program. In `Model/Table.lean` a table owns its selectors and its limiter. In the code
it has shared pointers to them (table.h:430-477, pybind.cc:500-565), so that a program can hand the same selector to several tables, or to one
table twice. Here a table refers to these objects; the functions of table.cc are written once more for that case. `Proofs/Objects.lean` shows that
they do the same as `Model/Table.lean` for a table that shares nothing.
-/
namespace Verif

/-- A selector: one that the program made, or one that `Load` made for the table `t` (tfrecord_checkpointer.cc:307-308). -/
inductive SelId where
  | py (n : Nat)
  | own (t : Nat) (remover : Bool)
  deriving DecidableEq, Repr

/-- A limiter: one that the program made, or one that `Load` made for the table `t` (tfrecord_checkpointer.cc:309-310). -/
inductive LimId where
  | py (n : Nat)
  | own (t : Nat)
  deriving DecidableEq, Repr

/-- Assignment at one place (model only: an assignment through one of the pointers of table.h:430-477). -/
def upd {α β : Type} [DecidableEq α] (f : α → β) (a : α) (b : β) : α → β := fun x => if x = a then b else f x

/-- The states of the selectors and limiters (what the pointers of table.h:430-477 refer to;
item_selector.h and rate_limiter.h:62-160). -/
structure Objects where
  sel : SelId → Sel
  lim : LimId → Limiter

/-- The members of a `Table` with the pointers `sampler_`, `remover_` and `rate_limiter_` (table.h:430-477). `held` says whether the program still refers
to the table. -/
structure TabObj where
  name : String
  maxSize : Nat
  maxTimesSampled : Int
  sampler : SelId
  remover : SelId
  limiter : LimId
  data : AMap Key Item
  episodeRefs : AMap Key Nat
  numDeletedEpisodes : Int
  numUniqueSamples : Int
  log : List ExtEvent
  held : Bool

/-- A table with the objects it may refer to (table.h:430-477). -/
structure View where
  objs : Objects
  t : TabObj

namespace View
open Table (Reply itemValid incRefs decRefs)
open Spec (Call)

/-- A call of a selector through a pointer (table.h:430-434: `sampler_->…` and `remover_->…`). -/
def call (v : View) (s : SelId) (c : Call) : View × Res Unit :=
  ({ v with objs := { v.objs with sel := upd v.objs.sel s ((v.objs.sel s).apply c).1 } }, ((v.objs.sel s).apply c).2)

/-- The limiter (table.h:430-477: `rate_limiter_`). -/
def limiter (v : View) : Limiter := v.objs.lim v.t.limiter

/-- A change of the limiter through the pointer (table.h:430-477: `rate_limiter_->…`). -/
def setLimiter (v : View) (l : Limiter) : View := { v with objs := { v.objs with lim := upd v.objs.lim v.t.limiter l } }

/-- table.cc:831-854 `DeleteItem`. -/
def deleteItem (v : View) (k : Key) : View × Res Unit :=
  match v.t.data.get? k with
  | none => (v, .ok ())
  | some it =>
    match decRefs v.t.episodeRefs v.t.numDeletedEpisodes it.chunks with
    | none => (v, .died)
    | some (refs, nd) =>
      let v1 := { v with t := { v.t with
        episodeRefs := refs
        numDeletedEpisodes := nd
        log := v.t.log ++ [ExtEvent.delete it]
        data := v.t.data.erase k } }
      let v2 := v1.setLimiter v1.limiter.delete
      let r := v2.call v2.t.sampler (.delete k)
      match r.2 with
      | .ok () => r.1.call r.1.t.remover (.delete k)
      | e => (r.1, e)

/-- table.cc:908-919 `UpdateItem`. -/
def updateItem (v : View) (k : Key) (p : Pri) : View × Res Unit :=
  match v.t.data.get? k with
  | none => (v, .ok ())
  | some it =>
    let it := { it with priority := p }
    let v1 := { v with t := { v.t with data := v.t.data.insert k it } }
    let r := v1.call v1.t.sampler (.update k p)
    match r.2 with
    | .ok () =>
      let q := r.1.call r.1.t.remover (.update k p)
      match q.2 with
      | .ok () => ({ q.1 with t := { q.1.t with log := q.1.t.log ++ [ExtEvent.update it] } }, .ok ())
      | e => (q.1, e)
    | e => (r.1, e)

/-- table.cc:522-536 and 600-608: the eviction that follows an insertion, and the count of the insertion. -/
def evict (v : View) (d : Draw) : View × Res Unit :=
  if v.t.maxSize < v.t.data.size then
    match (v.objs.sel v.t.remover).sample d with
    | .ok (victim, _) =>
      let r := v.deleteItem victim
      match r.2 with
      | .ok () => (r.1.setLimiter r.1.limiter.insert, .ok ())
      | e => (r.1, e)
    | .err c => (v, .err c)
    | .died => (v, .died)
  else (v.setLimiter v.limiter.insert, .ok ())

/-- table.cc:501-536 and 583-609: insertion of a key that is not in the table. -/
def insertNew (v : View) (i : Item) (now : Int) (d : Draw) : View × Res Unit :=
  let i := { i with insertedAt := now }
  let v1 := { v with t := { v.t with data := v.t.data.insert i.key i } }
  let r := v1.call v1.t.sampler (.insert i.key i.priority)
  match r.2 with
  | .ok () =>
    let q := r.1.call r.1.t.remover (.insert i.key i.priority)
    match q.2 with
    | .ok () =>
      let v4 := { q.1 with t := { q.1.t with
        log := q.1.t.log ++ [ExtEvent.insert i]
        episodeRefs := incRefs q.1.t.episodeRefs i.chunks } }
      v4.evict d
    | e => (q.1, e)
  | e => (r.1, e)

/-- As `Table.reply` (table.cc:460-542). -/
def reply (r : View × Res Unit) : View × Res Reply :=
  match r.2 with
  | .ok () => (r.1, .ok .done)
  | .err c => (r.1, .err c)
  | .died => (r.1, .died)

/-- table.cc:488-536: the part of `InsertOrAssign` from the wait on. -/
def insertResume (v : View) (i : Item) (now : Int) (d : Draw) : View × Res Reply :=
  match v.limiter.awaitInsert with
  | .cancelled => (v, .err .cancelled)
  | .wait => (v, .ok .blocked)
  | .proceed =>
    if v.t.data.contains i.key then reply (v.updateItem i.key i.priority)
    else reply (v.insertNew i now d)

/-- table.cc:460-542 `InsertOrAssign`, up to the first wait. -/
def insertOrAssign (v : View) (i : Item) (now : Int) (d : Draw) : View × Res Reply :=
  if !itemValid i then (v, .err .invalidArgument)
  else if v.t.data.contains i.key then reply (v.updateItem i.key i.priority)
  else v.insertResume i now d

/-- table.cc:574-610 `InsertOrAssignInternal`. -/
def insertInternal (v : View) (i : Item) (now : Int) (d : Draw) : View × Res Unit :=
  if v.t.data.contains i.key then v.updateItem i.key i.priority else v.insertNew i now d

/-- table.cc:240-246: the worker's attempt to process one insert. -/
def workerInsert (v : View) (i : Item) (now : Int) (d : Draw) : View × Res Reply :=
  if v.limiter.canInsert 1 then reply (v.insertInternal i now d) else (v, .ok .blocked)

/-- table.cc:620-622: the deletions of `MutateItems`. -/
def deleteAll (v : View) : List Key → View × Res Unit
  | [] => (v, .ok ())
  | k :: ks =>
    let r := v.deleteItem k
    match r.2 with
    | .ok () => r.1.deleteAll ks
    | e => (r.1, e)

/-- table.cc:623-625: the updates of `MutateItems`. -/
def updateAll (v : View) : List (Key × Pri) → View × Res Unit
  | [] => (v, .ok ())
  | u :: us =>
    let r := v.updateItem u.1 u.2
    match r.2 with
    | .ok () => r.1.updateAll us
    | e => (r.1, e)

/-- table.cc:612-633 `MutateItems`. -/
def mutateItems (v : View) (updates : List (Key × Pri)) (deletes : List Key) : View × Res Reply :=
  let r := v.deleteAll deletes
  match r.2 with
  | .ok () => reply (r.1.updateAll updates)
  | .err c => (r.1, .err c)
  | .died => (r.1, .died)

/-- table.cc:711-748 and 756-787 `SampleInternal`. A key of the sampler that is not in the table is a null dereference. -/
def sampleOne (v : View) (rateLimited : Bool) (d : Draw) : View × Res Sampled :=
  match (v.objs.sel v.t.sampler).sample d with
  | .err c => (v, .err c)
  | .died => (v, .died)
  | .ok (k, prob) =>
    match v.t.data.get? k with
    | none => (v, .died)
    | some it =>
      let it' := { it with timesSampled := it.timesSampled + 1 }
      let s : Sampled := ⟨it', prob, v.t.data.size, it'.priority, it'.timesSampled, rateLimited⟩
      let v1 := { v with t := { v.t with
        numUniqueSamples := if it.timesSampled = 0 then v.t.numUniqueSamples + 1 else v.t.numUniqueSamples
        data := v.t.data.insert k it'
        log := v.t.log ++ [ExtEvent.sample it'] } }
      if it'.timesSampled = v1.t.maxTimesSampled then
        let r := v1.deleteItem it'.key
        match r.2 with
        | .ok () => (r.1, .ok s)
        | .err c => (r.1, .err c)
        | .died => (r.1, .died)
      else (v1, .ok s)

/-- table.cc:749-750: the further iterations of the loop of `SampleFlexibleBatch`. -/
def sampleMore (v : View) (rateLimited : Bool) (acc : List Sampled) : Nat → (Nat → Draw) → View × Res (List Sampled)
  | 0, _ => (v, .ok acc)
  | more + 1, ds =>
    match v.limiter.maybeCommitSample with
    | none => (v, .ok acc)
    | some l =>
      let r := (v.setLimiter l).sampleOne rateLimited (ds 0)
      match r.2 with
      | .ok s => r.1.sampleMore rateLimited (acc ++ [s]) more (fun i => ds (i + 1))
      | .err c => (r.1, .err c)
      | .died => (r.1, .died)

/-- table.cc:711-751: the loop of `SampleFlexibleBatch`, the first sample being committed already. -/
def sampleLoop (v : View) (rateLimited : Bool) (batch : Nat) (ds : Nat → Draw) : View × Res Reply :=
  let r := v.sampleOne rateLimited (ds 0)
  match r.2 with
  | .ok s =>
    let r := r.1.sampleMore rateLimited [s] (batch - 1) (fun i => ds (i + 1))
    match r.2 with
    | .ok l => (r.1, .ok (.samples l))
    | .err c => (r.1, .err c)
    | .died => (r.1, .died)
  | .err c => (r.1, .err c)
  | .died => (r.1, .died)

/-- table.cc:705-751: a caller of `SampleFlexibleBatch` that had to wait and was woken. -/
def sampleResume (v : View) (batch : Nat) (ds : Nat → Draw) : View × Res Reply :=
  match v.limiter.awaitSample with
  | .cancelled => (v, .err .cancelled)
  | .wait => (v, .ok .blocked)
  | .proceed => (v.setLimiter { v.limiter with samples := v.limiter.samples + 1 }).sampleLoop true batch ds

/-- table.cc:671-754 `SampleFlexibleBatch`, up to the first wait. -/
def sampleBatch (v : View) (batch : Nat) (ds : Nat → Draw) : View × Res Reply :=
  match v.limiter.maybeCommitSample with
  | some l => (v.setLimiter l).sampleLoop false batch ds
  | none => v.sampleResume batch ds

/-- table.cc:254-258: the worker's attempt to take one sample. -/
def workerSample (v : View) (rateLimited : Bool) (d : Draw) : View × Res Reply :=
  match v.limiter.maybeCommitSample with
  | none => (v, .ok .blocked)
  | some l =>
    let r := (v.setLimiter l).sampleOne rateLimited d
    match r.2 with
    | .ok s => (r.1, .ok (.samples [s]))
    | .err c => (r.1, .err c)
    | .died => (r.1, .died)

/-- table.cc:921-960 `Reset`, the part under `mu_`. -/
def reset (v : View) : View :=
  let v1 := (v.call v.t.sampler .clear).1
  let v2 := (v1.call v1.t.remover .clear).1
  let v3 := { v2 with t := { v2.t with
    log := v2.t.log ++ [ExtEvent.reset]
    numDeletedEpisodes := 0
    numUniqueSamples := 0
    episodeRefs := AMap.empty
    data := AMap.empty } }
  v3.setLimiter v3.limiter.reset

/-- table.cc:819-829 `Close`, the part under `mu_`. -/
def close (v : View) : View := v.setLimiter v.limiter.cancel

/-- One critical section (model only: dispatches to the critical sections of table.cc:460-960). -/
def step (v : View) : Table.Op → View × Res Reply
  | .insert i now d => v.insertOrAssign i now d
  | .insertResume i now d => v.insertResume i now d
  | .workerInsert i now d => v.workerInsert i now d
  | .mutate us ds => v.mutateItems us ds
  | .sample n ds => v.sampleBatch n ds
  | .sampleResume n ds => v.sampleResume n ds
  | .workerSample rl d => v.workerSample rl d
  | .reset => (v.reset, .ok .done)
  | .close => (v.close, .ok .done)

/-- What is seen of the table through its pointers (model only, table.h:430-477). -/
def table (v : View) : Table :=
  ⟨v.t.maxSize, v.t.maxTimesSampled, v.objs.sel v.t.sampler, v.objs.sel v.t.remover, v.limiter, v.t.data, v.t.episodeRefs, v.t.numDeletedEpisodes,
   v.t.numUniqueSamples, v.t.log⟩

end View

/-- The arguments of `reverb.Table` (server.py:98-106). Extensions and the signature are left out. -/
structure TableArgs where
  name : String
  sampler : Nat
  remover : Nat
  maxSize : Int
  limiter : Nat
  maxTimesSampled : Int

/-- All objects of a program. `tab t` is `none` before the table `t` is made and after it is destroyed; `owner` is `RateLimiter::table_`
(rate_limiter.h:159); a server is the map `tables_` from names to tables (reverb_service_impl.h), `none` once it is deleted. -/
structure World where
  objs : Objects
  numSels : Nat
  numLims : Nat
  owner : LimId → Option Nat
  tab : Nat → Option TabObj
  numTabs : Nat
  servers : List (Option (List (String × Nat)))

namespace World
open Table (Reply)

/-- Before the first statement. The states of objects that do not exist yet do not matter (model only: a
program that has not used reverb yet, item_selectors.py:18-26 and server.py:98-160). -/
def init : World := ⟨⟨fun _ => SelKind.fifo.make, fun _ => ⟨1, 1, 0, 0, 0, 0, 0, false⟩⟩, 0, 0, fun _ => none, fun _ => none, 0, []⟩

/-- The table `t` with the objects it may refer to (model only, table.h:430-477). -/
def view (w : World) (t : Nat) : Option View := (w.tab t).map fun o => ⟨w.objs, o⟩

/-- What is seen of the table `t` (model only, table.h:430-477). -/
def table (w : World) (t : Nat) : Option Table := (w.view t).map View.table

/-- Puts the result of a call on the table `t` back (model only, table.h:430-477). -/
def put (w : World) (t : Nat) (v : View) : World := { w with
  objs := v.objs
  tab := upd w.tab t (some v.t) }

/-- Is the table in the map of a server? (reverb_service_impl.h:113 `tables_`). -/
def hosted (w : World) (t : Nat) : Bool := w.servers.any fun s => s.any fun l => l.any fun x => x.2 == t

/-- table.cc:158-181 `~Table`: `Close`, then `UnregisterTable` (rate_limiter.cc:87-94), which resets the counters. The selectors keep what they contain. -/
def destroy (w : World) (t : Nat) : World :=
  match w.view t with
  | none => w
  | some v =>
    let v := v.close
    let v := v.setLimiter v.limiter.reset
    { w with
      objs := v.objs
      owner := upd w.owner v.t.limiter none
      tab := upd w.tab t none }

/-- The destruction of those tables among the given that nothing refers to any more (the destructor of
the last `std::shared_ptr<Table>`, table.cc:158-181). -/
def collect (w : World) : List Nat → World
  | [] => w
  | t :: ts =>
    match w.tab t with
    | some o => if !o.held && !w.hosted t then (w.destroy t).collect ts else w.collect ts
    | none => w.collect ts

/-- `ReverbServiceImpl::Close` (reverb_service_impl.cc:394-398) for the tables of a server. -/
def closeAll (w : World) : List (String × Nat) → World
  | [] => w
  | (_, t) :: l =>
    match w.view t with
    | some v => (w.put t v.close).closeAll l
    | none => w.closeAll l

/-- tfrecord_checkpointer.cc:307-329 and 369: a table that `Load` has built, as a new object with its own selectors and its own limiter. -/
def adopt (w : World) (name : String) (b : Table) : World × Nat :=
  let t := w.numTabs
  ({ w with
      objs := ⟨upd (upd w.objs.sel (.own t false) b.sampler) (.own t true) b.remover, upd w.objs.lim (.own t) b.limiter⟩
      owner := upd w.owner (.own t) (some t)
      tab := upd w.tab t (some ⟨name, b.maxSize, b.maxTimesSampled, .own t false, .own t true, .own t, b.data, b.episodeRefs, b.numDeletedEpisodes,
        b.numUniqueSamples, b.log, false⟩)
      numTabs := t + 1 }, t)

/-- tfrecord_checkpointer.cc:284-370: the loop over the table records, for the vector `tables` of pairs of name and object. (The notifications of
extensions, which go over to the new tables, are left out.) -/
def load (chunks : List ChunkRef) : World → List (String × Nat) → List (String × Checkpoint) → Res (World × List (String × Nat))
  | w, tables, [] => .ok (w, tables)
  | w, tables, (name, c) :: records =>
    match tables.findIdx? fun x => x.1 = name with
    | none => .err .invalidArgument
    | some i =>
      match restore c chunks with
      | .ok b =>
        let a := w.adopt name b
        load chunks a.1 (tables.set i (name, a.2)) records
      | .err e => .err e
      | .died => .died

/-- The statements of a program (item_selectors.py:18-26, server.py:98-160, 253-300). -/
inductive Stmt where
  /-- item_selectors.py: a selector; its number is the number of selectors before -/
  | selector (k : SelKind)
  /-- `pybind.RateLimiter(…)` -/
  | limiter (spi : Rat) (minSize : Int) (minDiff maxDiff : Rat)
  /-- `reverb.Table(…)` -/
  | table (a : TableArgs)
  /-- the last reference of the program to a table goes -/
  | forget (t : Nat)
  /-- `reverb.Server(tables)`; `found` is the checkpoint that is found, if any -/
  | server (tables : List Nat) (found : Option ServerCkpt.Saved)
  /-- `Server.stop` -/
  | stop (s : Nat)
  /-- the last reference to a server goes: `Server.__del__` (server.py:283-289) and the destructor -/
  | delete (s : Nat)
  /-- a call reaches the table `t`, through a server or from the program -/
  | use (t : Nat) (op : Table.Op)

/-- What a statement gives (server.py:98-160, 253-300). -/
inductive Out where
  | done
  | answer (r : Res Reply)

/-- server.py:128-157 and table.cc:131-156: the checks of `reverb.Table`, then the construction. `none` if the selectors or the limiter do not exist. -/
def makeTable (w : World) (a : TableArgs) : Option (World × PyRes Out) :=
  if a.sampler < w.numSels ∧ a.remover < w.numSels ∧ a.limiter < w.numLims then
    if a.name = "" then some (w, .raised .valueError)
    else if a.maxSize ≤ 0 then some (w, .raised .valueError)
    else
      match w.owner (.py a.limiter) with
      | some _ => some (w, .died)
      | none =>
        some ({ w with
          owner := upd w.owner (.py a.limiter) (some w.numTabs)
          tab := upd w.tab w.numTabs (some ⟨a.name, a.maxSize.toNat, a.maxTimesSampled, .py a.sampler, .py a.remover, .py a.limiter, AMap.empty,
            AMap.empty, 0, 0, [], true⟩)
          numTabs := w.numTabs + 1 }, .ok .done)
  else none

/-- The names of tables; `none` if one of them is not there or the program does not refer to it any more
(server.py:253-281). -/
def names (w : World) : List Nat → Option (List (String × Nat))
  | [] => some []
  | t :: ts =>
    match w.tab t, w.names ts with
    | some o, some l => if o.held then some ((o.name, t) :: l) else none
    | _, _ => none

/-- server.py:253-281, then reverb_service_impl.cc:84-118 `Initialize`. If that fails, what `Load` made is gone again. -/
def makeServer (w : World) (tables : List Nat) (found : Option ServerCkpt.Saved) : Option (World × PyRes Out) :=
  match w.names tables with
  | none => none
  | some l =>
    if l = [] then some (w, .raised .valueError)
    else if ¬ (l.map Prod.fst).Nodup then some (w, .raised .valueError)
    else
      match found with
      | none => some ({ w with servers := w.servers ++ [some l] }, .ok .done)
      | some s =>
        match load s.chunks w l s.tables with
        | .ok (w', l') =>
          let w'' := { w' with servers := w'.servers ++ [some l'] }
          some (w''.collect (List.range w''.numTabs), .ok .done)
        | .err _ => some (w, .raised .valueError)
        | .died => some (w, .died)

/-- One statement; `none` if it refers to something that does not exist (any more)
(item_selectors.py:18-26, server.py:98-160, 253-300, pybind.cc:500-640). -/
def step (w : World) : Stmt → Option (World × PyRes Out)
  | .selector k => some ({ w with
      objs := { w.objs with sel := upd w.objs.sel (.py w.numSels) k.make }
      numSels := w.numSels + 1 }, .ok .done)
  | .limiter spi minSize minDiff maxDiff =>
    match Limiter.make spi minSize minDiff maxDiff with
    | .ok l => some ({ w with
        objs := { w.objs with lim := upd w.objs.lim (.py w.numLims) l }
        numLims := w.numLims + 1 }, .ok .done)
    | _ => some (w, .died)
  | .table a => w.makeTable a
  | .forget t =>
    match w.tab t with
    | none => none
    | some o =>
      if o.held then
        let w' := { w with tab := upd w.tab t (some { o with held := false }) }
        some (w'.collect (List.range w'.numTabs), .ok .done)
      else none
  | .server tables found => w.makeServer tables found
  | .stop s =>
    match w.servers[s]? with
    | some (some l) => some (w.closeAll l, .ok .done)
    | _ => none
  | .delete s =>
    match w.servers[s]? with
    | some (some l) =>
      let w' := w.closeAll l
      let w' := { w' with servers := w'.servers.set s none }
      some (w'.collect (List.range w'.numTabs), .ok .done)
    | _ => none
  | .use t op =>
    match w.view t with
    | none => none
    | some v =>
      match (v.step op).2 with
      | .died => some (w.put t (v.step op).1, .died)
      | r => some (w.put t (v.step op).1, .ok (.answer r))

/-- A program; `none` once the process has died, or if a statement is not possible (model only), server.py:98-300. -/
def run (w : World) : List Stmt → Option World
  | [] => some w
  | s :: ss =>
    match w.step s with
    | none => none
    | some (_, .died) => none
    | some (w', _) => w'.run ss

end World
end Verif
