import Verif.Model.Selector
import Verif.Model.Limiter
import Verif.Model.Trajectory
/-
Model of reverb/cc/table.cc: everything that happens while `mu_` is held. Each definition of an
operation is one critical section. The table worker with its queues is in `Model/Worker.lean`.
-/
namespace Verif

/-- `ChunkStore::Chunk` as far as the table looks at it: its key and episode (chunk_store.h:78-92). -/
structure ChunkRef where
  key : Key
  episode : Key
  deriving DecidableEq, Repr

/-- `TableItem`: the `PrioritizedItem` proto (schema.proto) and the chunks (table.h). `insertedAt` is the
timestamp in nanoseconds; seconds and nanos of the proto are one number. The contents of the chunks are
left out, since the table never looks at them (schema.proto:100-123, table.h:47-50). -/
structure Item where
  key : Key
  priority : Pri
  timesSampled : Int
  insertedAt : Int
  traj : FlatTraj
  chunks : List ChunkRef
  deriving DecidableEq, Repr

/-- The notifications an extension receives (table_extensions/interface.h:55-80). The item is the
snapshot taken by `ExtensionItem`. -/
inductive ExtEvent where
  | insert (i : Item)
  | sample (i : Item)
  | update (i : Item)
  | delete (i : Item)
  | reset
  deriving DecidableEq, Repr

/-- `SampledItem` (table.h:115-127). `item` is the stored item at the moment of sampling. -/
structure Sampled where
  item : Item
  probability : Rat
  tableSize : Int
  priority : Pri
  timesSampled : Int
  rateLimited : Bool
  deriving DecidableEq, Repr

/-- `Table` members guarded by `mu_` (table.h:430-457). `log` is the list of all notifications sent to
a synchronous extension, oldest first. -/
structure Table where
  maxSize : Nat
  maxTimesSampled : Int
  sampler : Sel
  remover : Sel
  limiter : Limiter
  data : AMap Key Item
  episodeRefs : AMap Key Nat
  numDeletedEpisodes : Int
  numUniqueSamples : Int
  log : List ExtEvent

namespace Table

/-- table.cc:131-156, the constructor, with a limiter as built. -/
def make (maxSize : Nat) (maxTimesSampled : Int) (sampler remover : SelKind) (l : Limiter) : Table :=
  ⟨maxSize, maxTimesSampled, sampler.make, remover.make, l, AMap.empty, AMap.empty, 0, 0, []⟩

/-- table.cc:68-91 `CheckItemValidity`. -/
def itemValid (i : Item) : Bool :=
  (match i.traj with
   | [] => false
   | c :: _ => !c.slices.isEmpty) &&
  (getChunkKeys i.traj == i.chunks.map ChunkRef.key)

/-- table.cc:516-518 and 595-597: `++episode_refs_[episode]` for every chunk. -/
def incRefs (refs : AMap Key Nat) : List ChunkRef → AMap Key Nat
  | [] => refs
  | c :: cs => incRefs (refs.insert c.episode ((refs.get? c.episode).getD 0 + 1)) cs

/-- table.cc:837-844: decrement for every chunk; `none` is the failed `REVERB_CHECK`. -/
def decRefs (refs : AMap Key Nat) (deleted : Int) : List ChunkRef → Option (AMap Key Nat × Int)
  | [] => some (refs, deleted)
  | c :: cs =>
    match refs.get? c.episode with
    | none => none
    | some n =>
      if n = 1 then decRefs (refs.erase c.episode) (deleted + 1) cs
      else decRefs (refs.insert c.episode (n - 1)) deleted cs

/-- table.cc:831-854 `DeleteItem`. -/
def deleteItem (t : Table) (k : Key) : Table × Res Unit :=
  match t.data.get? k with
  | none => (t, .ok ())
  | some it =>
    match decRefs t.episodeRefs t.numDeletedEpisodes it.chunks with
    | none => (t, .died)
    | some (refs, nd) =>
      let t1 := { t with
        episodeRefs := refs
        numDeletedEpisodes := nd
        log := t.log ++ [ExtEvent.delete it]
        data := t.data.erase k
        limiter := t.limiter.delete }
      let r := t1.sampler.apply (.delete k)
      let t2 := { t1 with sampler := r.1 }
      match r.2 with
      | .ok () =>
        let r := t2.remover.apply (.delete k)
        ({ t2 with remover := r.1 }, r.2)
      | e => (t2, e)

/-- table.cc:908-919 `UpdateItem`. -/
def updateItem (t : Table) (k : Key) (p : Pri) : Table × Res Unit :=
  match t.data.get? k with
  | none => (t, .ok ())
  | some it =>
    let it := { it with priority := p }
    let t1 := { t with data := t.data.insert k it }
    let r := t1.sampler.apply (.update k p)
    let t2 := { t1 with sampler := r.1 }
    match r.2 with
    | .ok () =>
      let r := t2.remover.apply (.update k p)
      let t3 := { t2 with remover := r.1 }
      match r.2 with
      | .ok () => ({ t3 with log := t3.log ++ [ExtEvent.update it] }, .ok ())
      | e => (t3, e)
    | e => (t2, e)

/-- table.cc:501-536 and 583-609: insertion of a key that is not in the table, at time `now`, with the
randomness `d` for a possible eviction. -/
def insertNew (t : Table) (i : Item) (now : Int) (d : Draw) : Table × Res Unit :=
  let i := { i with insertedAt := now }
  let t1 := { t with data := t.data.insert i.key i }
  let r := t1.sampler.apply (.insert i.key i.priority)
  let t2 := { t1 with sampler := r.1 }
  match r.2 with
  | .ok () =>
    let r := t2.remover.apply (.insert i.key i.priority)
    let t3 := { t2 with remover := r.1 }
    match r.2 with
    | .ok () =>
      let t4 := { t3 with
        log := t3.log ++ [ExtEvent.insert i]
        episodeRefs := incRefs t3.episodeRefs i.chunks }
      if t4.maxSize < t4.data.size then
        match t4.remover.sample d with
        | .ok (victim, _) =>
          let r := t4.deleteItem victim
          match r.2 with
          | .ok () => ({ r.1 with limiter := r.1.limiter.insert }, .ok ())
          | e => (r.1, e)
        | .err c => (t4, .err c)
        | .died => (t4, .died)
      else ({ t4 with limiter := t4.limiter.insert }, .ok ())
    | e => (t3, e)
  | e => (t2, e)

/-- Answer of an operation. `blocked` means that the call waits on the rate limiter (and returns a
timeout if it is never woken); the table is unchanged (model only: what a caller of `InsertOrAssign`,
`MutateItems` and `SampleFlexibleBatch` sees, table.cc:460-754). -/
inductive Reply where
  | done
  | blocked
  | samples (l : List Sampled)
  deriving DecidableEq, Repr

/-- Turns the status of an internal function into a reply (the `REVERB_RETURN_IF_ERROR`s of
table.cc:460-633). -/
def reply (r : Table × Res Unit) : Table × Res Reply :=
  match r.2 with
  | .ok () => (r.1, .ok .done)
  | .err c => (r.1, .err c)
  | .died => (r.1, .died)

/-- table.cc:488-536: the part of `InsertOrAssign` from the wait on; also what a woken caller does. -/
def insertResume (t : Table) (i : Item) (now : Int) (d : Draw) : Table × Res Reply :=
  match t.limiter.awaitInsert with
  | .cancelled => (t, .err .cancelled)
  | .wait => (t, .ok .blocked)
  | .proceed =>
    if t.data.contains i.key then reply (t.updateItem i.key i.priority)
    else reply (t.insertNew i now d)

/-- table.cc:460-542 `InsertOrAssign` without table worker, up to the first wait. -/
def insertOrAssign (t : Table) (i : Item) (now : Int) (d : Draw) : Table × Res Reply :=
  if !itemValid i then (t, .err .invalidArgument)
  else if t.data.contains i.key then reply (t.updateItem i.key i.priority)
  else t.insertResume i now d

/-- table.cc:574-610 `InsertOrAssignInternal`. -/
def insertInternal (t : Table) (i : Item) (now : Int) (d : Draw) : Table × Res Unit :=
  if t.data.contains i.key then t.updateItem i.key i.priority else t.insertNew i now d

/-- table.cc:240-246: the worker's attempt to process one insert. -/
def workerInsert (t : Table) (i : Item) (now : Int) (d : Draw) : Table × Res Reply :=
  if t.limiter.canInsert 1 then reply (t.insertInternal i now d) else (t, .ok .blocked)

/-- table.cc:620-622: the deletions of `MutateItems`. -/
def deleteAll (t : Table) : List Key → Table × Res Unit
  | [] => (t, .ok ())
  | k :: ks =>
    let r := t.deleteItem k
    match r.2 with
    | .ok () => r.1.deleteAll ks
    | e => (r.1, e)

/-- table.cc:623-625: the updates of `MutateItems`. -/
def updateAll (t : Table) : List (Key × Pri) → Table × Res Unit
  | [] => (t, .ok ())
  | u :: us =>
    let r := t.updateItem u.1 u.2
    match r.2 with
    | .ok () => r.1.updateAll us
    | e => (r.1, e)

/-- table.cc:612-633 `MutateItems`. -/
def mutateItems (t : Table) (updates : List (Key × Pri)) (deletes : List Key) : Table × Res Reply :=
  let r := t.deleteAll deletes
  match r.2 with
  | .ok () => reply (r.1.updateAll updates)
  | .err c => (r.1, .err c)
  | .died => (r.1, .died)

/-- table.cc:711-748 (the loop body of `SampleFlexibleBatch`) and 756-787 `SampleInternal`. The key
returned by the sampler is looked up with `operator[]`, so a missing key is a null dereference. -/
def sampleOne (t : Table) (rateLimited : Bool) (d : Draw) : Table × Res Sampled :=
  match t.sampler.sample d with
  | .err c => (t, .err c)
  | .died => (t, .died)
  | .ok (k, prob) =>
    match t.data.get? k with
    | none => (t, .died)
    | some it =>
      let it' := { it with timesSampled := it.timesSampled + 1 }
      let s : Sampled := ⟨it', prob, t.data.size, it'.priority, it'.timesSampled, rateLimited⟩
      let t1 := { t with
        numUniqueSamples := if it.timesSampled = 0 then t.numUniqueSamples + 1 else t.numUniqueSamples
        data := t.data.insert k it'
        log := t.log ++ [ExtEvent.sample it'] }
      if it'.timesSampled = t1.maxTimesSampled then
        let r := t1.deleteItem it'.key
        match r.2 with
        | .ok () => (r.1, .ok s)
        | .err c => (r.1, .err c)
        | .died => (r.1, .died)
      else (t1, .ok s)

/-- table.cc:749-750: the further iterations of the loop of `SampleFlexibleBatch`, at most `more` of
them; `ds i` is the randomness of the i-th of these. -/
def sampleMore (t : Table) (rateLimited : Bool) (acc : List Sampled) : Nat → (Nat → Draw) →
    Table × Res (List Sampled)
  | 0, _ => (t, .ok acc)
  | more + 1, ds =>
    match t.limiter.maybeCommitSample with
    | none => (t, .ok acc)
    | some l =>
      let r := { t with limiter := l }.sampleOne rateLimited (ds 0)
      match r.2 with
      | .ok s => r.1.sampleMore rateLimited (acc ++ [s]) more (fun i => ds (i + 1))
      | .err c => (r.1, .err c)
      | .died => (r.1, .died)

/-- table.cc:711-751: the loop of `SampleFlexibleBatch`, the first sample being committed already. -/
def sampleLoop (t : Table) (rateLimited : Bool) (batch : Nat) (ds : Nat → Draw) : Table × Res Reply :=
  let r := t.sampleOne rateLimited (ds 0)
  match r.2 with
  | .ok s =>
    let r := r.1.sampleMore rateLimited [s] (batch - 1) (fun i => ds (i + 1))
    match r.2 with
    | .ok l => (r.1, .ok (.samples l))
    | .err c => (r.1, .err c)
    | .died => (r.1, .died)
  | .err c => (r.1, .err c)
  | .died => (r.1, .died)

/-- table.cc:705-751: a caller of `SampleFlexibleBatch` that had to wait and was woken. -/
def sampleResume (t : Table) (batch : Nat) (ds : Nat → Draw) : Table × Res Reply :=
  match t.limiter.awaitSample with
  | .cancelled => (t, .err .cancelled)
  | .wait => (t, .ok .blocked)
  | .proceed =>
    { t with limiter := { t.limiter with samples := t.limiter.samples + 1 } }.sampleLoop true batch ds

/-- table.cc:671-754 `SampleFlexibleBatch` with an empty output vector and without table worker, up to
the first wait. -/
def sampleBatch (t : Table) (batch : Nat) (ds : Nat → Draw) : Table × Res Reply :=
  match t.limiter.maybeCommitSample with
  | some l => { t with limiter := l }.sampleLoop false batch ds
  | none => t.sampleResume batch ds

/-- table.cc:254-258: the worker's attempt to take one sample. -/
def workerSample (t : Table) (rateLimited : Bool) (d : Draw) : Table × Res Reply :=
  match t.limiter.maybeCommitSample with
  | none => (t, .ok .blocked)
  | some l =>
    let r := { t with limiter := l }.sampleOne rateLimited d
    match r.2 with
    | .ok s => (r.1, .ok (.samples [s]))
    | .err c => (r.1, .err c)
    | .died => (r.1, .died)

/-- table.cc:921-960 `Reset`, the part under `mu_`. -/
def reset (t : Table) : Table :=
  { t with
    log := t.log ++ [ExtEvent.reset]
    sampler := (t.sampler.apply .clear).1
    remover := (t.remover.apply .clear).1
    numDeletedEpisodes := 0
    numUniqueSamples := 0
    episodeRefs := AMap.empty
    data := AMap.empty
    limiter := t.limiter.reset }

/-- table.cc:819-829 `Close`, the part under `mu_`. -/
def close (t : Table) : Table := { t with limiter := t.limiter.cancel }

/-- table.cc:1023-1031 `Get`. -/
def get (t : Table) (k : Key) : Option Item := t.data.get? k

/-- table.cc:789-792 `size`. -/
def size (t : Table) : Nat := t.data.size

/-- table.cc:1072-1075 `num_episodes`. -/
def numEpisodes (t : Table) : Nat := t.episodeRefs.size

/-- The critical sections of the table. A concurrent execution of any number of callers is a list of
these (table.cc:230-266, 472-536, 616-626, 694-751, 819-960: the blocks that hold `mu_`). -/
inductive Op where
  | insert (i : Item) (now : Int) (d : Draw)
  | insertResume (i : Item) (now : Int) (d : Draw)
  | workerInsert (i : Item) (now : Int) (d : Draw)
  | mutate (updates : List (Key × Pri)) (deletes : List Key)
  | sample (batch : Nat) (ds : Nat → Draw)
  | sampleResume (batch : Nat) (ds : Nat → Draw)
  | workerSample (rateLimited : Bool) (d : Draw)
  | reset
  | close

/-- One critical section (model only: dispatches to the critical sections of table.cc:460-960 named in `Op`). -/
def step (t : Table) : Op → Table × Res Reply
  | .insert i now d => t.insertOrAssign i now d
  | .insertResume i now d => t.insertResume i now d
  | .workerInsert i now d => t.workerInsert i now d
  | .mutate us ds => t.mutateItems us ds
  | .sample n ds => t.sampleBatch n ds
  | .sampleResume n ds => t.sampleResume n ds
  | .workerSample rl d => t.workerSample rl d
  | .reset => (t.reset, .ok .done)
  | .close => (t.close, .ok .done)

/-- A sequence of critical sections; `none` once the process has died (model only: an execution of
critical sections of table.cc:230-960, in the order in which they get `mu_`). -/
def run (t : Table) : List Op → Option Table
  | [] => some t
  | op :: ops =>
    let r := t.step op
    match r.2 with
    | .died => none
    | _ => r.1.run ops

/-- The replies of a sequence of critical sections, up to and including a fatal one (model only: what the
callers of the critical sections of table.cc:230-960 see). -/
def replies (t : Table) : List Op → List (Res Reply)
  | [] => []
  | op :: ops =>
    let r := t.step op
    match r.2 with
    | .died => [.died]
    | x => x :: r.1.replies ops

end Table
end Verif
