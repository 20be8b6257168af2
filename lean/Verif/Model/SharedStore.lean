import Verif.Model.ChunkStore
import Verif.Model.ChunkData
/-
The insert streams of the synchronous server (reverb_service_impl.cc:150-240) on top of the chunk store that they share. Chunks are shared
pointers, held by the streams and by the items in the tables.
-/
namespace Verif.SharedStore

/-- All insert streams of a server with its chunk store (reverb_service_impl.cc:150-240). -/
structure W where
  /-- `chunk_store_`; the data of a chunk is the place of its proto in `sent` -/
  store : ChunkStore.S
  /-- history: the chunks received, with the stream (170) -/
  sent : List (Nat × ChunkData)
  /-- the maps `chunks` (165-166) of all streams: stream, key, pointer -/
  cache : List (Nat × Key × Nat)
  /-- the pointers `item.chunks` (190) of the items in the tables -/
  items : List (List Nat)
  /-- history: the items that were given to tables: stream, chunk keys, pointers -/
  log : List (Nat × List Key × List Nat)
  /-- history: the streams that were ended because a chunk was missing (186-188) -/
  errors : List Nat
  /-- the check of line 234 has failed -/
  dead : Bool

/-- A server without streams and items (reverb_service_impl.cc:82-110 without a checkpoint). -/
def init : W := ⟨ChunkStore.init, [], [], [], [], [], false⟩

/-- reverb_service_impl.cc:184-186: the pointer that stream `s` has for a key. -/
def W.lookup (w : W) (s : Nat) (k : Key) : Option Nat := (w.cache.find? fun e => e.1 == s && e.2.1 == k).map (·.2.2)

/-- The pointers of those entries of the maps that go away (reverb_service_impl.cc:178, 227-229 and the end of the stream). -/
def gone (p : Nat × Key × Nat → Bool) (cache : List (Nat × Key × Nat)) : List Nat := (cache.filter p).map (·.2.2)

/-- What can happen (reverb_service_impl.cc:150-240). -/
inductive Act where
  /-- 170-179: the next chunk of a request of stream `s` -/
  | chunk (s : Nat) (c : ChunkData)
  /-- 181-235: the item of a request; `keys` are the results of `GetChunkKeys`. Simplified: the insert into the table succeeds, and nothing
  happens between it and the release of chunks (223-235). -/
  | item (s : Nat) (keys keep : List Key)
  /-- the stream ends for another reason, and `chunks` is destroyed -/
  | end_ (s : Nat)
  /-- a table gives up an item (table.cc, when the item is removed and no sample of it is under way, or at once if the table only updates an item with
  the same key) -/
  | drop (j : Nat)
  /-- the deleter and the cleaner of the chunk store (chunk_store.cc:88-91, 118-130) -/
  | pushKey (i : Nat)
  | cleanPop (n : Nat)
  | cleanErase

/-- Entry of stream `s` (model only: selects the map `chunks` of one stream, reverb_service_impl.cc:165-166). -/
def ofStream (s : Nat) (e : Nat × Key × Nat) : Bool := e.1 == s

/-- Entry of stream `s` for key `k` (reverb_service_impl.cc:178). -/
def ofKey (s : Nat) (k : Key) (e : Nat × Key × Nat) : Bool := e.1 == s && e.2.1 == k

/-- Entry of stream `s` that is not kept (reverb_service_impl.cc:227-229). -/
def notKept (s : Nat) (keep : List Key) (e : Nat × Key × Nat) : Bool := e.1 == s && !keep.contains e.2.1

/-- The entries of the maps for which `p` holds are erased (reverb_service_impl.cc:227-229, and the destructor of `chunks`). -/
def W.erase (w : W) (p : Nat × Key × Nat → Bool) : Option W :=
  (ChunkStore.run w.store ((gone p w.cache).map .release)).map fun st => { w with
    store := st
    cache := w.cache.filter fun e => !p e }

/-- One step; `none` if it is not possible, or if a pointer were used that nobody holds (reverb_service_impl.cc:150-240). The check of line 234
compares numbers; since only entries with kept keys are left, it fails if a key to keep is not in the map. -/
def step (w : W) (a : Act) : Option W :=
  if w.dead then none
  else
    match a with
    | .chunk s c =>
      let r := ChunkStore.insert w.store c.key w.sent.length
      (W.erase { w with
        store := r.1
        sent := w.sent ++ [(s, c)] } (ofKey s c.key)).map fun w => { w with cache := w.cache ++ [(s, c.key, r.2)] }
    | .item s keys keep =>
      match keys.mapM (w.lookup s) with
      | none => (w.erase (ofStream s)).map fun w => { w with errors := w.errors ++ [s] }
      | some ids =>
        match ChunkStore.run w.store (ids.map .copy) with
        | none => none
        | some st =>
          (W.erase { w with
            store := st
            items := w.items ++ [ids]
            log := w.log ++ [(s, keys, ids)] } (notKept s keep)).map fun w => { w with dead := !keep.all fun k => (w.lookup s k).isSome }
    | .end_ s => w.erase (ofStream s)
    | .drop j =>
      match w.items[j]? with
      | none => none
      | some ids => (ChunkStore.run w.store (ids.map .release)).map fun st => { w with
          store := st
          items := w.items.eraseIdx j }
    | .pushKey i => (ChunkStore.run w.store [.pushKey i]).map fun st => { w with store := st }
    | .cleanPop n => (ChunkStore.run w.store [.cleanPop n]).map fun st => { w with store := st }
    | .cleanErase => (ChunkStore.run w.store [.cleanErase]).map fun st => { w with store := st }

/-- Any interleaving of the streams, the tables and the threads of the chunk store (model only: the steps of reverb_service_impl.cc:150-240 and chunk_store.cc:82-130 in any order). -/
def run (w : W) : List Act → Option W
  | [] => some w
  | a :: as =>
    match step w a with
    | none => none
    | some w' => run w' as

end Verif.SharedStore
