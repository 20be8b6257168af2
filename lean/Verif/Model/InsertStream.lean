import Verif.Model.TrajWriter
/-
The chunks that the two servers keep for an insert stream: reverb_service_impl.cc:150-240 and reverb_service_async_impl.cc:166-308.
-/
namespace Verif

/-- The two implementations of the service (reverb_service_impl.h:35-125,
reverb_service_async_impl.h:40-160). -/
inductive Server where
  | sync
  | async
  deriving DecidableEq, Repr

/-- The chunks kept for a stream (reverb_service_impl.cc:152, reverb_service_async_impl.cc:283-304). -/
abbrev Cache := AMap Key ChunkData

/-- reverb_service_impl.cc:170-179 and reverb_service_async_impl.cc:242-251 `SaveChunks`. The chunk store of the synchronous server
(which gives back a stored chunk of the same key) is not modelled here; C121 shows that it makes no difference if keys do not collide. -/
def saveChunks (srv : Server) (cache : Cache) (chunks : List ChunkData) : Cache :=
  match srv with
  | .sync => chunks.foldl (fun m c => m.insert c.key c) cache
  | .async => chunks.foldl (fun m c => if m.contains c.key then m else m.insert c.key c) cache

/-- reverb_service_impl.cc:184-198 and reverb_service_async_impl.cc:253-268 `GetItemWithChunks`; `none` is the error. -/
def findChunks (cache : Cache) (keys : List Key) : Option (List ChunkData) := keys.mapM cache.get?

/-- Only the entries with keys in `keep` (reverb_service_impl.cc:223-232,
reverb_service_async_impl.cc:270-278). -/
def AMap.keep {α : Type} (m : AMap Key α) (keep : List Key) : AMap Key α :=
  ⟨m.entries.filter fun e => keep.contains e.1, (List.Sublist.map Prod.fst List.filter_sublist).nodup m.nodup⟩

/-- reverb_service_impl.cc:224-234 and reverb_service_async_impl.cc:271-280: what the number of kept chunks is compared with. The
synchronous server makes a set of the keys, the other one takes the length of the list. -/
def Server.expected : Server → List Key → Nat
  | .sync, keep => keep.eraseDups.length
  | .async, keep => keep.length

/-- reverb_service_impl.cc:223-235 and reverb_service_async_impl.cc:270-281 `ReleaseOutOfRangeChunks`; `none` is the failed check. -/
def releaseChunks (srv : Server) (cache : Cache) (keep : List Key) : Option Cache :=
  if (cache.keep keep).size = srv.expected keep then some (cache.keep keep)
  else none

/-- One request, while all inserts into tables succeed: the kept chunks and the item with its chunks that is given to the table. The
asynchronous server dies of a request with neither chunks nor an item (reverb_service_async_impl.cc:195). -/
def serve (srv : Server) (cache : Cache) (m : Msg) : Res (Cache × Option (WItem × List ChunkData)) :=
  if srv = .async ∧ m.chunks = [] ∧ m.item = none then .died
  else
    match m.item with
    | none => .ok (saveChunks srv cache m.chunks, none)
    | some (it, keep) =>
      match findChunks (saveChunks srv cache m.chunks) (getChunkKeys it.traj) with
      | none => .err .internal
      | some chunks =>
        match releaseChunks srv (saveChunks srv cache m.chunks) keep with
        | none => .died
        | some cache' => .ok (cache', some (it, chunks))

/-- All requests of a stream, with the items that are given to tables (reverb_service_impl.cc:150-240,
reverb_service_async_impl.cc:166-308). -/
def serveAll (srv : Server) (cache : Cache) : List Msg → Res (Cache × List (WItem × List ChunkData))
  | [] => .ok (cache, [])
  | m :: ms =>
    match serve srv cache m with
    | .err e => .err e
    | .died => .died
    | .ok (cache', ins) =>
      match serveAll srv cache' ms with
      | .err e => .err e
      | .died => .died
      | .ok (cache'', rest) => .ok (cache'', ins.toList ++ rest)

end Verif
