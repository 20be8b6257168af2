import Verif.Model.InsertSync
import Verif.Model.InsertAsync
import Verif.Spec.Reach
/-
What is asked of requests of insert streams, from the point of view of clients.
-/
namespace Verif
open Table (Op)

/-- The item refers to the chunk. -/
def InsertItem.Needs (it : InsertItem) (k : Key) : Prop := ∃ c ∈ it.traj, ∃ s ∈ c.slices, s.chunk = k

/-- reverb_service.proto:97-101, 110-116: the chunks of a stream after a request: those before and the new ones, but after an item only
those that are to be kept. -/
def keptStep (before : List Key) (r : InsertReq) : List Key :=
  match r.item with
  | none => before ++ r.chunks.map ChunkData.key
  | some it => it.keep

/-- The chunks that the next request of a stream can use without sending them. -/
def kept (reqs : List InsertReq) : List Key := reqs.foldl keptStep []

/-- The event is an insertion of the item or an update of its priority. -/
def ExtEvent.writes (k : Key) : ExtEvent → Bool
  | .insert i => i.key = k
  | .update i => i.key = k
  | _ => false

/-- The notification says that an item was inserted or updated; how often that has happened. -/
def Table.writesOf (t : Table) (k : Key) : Nat := t.log.countP (ExtEvent.writes k)

/-- What a request asks to keep is known after the requests `before`. -/
def InsertReq.KeepsKnown (r : InsertReq) (before : List InsertReq) : Prop :=
  ∀ it, r.item = some it → ∀ k ∈ it.keep, k ∈ kept before ∨ k ∈ r.chunks.map ChunkData.key

/-- As `KeepsKnown`, and no key is repeated, and the request is not empty. -/
def InsertReq.Strict (r : InsertReq) (before : List InsertReq) : Prop :=
  r.KeepsKnown before ∧ (∀ it, r.item = some it → it.keep.Nodup) ∧ (r.chunks ≠ [] ∨ r.item ≠ none)

/-- The request has an item that refers to a chunk that is not on the stream. -/
def InsertReq.MissingChunk (r : InsertReq) (before : List InsertReq) : Prop :=
  ∃ it, r.item = some it ∧ ∃ k, it.Needs k ∧ k ∉ kept before ∧ k ∉ r.chunks.map ChunkData.key

/-- The request has an item for a table that is not one of these. -/
def InsertReq.UnknownTable (r : InsertReq) (names : List String) : Prop := ∃ it, r.item = some it ∧ it.table ∉ names

/-- The priority of the item is admitted by the table (see `Config.admits`). -/
def InsertReq.Admits (r : InsertReq) (cfgs : AMap String Config) : Prop :=
  ∀ it, r.item = some it → ∀ c, cfgs.get? it.table = some c → c.admits it.priority

/-- New tables. -/
def newTables (cfgs : AMap String Config) : AMap String Table :=
  ⟨cfgs.entries.map fun e => (e.1, e.2.init), by simpa [Function.comp_def] using cfgs.nodup⟩

namespace SyncServer

/-- The requests that the server has got from a stream. -/
def requests (s : Nat) (evs : List Event) : List InsertReq :=
  evs.filterMap fun e => match e with
    | .request s' r => if s' = s then some r else none
    | _ => none

/-- What is asked of an event after other ones: keep lists name chunks of the stream, and priorities are admitted by the tables. -/
def EventOk (cfgs : AMap String Config) (pre : List Event) : Event → Prop
  | .request s r => r.KeepsKnown (requests s pre) ∧ r.Admits cfgs
  | .table name op => ∀ c, cfgs.get? name = some c → c.Admissible op
  | _ => True

/-- All events are so. -/
def Proper (cfgs : AMap String Config) (evs : List Event) : Prop := ∀ pre e post, evs = pre ++ e :: post → EventOk cfgs pre e

/-- The status that a stream has ended with. -/
def endedWith (v : SyncServer) (s : Nat) : Option (Option Code) :=
  match v.streams.get? s with
  | some ⟨_, .ended st⟩ => some st
  | _ => none

/-- The server waits for a request of the stream. -/
def Reads (v : SyncServer) (s : Nat) : Prop := ∃ cache, v.streams.get? s = some ⟨cache, .reading⟩

/-- The items of requests for which a confirmation is asked. -/
def wanted (reqs : List InsertReq) : List (String × Key) :=
  reqs.filterMap fun r => r.item.bind fun it => if it.confirm then some (it.table, it.key) else none

/-- The confirmations that a stream has got. -/
def confirmedOf (v : SyncServer) (s : Nat) : List (String × Key) := (v.confirmed.filter fun x => x.1 = s).map Prod.snd

/-- How often the key has been confirmed for the table. -/
def confirmations (v : SyncServer) (name : String) (k : Key) : Nat := v.confirmed.countP fun x => x.2 = (name, k)

end SyncServer

namespace AsyncServer

/-- The requests that the server has got from a stream. -/
def requests (s : Nat) (evs : List Event) : List InsertReq :=
  evs.filterMap fun e => match e with
    | .read s' (some r) => if s' = s then some r else none
    | _ => none

/-- The client has cancelled the stream, or a response could not be sent to it. -/
def disturbs (s : Nat) : Event → Bool
  | .cancel s' => s' = s
  | .write s' ok => s' = s ∧ ok = false
  | _ => false

/-- What is asked of an event after other ones: requests are as the server expects them, and priorities are admitted by the tables. -/
def EventOk (cfgs : AMap String Config) (pre : List Event) : Event → Prop
  | .read s (some r) => r.Strict (requests s pre) ∧ r.Admits cfgs
  | .table name (.mutate us _) => ∀ c, cfgs.get? name = some c → ∀ u ∈ us, c.admits u.2
  | .table _ (.insert _ _) => False
  | _ => True

/-- All events are so. -/
def Proper (cfgs : AMap String Config) (evs : List Event) : Prop := ∀ pre e post, evs = pre ++ e :: post → EventOk cfgs pre e

/-- If the event is a call of a stream by a table, then the stream has not been deleted. -/
def NoRace (v : AsyncServer) (e : Event) : Prop :=
  ∀ name i, e = .call name i → ∀ t, v.tables.get? name = some t → ∀ s st, t.calling[i]? = some (s, st) →
    ∀ r, v.streams.get? s = some r → r.gone = false

/-- The status that a stream has ended with. -/
def endedWith (v : AsyncServer) (s : Nat) : Option (Option Code) := (v.streams.get? s).bind InsReactor.finished

/-- The server waits for a request of the stream. -/
def Reads (v : AsyncServer) (s : Nat) : Prop := ∃ r, v.streams.get? s = some r ∧ r.reading = true ∧ r.finished = none

/-- Some operation of the stream is under way whose end will be reported to it: a read, a write, or the callback of a table. -/
def Outstanding (v : AsyncServer) (s : Nat) : Prop :=
  (∃ r, v.streams.get? s = some r ∧ (r.reading = true ∨ r.writing = true)) ∨
  ∃ name t, v.tables.get? name = some t ∧
    ((∃ st, Worker.Out.notify s st ∈ t.todo) ∨ (∃ st, (s, st) ∈ t.calling) ∨ s ∈ t.w.notify ∨ s ∈ t.w.notifyList)

/-- The keys that a client can have seen confirmed, with their tables. -/
def sent (v : AsyncServer) (s : Nat) : List (String × Key) :=
  match v.streams.get? s with
  | some r => r.sent
  | none => []

end AsyncServer
end Verif
