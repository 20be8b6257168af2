import Verif.Proofs.InsertAsync
import Verif.Proofs.InsertSyncAll
import Verif.Props.C25_C29_Worker
/-
C56, C57, C64, C65: the insert streams of both servers, with any number of streams and tables, any schedule of their steps and of the
other users of the tables, and any requests. The words of the statements are in `Spec/InsertService.lean`.
-/
namespace Verif

/-! ### Cases -/

namespace InsertDemo

/-- One table, which lets in one item more than have been sampled. -/
def cfgs : AMap String Config := ⟨[("t", workerCfg)], by decide⟩

/-- A chunk. -/
def chunk (k : Key) : ChunkData := ⟨k, none, [], false⟩

/-- An item over one chunk. -/
def item (k chunk : Key) (table : String) (keep : List Key) (confirm : Bool) : InsertItem :=
  ⟨k, table, .val 1, 0, [⟨[⟨chunk, 0, 1, 0⟩], false⟩], keep, confirm⟩

/-- A request with a chunk and an item. -/
def req (k chunk : Key) (table : String) (keep : List Key) (confirm : Bool) : InsertReq :=
  ⟨[InsertDemo.chunk chunk], some (item k chunk table keep confirm)⟩

/-- A check on the state after a schedule. -/
def syncAfter (evs : List SyncServer.Event) (P : SyncServer → Bool) : Bool := ((SyncServer.init (newTables cfgs)).run evs).any P

theorem syncAfter_run {evs : List SyncServer.Event} {P : SyncServer → Bool} (h : syncAfter evs P = true) :
    ∃ v, (SyncServer.init (newTables cfgs)).run evs = some v ∧ P v = true := by
  unfold syncAfter at h
  cases hr : (SyncServer.init (newTables cfgs)).run evs with
  | none => simp [hr] at h
  | some v => exact ⟨v, rfl, by simpa [hr] using h⟩

/-- A check on the state after a schedule. -/
def asyncAfter (evs : List AsyncServer.Event) (P : AsyncServer → Bool) : Bool := ((AsyncServer.init (newTables cfgs)).run evs).any P

theorem asyncAfter_run {evs : List AsyncServer.Event} {P : AsyncServer → Bool} (h : asyncAfter evs P = true) :
    ∃ v, (AsyncServer.init (newTables cfgs)).run evs = some v ∧ P v = true := by
  unfold asyncAfter at h
  cases hr : (AsyncServer.init (newTables cfgs)).run evs with
  | none => simp [hr] at h
  | some v => exact ⟨v, rfl, by simpa [hr] using h⟩

/-- A worker step of the table. -/
def work (n : Nat) : List AsyncServer.Event := List.replicate n (.table "t" (wk 5))

end InsertDemo

open InsertDemo (cfgs req)

namespace SyncServer

/-! ### C56, synchronous server -/

theorem cached_run {tables : AMap String Table} {evs : List Event} {v : SyncServer} (h : (init tables).run evs = some v) : Cached evs v := by
  have := run_ind (P := Cached) (fun pre v e v' hp hs => hp.step hs) evs [] _ v (Cached.init tables) h
  simpa using this

/-- C56, synchronous server: a request with an item that refers to a chunk that is neither in the request nor kept from before, or that
names an unknown table, ends its stream with an error. Tables, other streams and confirmations are unchanged and the process goes on. -/
theorem C56_sync_rejects_partial {tables : AMap String Table} {evs : List Event} {v : SyncServer} {s : Nat} {r : InsertReq}
    (h : (init tables).run evs = some v) (hd : v.dead = false) (hr : v.Reads s)
    (hb : r.MissingChunk (requests s evs) ∨ r.UnknownTable v.tables.keys) :
    ∃ v', v.step (.request s r) = some v' ∧ v'.dead = false ∧
      (v'.endedWith s = some (some .internal) ∨ v'.endedWith s = some (some .notFound)) ∧
      v'.tables = v.tables ∧ v'.confirmed = v.confirmed ∧ ∀ s', s' ≠ s → v'.streams.get? s' = v.streams.get? s' := by
  obtain ⟨cache, hc⟩ := hr
  have hk : ∀ k, k ∈ cache.keys ↔ k ∈ kept (requests s evs) := (cached_run h).ok s _ hc
  refine ⟨v.setStream s (v.take ⟨cache, .reading⟩ r), ?_, hd, ?_, rfl, rfl, fun s' hne => ?_⟩
  · unfold step
    rw [if_neg (by simp [hd])]
    simp only [hc]
  · have hit : ∃ it, r.item = some it ∧ ((∃ k, it.Needs k ∧ k ∉ (saveChunks .sync cache r.chunks).keys) ∨ it.table ∉ v.tables.keys) := by
      rcases hb with ⟨it, hi, k, h1, h2, h3⟩ | ⟨it, hi, h1⟩
      · refine ⟨it, hi, Or.inl ⟨k, h1, ?_⟩⟩
        rw [saveChunks_keys, hk]
        rintro (g | g)
        · exact h2 g
        · exact h3 g
      · exact ⟨it, hi, Or.inr h1⟩
    obtain ⟨it, hi, hb⟩ := hit
    simp only [endedWith, setStream_get, if_true]
    unfold take
    simp only [hi]
    cases hf : findChunks (saveChunks .sync cache r.chunks) (getChunkKeys it.traj) with
    | none => exact Or.inl rfl
    | some chs =>
      rcases hb with ⟨k, h1, h2⟩ | h1
      · refine absurd (findChunks_some hf k ?_) h2
        rw [(C30_chunk_keys it.traj).2.1 k]
        exact h1
      · have : v.tables.contains it.table = false := by
          cases hx : v.tables.contains it.table with
          | false => rfl
          | true => exact absurd ((AMap.mem_keys_iff _ _).mpr hx) h1
        simp [this]
  · rw [setStream_get, if_neg hne]

/-- C56, synchronous server: what a stream has ended with does not change any more. -/
theorem C56_sync_ended {v v' : SyncServer} {e : Event} {s : Nat} {st : Option Code} (h : v.step e = some v') (he : v.endedWith s = some st) :
    v'.endedWith s = some st := by
  have key : ∀ s' x, v.streams.get? s' = some x → (∀ st, x.phase ≠ .ended st) → s' ≠ s := by
    rintro s' x h1 h2 rfl
    unfold endedWith at he
    rw [h1] at he
    obtain ⟨c, ph⟩ := x
    cases ph <;> simp at he
    exact h2 _ rfl
  have set : ∀ (v1 : SyncServer) s' x, v1.streams = v.streams → s' ≠ s → (v1.setStream s' x).endedWith s = some st := by
    intro v1 s' x hv hne
    unfold endedWith
    rw [setStream_get, if_neg (Ne.symm hne), hv]
    exact he
  have rel : ∀ (v1 : SyncServer) s' x it, v1.streams = v.streams → s' ≠ s → (v1.release s' x it).endedWith s = some st := by
    intro v1 s' x it hv hne
    unfold release
    split
    · unfold endedWith; simp only [hv]; exact he
    · exact set v1 _ _ hv hne
  unfold step at h
  split at h
  · cases h
  · cases e with
    | start s' =>
      simp only at h
      split at h
      · cases h
      · rename_i hc
        cases h
        refine set v _ _ rfl ?_
        rintro rfl
        unfold endedWith at he
        cases hg : v.streams.get? s' with
        | none => rw [hg] at he; cases he
        | some x => exact hc (by simp [AMap.contains, hg])
    | request s' r =>
      simp only at h
      split at h
      · rename_i hx
        cases h
        exact set v _ _ rfl (key _ _ hx (by simp))
      · cases h
    | eof s' =>
      simp only at h
      split at h
      · rename_i hx
        cases h
        exact set v _ _ rfl (key _ _ hx (by simp))
      · cases h
    | insert s' now d =>
      simp only at h
      split at h
      · rename_i cache it item w hx
        have hne := key _ _ hx (by simp)
        split at h
        · cases h
        · rename_i t ht
          simp only [Option.some.injEq] at h
          subst h
          unfold inserted
          split
          · split
            · exact set _ _ _ rfl hne
            · exact rel _ _ _ _ rfl hne
          · exact set _ _ _ rfl hne
          · exact he
          · exact set _ _ _ rfl hne
          · exact he
      · cases h
    | confirm s' ok =>
      simp only at h
      split at h
      · rename_i cache it hx
        have hne := key _ _ hx (by simp)
        split at h
        · cases h; exact rel _ _ _ _ rfl hne
        · cases h; exact set _ _ _ rfl hne
      · cases h
    | table name op =>
      simp only at h
      split at h
      · cases h
      · cases h; exact he

/-- C56, synchronous server: if clients ask to keep only chunks that they have sent and have not let go (and priorities are admitted by
the tables), nothing that they do kills the process. Without the first condition: `C56_sync_keep_false`. -/
theorem C56_sync_alive_partial {cfgs : AMap String Config} {evs : List Event} {v : SyncServer} (h : (init (newTables cfgs)).run evs = some v)
    (hp : Proper cfgs evs) : v.dead = false := by
  have := run_ind (P := fun pre v => (∀ a e b, pre = a ++ e :: b → EventOk cfgs a e) → Cached pre v ∧ Lives cfgs v)
    (fun pre v e v' hp hs he => by
      obtain ⟨h1, h2⟩ := hp fun a x b hx => he a x (b ++ [e]) (by simp [hx])
      exact ⟨h1.step hs, h2.step h1 (he pre e [] rfl) hs⟩)
    evs [] _ v (fun _ => ⟨Cached.init _, Lives.init cfgs⟩) h hp
  exact this.2.alive

/-! ### C57, synchronous server -/

theorem Conf.init (cfgs : AMap String Config) : Conf (init (newTables cfgs)) := by
  refine Conf.mk (fun name t ht => ?_) (fun s cache it item w hs => by cases hs) (fun _ name k => ?_) (fun name k => ?_)
  · have ht : (newTables cfgs).get? name = some t := ht
    rw [newTables_get] at ht
    obtain ⟨c, _, rfl⟩ := Option.map_eq_some_iff.mp ht
    intro k it hk
    cases hk
  · simp [confirmations, SyncServer.init, AMap.empty]
  · simp [confirmations, SyncServer.init]

/-- C57, synchronous server: at every moment the number of confirmations of a key for a table is at most the number of insertions of the
item into the table and of updates of it. -/
theorem C57_sync {cfgs : AMap String Config} {evs : List Event} {v : SyncServer} (h : (init (newTables cfgs)).run evs = some v)
    (name : String) (k : Key) (hk : 0 < v.confirmations name k) :
    ∃ t, v.tables.get? name = some t ∧ v.confirmations name k ≤ t.writesOf k := by
  have := run_ind (P := fun _ => Conf) (fun pre v e v' hp hs => hp.step hs) evs [] _ v (Conf.init cfgs) h
  have hl := this.le name k
  unfold writes at hl
  split at hl
  · rename_i t ht; exact ⟨t, ht, hl⟩
  · omega

/-- C57, synchronous server, the other direction: the confirmations of a stream come in the order of the requests, one for each item that
asks for it; and all of them have come when the stream ends with OK. -/
theorem C57_sync_all {tables : AMap String Table} {evs : List Event} {v : SyncServer} (h : (init tables).run evs = some v) (hd : v.dead = false)
    (s : Nat) :
    v.confirmedOf s <+: wanted (requests s evs) ∧ (v.endedWith s = some none → v.confirmedOf s = wanted (requests s evs)) := by
  have ha := Answered.run h hd
  cases hx : v.streams.get? s with
  | none =>
    obtain ⟨h1, h2⟩ := ha.fresh s hx
    rw [h1, h2]
    exact ⟨List.prefix_rfl, fun _ => rfl⟩
  | some x =>
    have := ha.ok s x hx
    obtain ⟨c, p⟩ := x
    unfold endedWith
    rw [hx]
    have open_ : (v.confirmedOf s ++ due p = wanted (requests s evs)) → v.confirmedOf s <+: wanted (requests s evs) :=
      fun g => by rw [← g]; exact List.prefix_append _ _
    cases p with
    | ended st =>
      cases st with
      | none =>
        have g : v.confirmedOf s ++ [] = wanted (requests s evs) := this
        exact ⟨open_ g, fun _ => by simpa using g⟩
      | some c => exact ⟨this, fun g => by simp at g⟩
    | reading => exact ⟨open_ this, fun g => by simp at g⟩
    | inserting it item w => exact ⟨open_ this, fun g => by simp at g⟩
    | confirming it => exact ⟨open_ this, fun g => by simp at g⟩

/-- Meets the hypotheses of `C57_sync_all` for a stream that has ended with OK. -/
example : ∃ v, (init (newTables cfgs)).run [.start 0, .request 0 (req 1 100 "t" [100] true), .insert 0 5 (draw 0), .confirm 0 true, .eof 0] = some v ∧
    v.dead = false ∧ v.endedWith 0 = some none ∧ v.confirmedOf 0 = [("t", 1)] := by
  obtain ⟨v, h1, h2⟩ := InsertDemo.syncAfter_run
    (evs := [.start 0, .request 0 (req 1 100 "t" [100] true), .insert 0 5 (draw 0), .confirm 0 true, .eof 0])
    (P := fun v => !v.dead && decide (v.endedWith 0 = some none) && decide (v.confirmedOf 0 = [("t", 1)])) (by decide +kernel)
  simp only [Bool.and_eq_true, decide_eq_true_eq, Bool.not_eq_true'] at h2
  obtain ⟨⟨a, b⟩, c⟩ := h2
  exact ⟨v, h1, a, b, c⟩

/-- Meets the hypotheses: an item is inserted and confirmed, a second one waits for the rate limiter and is not confirmed; other streams
are ended for a missing chunk and for an unknown table. -/
def demo : List Event :=
  [.start 0, .start 1, .start 2, .request 0 (req 1 100 "t" [100] true), .request 1 (req 2 101 "t" [] true), .insert 0 5 (draw 0), .insert 1 6 (draw 0),
   .request 2 ⟨[InsertDemo.chunk 200], some (InsertDemo.item 3 201 "t" [] true)⟩, .confirm 0 true, .request 0 (req 4 102 "u" [] true)]

example : ∃ v, (init (newTables cfgs)).run demo = some v ∧ v.dead = false ∧ v.confirmed = [(0, "t", 1)] ∧ v.endedWith 2 = some (some .internal) ∧
    v.endedWith 0 = some (some .notFound) ∧ v.endedWith 1 = none := by
  obtain ⟨v, h1, h2⟩ := InsertDemo.syncAfter_run (evs := demo) (P := fun v => !v.dead && decide (v.confirmed = [(0, "t", 1)]) &&
    decide (v.endedWith 2 = some (some .internal)) && decide (v.endedWith 0 = some (some .notFound)) && decide (v.endedWith 1 = none)) (by decide +kernel)
  simp only [Bool.and_eq_true, decide_eq_true_eq, Bool.not_eq_true'] at h2
  obtain ⟨⟨⟨⟨a, b⟩, c⟩, d⟩, e⟩ := h2
  exact ⟨v, h1, a, b, c, d, e⟩

/-- C56 does not hold on the synchronous server for keep lists with unknown keys: such a request has its item inserted and confirmed,
and then kills the process, and with it the other streams. -/
theorem C56_sync_keep_false : ∃ evs v, (init (newTables cfgs)).run evs = some v ∧ v.dead = true ∧ v.confirmed = [(0, "t", 1)] := by
  obtain ⟨v, h1, h2⟩ := InsertDemo.syncAfter_run
    (evs := [.start 0, .start 1, .request 0 (req 1 100 "t" [100, 7] true), .insert 0 5 (draw 0), .confirm 0 true])
    (P := fun v => v.dead && decide (v.confirmed = [(0, "t", 1)])) (by decide +kernel)
  simp only [Bool.and_eq_true, decide_eq_true_eq] at h2
  exact ⟨_, v, h1, h2⟩

/-- C56 does not hold on the synchronous server for empty requests and for keep lists with repeated keys: the stream goes on. -/
theorem C56_sync_accepts_false : ∃ evs v, (init (newTables cfgs)).run evs = some v ∧ v.dead = false ∧ v.Reads 0 ∧
    requests 0 evs = [⟨[], none⟩, req 1 100 "t" [100, 100] false] := by
  obtain ⟨v, h1, h2⟩ := InsertDemo.syncAfter_run
    (evs := [.start 0, .request 0 ⟨[], none⟩, .request 0 (req 1 100 "t" [100, 100] false), .insert 0 5 (draw 0)])
    (P := fun v => !v.dead && (match v.streams.get? 0 with | some ⟨_, .reading⟩ => true | _ => false)) (by decide +kernel)
  simp only [Bool.and_eq_true, Bool.not_eq_true'] at h2
  refine ⟨_, v, h1, h2.1, ?_, by decide +kernel⟩
  obtain ⟨_, h2⟩ := h2
  split at h2
  · rename_i c hc; exact ⟨c, hc⟩
  · cases h2

end SyncServer

namespace AsyncServer

/-! ### C56, asynchronous server -/

theorem run_snoc : ∀ {pre : List Event} {v0 v v' : AsyncServer} {e : Event}, v0.run pre = some v → v.step e = some v' → v0.run (pre ++ [e]) = some v'
  | [], v0, v, v', e, h, hs => by
    simp only [run, Option.some.injEq] at h
    subst h
    simp [run, hs]
  | x :: pre, v0, v, v', e, h, hs => by
    simp only [run, List.cons_append] at h ⊢
    split at h
    · cases h
    · exact run_snoc h hs

/-- What happens when the read of a stream that is not finished is done. -/
theorem step_read {v : AsyncServer} (hd : v.dead = false) {s : Nat} {r : InsReactor} (hs : v.streams.get? s = some r) (hr : r.reading = true)
    (hf : r.finished = none) (q : InsertReq) : v.step (.read s (some q)) = some (v.process s { r with reading := false } q) := by
  unfold step
  rw [if_neg (by simp [hd])]
  simp only [hs, hr, if_true, onRead, hf, Option.isSome_none, Bool.false_eq_true, if_false]

/-- How a stream is ended. -/
theorem put_finish {v : AsyncServer} {s : Nat} {r : InsReactor} (hf : r.finished = none) (c : Code) :
    (v.put s (r.setFinished (some c))) = { v with streams := v.streams.insert s { r with
      responses := []
      finished := some (some c) } } := by
  unfold InsReactor.setFinished
  rw [if_neg (by simp [hf])]
  rfl

/-- C56, asynchronous server: a request with an item that refers to a chunk that is neither in the request nor kept from before ends its
stream with an error. Tables and other streams are unchanged and the process goes on. -/
theorem C56_async_rejects_chunk {tables : AMap String Table} {evs : List Event} {v : AsyncServer} {s : Nat} {r : InsertReq}
    (h : (init tables).run evs = some v) (hd : v.dead = false) (hr : v.Reads s) (hb : r.MissingChunk (requests s evs)) :
    ∃ v', v.step (.read s (some r)) = some v' ∧ v'.dead = false ∧ v'.endedWith s = some (some .internal) ∧
      v'.tables = v.tables ∧ ∀ s', s' ≠ s → v'.streams.get? s' = v.streams.get? s' := by
  obtain ⟨x, hx, h1, h2⟩ := hr
  have hk := ((AInv.run h hd).streams s x hx).cache h2
  obtain ⟨it, hi, k, h3, h4, h5⟩ := hb
  refine ⟨_, step_read hd hx h1 h2 r, ?_⟩
  unfold process
  rw [if_neg (by simp [hi])]
  simp only [hi]
  have hf : findChunks (saveChunks .async x.cache r.chunks) (getChunkKeys it.traj) = none := by
    cases hf : findChunks (saveChunks .async x.cache r.chunks) (getChunkKeys it.traj) with
    | none => rfl
    | some chs =>
      have := findChunks_some hf k (by rw [(C30_chunk_keys it.traj).2.1 k]; exact h3)
      rw [saveChunks_keys, hk] at this
      rcases this with g | g
      · exact absurd g h4
      · exact absurd g h5
  simp only [hf]
  rw [put_finish (by exact h2)]
  exact ⟨hd, by simp [endedWith], rfl, fun s' hne => by simp [AMap.get?_insert, hne]⟩

/-- C56, asynchronous server: a request for an unknown table ends its stream with an error, if its keep list is as the server expects it.
Tables and other streams are unchanged and the process goes on. Without the condition on the keep list: `C56_async_keep_false`. -/
theorem C56_async_rejects_table_partial {tables : AMap String Table} {evs : List Event} {v : AsyncServer} {s : Nat} {r : InsertReq}
    (h : (init tables).run evs = some v) (hd : v.dead = false) (hr : v.Reads s) (hq : r.Strict (requests s evs)) (hb : r.UnknownTable v.tables.keys) :
    ∃ v', v.step (.read s (some r)) = some v' ∧ v'.dead = false ∧
      (v'.endedWith s = some (some .internal) ∨ v'.endedWith s = some (some .notFound)) ∧
      v'.tables = v.tables ∧ ∀ s', s' ≠ s → v'.streams.get? s' = v.streams.get? s' := by
  obtain ⟨x, hx, h1, h2⟩ := hr
  have hk := ((AInv.run h hd).streams s x hx).cache h2
  obtain ⟨it, hi, h3⟩ := hb
  refine ⟨_, step_read hd hx h1 h2 r, ?_⟩
  unfold process
  rw [if_neg (by simp [hi])]
  simp only [hi]
  cases hf : findChunks (saveChunks .async x.cache r.chunks) (getChunkKeys it.traj) with
  | none =>
    simp only
    rw [put_finish (by exact h2)]
    exact ⟨hd, Or.inl (by simp [endedWith]), rfl, fun s' hne => by simp [AMap.get?_insert, hne]⟩
  | some chs =>
    simp only
    rw [releaseChunks_async (fun k hkk => by rw [saveChunks_keys, hk]; exact hq.1 it hi k hkk) (hq.2.1 it hi)]
    have ht : v.tables.get? it.table = none := by
      cases ht : v.tables.get? it.table with
      | none => rfl
      | some t => exact absurd ((AMap.mem_keys_iff _ _).mpr (by simp [ht])) h3
    simp only [giveItem, ht]
    rw [put_finish (by exact h2)]
    exact ⟨hd, Or.inr (by simp [endedWith]), rfl, fun s' hne => by simp [AMap.get?_insert, hne]⟩

/-- C56, asynchronous server: if requests are as the server expects them (not empty, keep lists without repetitions and with known keys;
and priorities are admitted by the tables), and no stream is deleted between the moment at which a thread of the executor has locked its
callback and the call (see `C65_false`), nothing that clients do kills the process; in particular gRPC is never asked for a second read,
write or end of a stream. -/
theorem C56_async_alive_partial {cfgs : AMap String Config} {evs : List Event} {v : AsyncServer}
    (h : (init (newTables cfgs)).run evs = some v) (hp : Proper cfgs evs)
    (hr : ∀ pre e post v', evs = pre ++ e :: post → (init (newTables cfgs)).run pre = some v' → NoRace v' e) : v.dead = false := by
  have := run_ind (P := fun pre v => (init (newTables cfgs)).run pre = some v ∧
      ((∀ a e b, pre = a ++ e :: b → EventOk cfgs a e ∧ ∀ v', (init (newTables cfgs)).run a = some v' → NoRace v' e) →
      AInv pre v ∧ Tabs (WSound cfgs) v.tables))
    (fun pre v e v' hp hs => by
      refine ⟨run_snoc hp.1 hs, fun he => ?_⟩
      obtain ⟨h1, h2⟩ := hp.2 fun a x b hx => he a x (b ++ [e]) (by simp [hx])
      exact alive_step h1 h2 (he pre e [] rfl).1 ((he pre e [] rfl).2 v hp.1) hs)
    evs [] _ v ⟨rfl, fun _ => ⟨AInv.init _, Tabs.init fun name t ht => WSound.init name t ht⟩⟩ h
  exact (this.2 fun a e b hx => ⟨hp a e b hx, fun v' hv => hr a e b v' hx hv⟩).1.alive

/-- C56, asynchronous server: what a stream has ended with does not change any more. -/
theorem C56_async_ended {tables : AMap String Table} {evs : List Event} {v v' : AsyncServer} {e : Event} {s : Nat} {st : Option Code}
    (hr : (init tables).run evs = some v) (h : v.step e = some v') (hd' : v'.dead = false) (he : v.endedWith s = some st) : v'.endedWith s = some st := by
  have hd := step_alive h
  have hv := AInv.run hr hd
  obtain ⟨x, hx, hf⟩ : ∃ x, v.streams.get? s = some x ∧ x.finished = some st := by
    unfold endedWith at he
    cases hg : v.streams.get? s with
    | none => simp [hg] at he
    | some x => exact ⟨x, rfl, by simpa [hg] using he⟩
  have fin : ∀ (y : InsReactor) c r', y.finished ≠ none → y.setFinished c ≠ .ok r' := by
    intro y c r' h1 h2
    unfold InsReactor.setFinished at h2
    rw [if_pos (Or.inl (by cases hy : y.finished; exact absurd hy h1; rfl))] at h2
    cases h2
  have out : ∀ (v1 : AsyncServer) s' (y : Res InsReactor), v1.streams = v.streams → (v1.put s' y).dead = false →
      (s' = s → ∀ r', y = .ok r' → r'.finished = some st) → (v1.put s' y).endedWith s = some st := by
    intro v1 s' y hv1 hdd hy
    cases y with
    | ok r' =>
      simp only [put, endedWith, AMap.get?_insert]
      by_cases hs : s = s'
      · rw [if_pos hs]; exact hy hs.symm r' rfl
      · rw [if_neg hs, hv1, hx]; exact hf
    | err c => simp [put] at hdd
    | died => simp [put] at hdd
  have same : ∀ v1 : AsyncServer, v1.streams = v.streams → v1.endedWith s = some st := by
    intro v1 hv1; unfold endedWith; rw [hv1]; exact he
  have send : ∀ y r' : InsReactor, y.finished = some st → y.maybeSend = .ok r' → r'.finished = some st := by
    intro y r' h1 h2
    unfold InsReactor.maybeSend at h2
    split at h2
    · cases h2; exact h1
    · rw [if_pos (by simp [h1])] at h2; cases h2; exact h1
  unfold step at h
  rw [if_neg (by simp [hd])] at h
  cases e with
  | start s' =>
    simp only at h
    split at h
    · cases h
    · rename_i hc
      cases h
      have hne : s ≠ s' := by
        rintro rfl
        exact hc (by simp [AMap.contains, hx])
      simp only [endedWith, AMap.get?_insert, if_neg hne, hx]
      exact hf
  | read s' q =>
    simp only at h
    split at h
    · cases h
    · rename_i r hs'
      split at h
      · rename_i hrd
        cases h
        by_cases hs : s' = s
        · subst hs
          have : r = x := by simpa [hs'] using hx
          subst this
          have hre : ∀ r', ({ r with reading := false } : InsReactor).readEnd = .ok r' → r'.finished = some st := by
            intro r' hr'
            unfold InsReactor.readEnd at hr'
            simp only [hf] at hr'
            simp at hr'
            subst hr'
            rfl
          unfold onRead at hd' ⊢
          cases q with
          | none => exact out v s' _ rfl hd' fun _ => hre
          | some q =>
            simp only at hd' ⊢
            rw [if_pos (by simp [hf])] at hd' ⊢
            exact out v s' _ rfl hd' fun _ => hre
        · have hne := hs
          unfold onRead at hd' ⊢
          cases q with
          | none => exact out v s' _ rfl hd' fun e => absurd e hne
          | some q =>
            simp only at hd' ⊢
            split
            · rename_i hc; rw [if_pos hc] at hd'; exact out v s' _ rfl hd' fun e => absurd e hne
            · rename_i hc
              rw [if_neg hc] at hd'
              unfold process at hd' ⊢
              split
              · exact same _ rfl
              · rename_i hc2
                rw [if_neg hc2] at hd'
                simp only at hd' ⊢
                split at hd'
                · exact out v s' _ rfl hd' fun e => absurd e hne
                · split at hd'
                  · exact out v s' _ rfl hd' fun e => absurd e hne
                  · split at hd'
                    · exact same _ rfl
                    · unfold giveItem at hd' ⊢
                      split at hd'
                      · exact out v s' _ rfl hd' fun e => absurd e hne
                      · split
                        · rename_i hv; rw [if_pos hv] at hd'; exact out _ s' _ rfl hd' fun e => absurd e hne
                        · rename_i hv; rw [if_neg hv] at hd'; exact out v s' _ rfl hd' fun e => absurd e hne
      · cases h
  | write s' ok =>
    simp only at h
    split at h
    · cases h
    · rename_i r hs'
      split at h
      · cases h
        refine out v s' _ rfl hd' fun hs r' hr' => ?_
        subst hs
        have : r = x := by simpa [hs'] using hx
        subst this
        unfold InsReactor.onWrite at hr'
        simp only [hf, Option.isSome_some, if_true] at hr'
        cases hr'
        rfl
      · cases h
  | cancel s' =>
    simp only at h
    split at h
    · cases h
    · rename_i r hs'
      split at h
      · cases h
      · cases h
        refine out v s' _ rfl hd' fun hs r' hr' => ?_
        subst hs
        have : r = x := by simpa [hs'] using hx
        subst this
        cases hr'
        exact hf
  | done s' =>
    simp only at h
    split at h
    · cases h
    · rename_i r hs'
      split at h
      · cases h
        refine out v s' _ rfl hd' fun hs r' hr' => ?_
        subst hs
        have : r = x := by simpa [hs'] using hx
        subst this
        cases hr'
        exact hf
      · cases h
  | table name a =>
    simp only at h
    split at h
    · cases h
    · split at h
      · cases h
      · split at h
        · cases h
        · cases h; exact same _ rfl
  | deliver name i =>
    simp only at h
    split at h
    · cases h
    · split at h
      · cases h
      · rename_i o _
        cases h
        cases o <;> exact same _ rfl
  | call name i =>
    simp only at h
    split at h
    · cases h
    · split at h
      · cases h
      · rename_i s' stt _
        cases h
        unfold callBack at hd' ⊢
        simp only at hd' ⊢
        split at hd'
        · cases hd'
        · rename_i r hs'
          split at hd'
          · cases hd'
          · rename_i hg
            simp only [if_neg hg]
            refine out _ s' _ rfl hd' fun hs r' hr' => ?_
            subst hs
            have : r = x := by simpa [hs'] using hx
            subst this
            cases stt with
            | none =>
              simp only [InsReactor.onContinue, InsReactor.maybeStartRead, hf] at hr'
              simp at hr'
              subst hr'
              exact hf
            | some c =>
              simp only [InsReactor.onContinue, hf, Option.isSome_some, if_true] at hr'
              cases hr'
              exact hf

/-! ### C57, asynchronous server -/

/-- C57, asynchronous server: a confirmed item has been taken by its table; it has been inserted or updated by the worker of the table, or
is still in its queue, or the table has been closed. Missing: that it has been inserted, see `C57_async_false`. -/
theorem C57_async_partial {cfgs : AMap String Config} {evs : List Event} {v : AsyncServer} (h : (init (newTables cfgs)).run evs = some v)
    (hd : v.dead = false) {s : Nat} {name : String} {k : Key} (hk : (name, k) ∈ v.sent s) :
    ∃ t, v.tables.get? name = some t ∧ ∃ i ∈ t.w.accepted, i.key = k ∧
      (i ∈ Worker.applied t.w.trace ∨ i ∈ t.w.inserts ∨ i ∈ t.w.pendingInserts ∨ Table.Op.close ∈ t.w.trace) := by
  have hv := AInv.run h hd
  unfold sent at hk
  split at hk
  · rename_i r hr
    obtain ⟨t, ht, i, hi, he⟩ := (hv.streams s r hr).conf (name, k) (Or.inl hk)
    refine ⟨t, ht, i, hi, he, ?_⟩
    obtain ⟨c, _, ho, hq⟩ := WOrd.run h _ _ ht
    cases hc : t.w.cancelSeen with
    | true => exact Or.inr (Or.inr (Or.inr (hq.seen hc)))
    | false =>
      have := ho.all hc
      rw [← this] at hi
      simp only [List.mem_append] at hi
      rcases hi with (hi | hi) | hi
      · exact Or.inl hi
      · exact Or.inr (Or.inl hi)
      · exact Or.inr (Or.inr (Or.inl hi))
  · cases hk

open InsertDemo (work asyncAfter_run)

/-- C57 does not hold on the asynchronous server: two items have been confirmed; the second was in the queue of the table when this was
closed, and has never been and will never be inserted. -/
theorem C57_async_false : ∃ evs v t, (init (newTables cfgs)).run evs = some v ∧ v.dead = false ∧ ("t", 2) ∈ v.sent 1 ∧
    v.tables.get? "t" = some t ∧ t.w.table.writesOf 1 = 1 ∧ t.w.table.writesOf 2 = 0 ∧ t.w.inserts = [] ∧ t.w.pendingInserts = [] := by
  obtain ⟨v, h1, h2⟩ := asyncAfter_run
    (evs := [.start 0, .start 1, .read 0 (some (req 1 100 "t" [] true)), .read 1 (some (req 2 101 "t" [] true))] ++ work 14 ++
      [.table "t" .close] ++ [.table "t" .wake] ++ work 5)
    (P := fun v => !v.dead && decide (("t", 2) ∈ v.sent 1) && (match v.tables.get? "t" with
      | some t => decide (t.w.table.writesOf 1 = 1) && decide (t.w.table.writesOf 2 = 0) && decide (t.w.inserts = []) && decide (t.w.pendingInserts = [])
      | none => false)) (by decide +kernel)
  simp only [Bool.and_eq_true, decide_eq_true_eq, Bool.not_eq_true'] at h2
  obtain ⟨⟨a, b⟩, c⟩ := h2
  cases ht : v.tables.get? "t" with
  | none => simp [ht] at c
  | some t =>
    simp only [ht, Bool.and_eq_true, decide_eq_true_eq] at c
    exact ⟨_, v, t, h1, a, b, ht, c.1.1.1, c.1.1.2, c.1.2, c.2⟩

/-! ### C64, C65 -/

/-- C64: a stream that has neither finished nor been cancelled is never forgotten: a read or a write is under way or a table is going to
call it back. For cancelled streams see `C64_false`. -/
theorem C64_outstanding_partial {tables : AMap String Table} {evs : List Event} {v : AsyncServer} (h : (init tables).run evs = some v)
    (hd : v.dead = false) {s : Nat} {r : InsReactor} (hs : v.streams.get? s = some r) (hf : r.finished = none) (hc : r.cancelled = false) :
    v.Outstanding s := by
  have hi := (AInv.run h hd).streams s r hs
  cases hst : r.stillReading with
  | false => exact Or.inl ⟨r, hs, Or.inr ((hi.wr hf).mpr (hi.half hf hst hc))⟩
  | true =>
    rcases hi.act hf hst with g | ⟨name, g⟩
    · exact Or.inl ⟨r, hs, Or.inl g⟩
    · refine Or.inr ?_
      unfold waits at g
      split at g
      · rename_i t ht
        refine ⟨name, t, ht, ?_⟩
        unfold AsyncTable.pend at g
        have pos : ∀ l : List Nat, 0 < l.count s → s ∈ l := fun l hl => List.count_pos_iff.mp hl
        have : 0 < ((Worker.callbacks t.todo).map Prod.fst).count s ∨ 0 < (t.calling.map Prod.fst).count s ∨ 0 < t.w.notify.count s ∨
            0 < t.w.notifyList.count s := by omega
        rcases this with e | e | e | e
        · refine Or.inl ?_
          obtain ⟨⟨a, st⟩, h1, h2⟩ := List.mem_map.mp (pos _ e)
          simp only at h2
          subst h2
          unfold Worker.callbacks at h1
          obtain ⟨o, h3, h4⟩ := List.mem_filterMap.mp h1
          cases o with
          | answer _ _ => cases h4
          | notify cb st' =>
            simp only [Option.some.injEq, Prod.mk.injEq] at h4
            obtain ⟨rfl, rfl⟩ := h4
            exact ⟨_, h3⟩
        · refine Or.inr (Or.inl ?_)
          obtain ⟨⟨a, st⟩, h1, h2⟩ := List.mem_map.mp (pos _ e)
          simp only at h2
          subst h2
          exact ⟨st, h1⟩
        · exact Or.inr (Or.inr (Or.inl (pos _ e)))
        · exact Or.inr (Or.inr (Or.inr (pos _ e)))
      · omega

/-- C65: a stream to which all responses could be sent and that has not been cancelled is not deleted while a thread is about to call it. -/
theorem C65_calls_partial {tables : AMap String Table} {evs : List Event} {v : AsyncServer} (h : (init tables).run evs = some v)
    (hd : v.dead = false) {name : String} {t : AsyncTable} (ht : v.tables.get? name = some t) {s : Nat} {st : Worker.Status}
    (hc : (s, st) ∈ t.calling) (hq : ∀ e ∈ evs, disturbs s e = false) : ∃ r, v.streams.get? s = some r ∧ r.gone = false ∧ r.finished = none := by
  have hv := AInv.run h hd
  have hp : 0 < waits v.tables s name := by
    rw [waits_some ht]
    have : 0 < (t.calling.map Prod.fst).count s := List.count_pos_iff.mpr (List.mem_map_of_mem (f := Prod.fst) hc)
    unfold AsyncTable.pend
    omega
  cases hs : v.streams.get? s with
  | none => have := (hv.fresh s hs).2 name; omega
  | some r =>
    have hi := hv.streams s r hs
    have hcalm := hi.calm (by simpa [hist] using hq)
    have hfin : r.finished = none := by
      cases hf : r.finished with
      | none => rfl
      | some c => have := hcalm.2.2 (Or.inl (by simp [hf])) name; omega
    refine ⟨r, rfl, ?_, hfin⟩
    cases hg : r.gone with
    | false => rfl
    | true => exact absurd hfin (hi.gone hg).1

theorem run_mid : ∀ {pre post : List Event} {v0 v v' : AsyncServer} {e : Event}, v0.run (pre ++ e :: post) = some v → v0.run pre = some v' →
    v'.dead = false
  | [], post, v0, v, v', e, h, h' => by
    simp only [run, Option.some.injEq] at h'
    subst h'
    simp only [List.nil_append, run] at h
    split at h
    · cases h
    · rename_i hs; exact step_alive hs
  | x :: pre, post, v0, v, v', e, h, h' => by
    simp only [run, List.cons_append] at h h'
    split at h'
    · cases h'
    · rename_i v1 hs
      rw [hs] at h
      exact run_mid h h'

/-- C56, asynchronous server: as `C56_async_alive_partial`, if clients do not go away before their streams have ended. -/
theorem C56_async_calm_partial {cfgs : AMap String Config} {evs : List Event} {v : AsyncServer} (h : (init (newTables cfgs)).run evs = some v)
    (hp : Proper cfgs evs) (hq : ∀ e ∈ evs, ∀ s, disturbs s e = false) : v.dead = false := by
  refine C56_async_alive_partial h hp fun pre e post v' hx hv name i he t ht s st hst r hr => ?_
  subst hx
  obtain ⟨r', h1, h2, _⟩ := C65_calls_partial hv (run_mid h hv) ht (List.mem_of_getElem? hst) fun e he => hq e (List.mem_append_left _ he) s
  rw [hr] at h1
  cases h1
  exact h2

/-- C64 does not hold for streams that are cancelled while a table has them waiting: when the table calls back, nothing is done; the
stream is not finished, and nothing is under way that could finish it. -/
theorem C64_false : ∃ evs v r, (init (newTables cfgs)).run evs = some v ∧ v.dead = false ∧ v.streams.get? 0 = some r ∧ r.finished = none ∧
    r.reading = false ∧ r.writing = false ∧ v.tables.keys = ["t"] ∧
    ∃ t, v.tables.get? "t" = some t ∧ t.todo = [] ∧ t.calling = [] ∧ t.w.notify = [] ∧ t.w.notifyList = [] := by
  obtain ⟨v, h1, h2⟩ := asyncAfter_run
    (evs := [.start 0, .read 0 (some (req 1 100 "t" [] false)), .cancel 0] ++ work 5 ++ [.deliver "t" 0, .call "t" 0])
    (P := fun v => !v.dead && decide (v.tables.keys = ["t"]) && (match v.tables.get? "t", v.streams.get? 0 with
      | some t, some r => decide (r.finished = none) && !r.reading && !r.writing && decide (t.todo = []) && decide (t.calling = []) &&
          decide (t.w.notify = []) && decide (t.w.notifyList = [])
      | _, _ => false)) (by decide +kernel)
  simp only [Bool.and_eq_true, decide_eq_true_eq, Bool.not_eq_true'] at h2
  obtain ⟨⟨a, b⟩, c⟩ := h2
  cases ht : v.tables.get? "t" with
  | none => simp [ht] at c
  | some t =>
    cases hr : v.streams.get? 0 with
    | none => simp [ht, hr] at c
    | some r =>
      simp only [ht, hr, Bool.and_eq_true, decide_eq_true_eq, Bool.not_eq_true'] at c
      obtain ⟨⟨⟨⟨⟨⟨c1, c2⟩, c3⟩, c4⟩, c5⟩, c6⟩, c7⟩ := c
      exact ⟨_, v, r, h1, a, hr, c1, c2, c3, b, t, ht, c4, c5, c6, c7⟩

/-- C65 does not hold when a client goes away: a thread has locked the callback of a stream; sending a confirmation to the stream fails,
which finishes and deletes it; then the thread makes the call. All requests were as the server expects them. -/
theorem C65_false : ∃ evs v v', (init (newTables cfgs)).run evs = some v ∧ v.dead = false ∧ v.step (.call "t" 0) = some v' ∧ v'.dead = true ∧
    requests 0 evs = [req 1 100 "t" [] true] ∧ (req 1 100 "t" [] true).Strict [] := by
  obtain ⟨v, h1, h2⟩ := asyncAfter_run
    (evs := [.start 0, .read 0 (some (req 1 100 "t" [] true))] ++ work 5 ++ [.deliver "t" 0, .write 0 false, .done 0])
    (P := fun v => !v.dead && (match v.step (.call "t" 0) with | some v' => v'.dead | none => false)) (by decide +kernel)
  simp only [Bool.and_eq_true, Bool.not_eq_true'] at h2
  obtain ⟨a, b⟩ := h2
  cases hv : v.step (.call "t" 0) with
  | none => simp [hv] at b
  | some v' =>
    simp only [hv] at b
    refine ⟨_, v, v', h1, a, hv, b, by decide +kernel, ?_⟩
    refine ⟨fun it hi k hk => ?_, fun it hi => ?_, Or.inl (by simp [req])⟩
    · simp only [req, Option.some.injEq] at hi
      subst hi
      cases hk
    · simp only [req, Option.some.injEq] at hi
      subst hi
      exact List.nodup_nil

/-! ### Cases -/

/-- Meets the hypotheses of the theorems about this server: an item is inserted and confirmed and the table has called back; a second
stream waits for the table; streams are ended for a missing chunk and for an unknown table. -/
def demo : List Event :=
  [.start 0, .start 1, .start 2, .start 3, .read 0 (some (req 1 100 "t" [100] true))] ++ work 5 ++ [.deliver "t" 0, .call "t" 0, .write 0 true] ++ work 9 ++
  [.read 1 (some (req 2 101 "t" [] true)), .read 2 (some ⟨[InsertDemo.chunk 200], some (InsertDemo.item 3 201 "t" [] true)⟩),
   .read 3 (some (req 4 102 "u" [] true))]

example : ∃ v, (init (newTables cfgs)).run demo = some v ∧ v.dead = false ∧ v.sent 0 = [("t", 1)] ∧ v.sent 1 = [("t", 2)] ∧
    v.endedWith 0 = none ∧ v.endedWith 1 = none ∧ v.endedWith 2 = some (some .internal) ∧ v.endedWith 3 = some (some .notFound) := by
  obtain ⟨v, h1, h2⟩ := asyncAfter_run (evs := demo) (P := fun v => !v.dead && decide (v.sent 0 = [("t", 1)]) && decide (v.sent 1 = [("t", 2)]) &&
    decide (v.endedWith 0 = none) && decide (v.endedWith 1 = none) && decide (v.endedWith 2 = some (some .internal)) &&
    decide (v.endedWith 3 = some (some .notFound))) (by decide +kernel)
  simp only [Bool.and_eq_true, decide_eq_true_eq, Bool.not_eq_true'] at h2
  obtain ⟨⟨⟨⟨⟨⟨a, b⟩, c⟩, d⟩, e⟩, f⟩, g⟩ := h2
  exact ⟨v, h1, a, b, c, d, e, f, g⟩

theorem demo_proper : Proper cfgs demo := by
  intro pre e post h
  have he : e ∈ demo := by rw [h]; simp
  have hadm : ∀ p, workerCfg.admits p := fun p => ⟨rfl, rfl⟩
  have hc : ∀ (q : InsertReq), q.Admits cfgs := by
    intro q it _ c hc
    have : c = workerCfg := by
      simp only [cfgs, AMap.get?, List.lookup_cons] at hc
      split at hc
      · exact (Option.some.inj hc).symm
      · cases hc
    rw [this]; exact hadm _
  have hq : ∀ (k ch : Key) (t : String) (keep : List Key) (b : Bool) (pre : List InsertReq), (∀ k ∈ keep, k = ch) → keep.Nodup →
      (req k ch t keep b).Strict pre := by
    intro k ch t keep b pre h1 h2
    refine ⟨fun it hi x hx => ?_, fun it hi => ?_, Or.inl (by simp [req])⟩
    · simp only [req, Option.some.injEq] at hi; subst hi
      exact Or.inr (by simp [req, InsertDemo.chunk, h1 x hx])
    · simp only [req, Option.some.injEq] at hi; subst hi; exact h2
  simp only [demo, work, List.mem_append, List.mem_cons, List.mem_replicate, List.not_mem_nil, or_false] at he
  rcases he with (((he | he) | he) | he) | he
  · rcases he with rfl | rfl | rfl | rfl | rfl
    all_goals first | trivial | exact ⟨hq _ _ _ _ _ _ (by simp) (by simp), hc _⟩
  · obtain ⟨_, rfl⟩ := he; trivial
  · rcases he with rfl | rfl | rfl <;> trivial
  · obtain ⟨_, rfl⟩ := he; trivial
  · rcases he with rfl | rfl | rfl
    · exact ⟨hq _ _ _ _ _ _ (by simp) (by simp), hc _⟩
    · refine ⟨⟨fun it hi x hx => ?_, fun it hi => ?_, Or.inl (by simp)⟩, hc _⟩
      · simp only [Option.some.injEq] at hi; subst hi; cases hx
      · simp only [Option.some.injEq] at hi; subst hi; exact List.nodup_nil
    · exact ⟨hq _ _ _ _ _ _ (by simp) (by simp), hc _⟩

/-- Meets the hypotheses of `C56_async_calm_partial`. -/
example : Proper cfgs demo ∧ (∀ e ∈ demo, ∀ s, disturbs s e = false) := by
  refine ⟨demo_proper, fun e he s => ?_⟩
  simp only [demo, work, List.mem_append, List.mem_cons, List.mem_replicate, List.not_mem_nil, or_false] at he
  rcases he with (((he | he) | he) | he) | he
  · rcases he with rfl | rfl | rfl | rfl | rfl <;> rfl
  · obtain ⟨_, rfl⟩ := he; rfl
  · rcases he with rfl | rfl | rfl
    · rfl
    · rfl
    · simp [disturbs]
  · obtain ⟨_, rfl⟩ := he; rfl
  · rcases he with rfl | rfl | rfl <;> rfl

/-- C56 does not hold on the asynchronous server for empty requests and for keep lists with unknown or repeated keys: each of these kills
the process. -/
theorem C56_async_keep_false : ∀ q ∈ [⟨[], none⟩, req 1 100 "t" [100, 7] true, req 1 100 "t" [100, 100] true],
    ∃ v, (init (newTables cfgs)).run [.start 0, .start 1, .read 0 (some q)] = some v ∧ v.dead = true := by
  intro q hq
  have : ∀ q ∈ [⟨[], none⟩, req 1 100 "t" [100, 7] true, req 1 100 "t" [100, 100] true],
      InsertDemo.asyncAfter [.start 0, .start 1, .read 0 (some q)] AsyncServer.dead = true := by decide +kernel
  obtain ⟨v, h1, h2⟩ := asyncAfter_run (this q hq)
  exact ⟨v, h1, h2⟩

end AsyncServer
end Verif
