import Verif.Spec.AsyncService
import Verif.Proofs.InsertAsync
import Verif.Proofs.SampleAsync
import Verif.Proofs.Service
import Verif.Proofs.WorkerOrigin
import Verif.Proofs.EndToEnd
/-
The asynchronous server as a whole, as its insert streams and as its sample streams see it.
-/
namespace Verif
namespace AsyncService
open Worker (Act W)

/-! ### The calls of insert streams do not matter to sample streams -/

/-- The same workers and the same callbacks that have not begun. -/
def Alike (T T' : AMap String AsyncTable) : Prop := ∀ name, (T.get? name).map (fun t => (t.w, t.todo)) = (T'.get? name).map fun t => (t.w, t.todo)

theorem Alike.some {T T' : AMap String AsyncTable} (h : Alike T T') {name : String} {t' : AsyncTable} (ht : T'.get? name = some t') :
    ∃ t, T.get? name = some t ∧ t.w = t'.w ∧ t.todo = t'.todo := by
  have := h name
  rw [ht] at this
  obtain ⟨t, h1, h2⟩ := Option.map_eq_some_iff.mp this
  simp only [Prod.mk.injEq] at h2
  exact ⟨t, h1, h2.1, h2.2⟩

theorem Alike.none {T T' : AMap String AsyncTable} (h : Alike T T') {name : String} (ht : T'.get? name = none) : T.get? name = none := by
  have := h name
  rw [ht] at this
  exact Option.map_eq_none_iff.mp this

theorem Alike.insert {T T' : AMap String AsyncTable} (h : Alike T T') (name : String) {t t' : AsyncTable} (h1 : t.w = t'.w) (h2 : t.todo = t'.todo) :
    Alike (T.insert name t) (T'.insert name t') := by
  intro n
  simp only [AMap.get?_insert]
  split
  · simp [h1, h2]
  · exact h n

theorem Alike.keep {T T' : AMap String AsyncTable} (h : Alike T T') {name : String} {t t' : AsyncTable} (ht : T'.get? name = Option.some t)
    (h1 : t'.w = t.w) (h2 : t'.todo = t.todo) : Alike T (T'.insert name t') := by
  intro n
  simp only [AMap.get?_insert]
  split
  · rename_i e
    subst e
    rw [h n, ht]
    simp [h1, h2]
  · exact h n

/-- The same for sample streams. -/
structure Sim (u v : AsyncSampler) : Prop where
  tables : Alike u.tables v.tables
  streams : u.streams = v.streams
  dead : u.dead = v.dead

theorem Sim.put {u v : AsyncSampler} (h : Sim u v) (s : Nat) (r : Res SampReactor) : Sim (u.put s r) (v.put s r) := by
  cases r with
  | ok r => exact ⟨h.tables, by simp only [AsyncSampler.put, h.streams], h.dead⟩
  | err c => exact ⟨h.tables, h.streams, rfl⟩
  | died => exact ⟨h.tables, h.streams, rfl⟩

theorem Sim.ask {u v : AsyncSampler} (h : Sim u v) (s : Nat) (now : Int) (a : Ask) : Sim (u.ask s now a) (v.ask s now a) := by
  unfold AsyncSampler.ask
  cases ht : v.tables.get? a.table with
  | none =>
    rw [h.tables.none ht]
    exact ⟨h.tables, h.streams, rfl⟩
  | some t' =>
    obtain ⟨t, h1, h2, h3⟩ := h.tables.some ht
    rw [h1]
    exact ⟨h.tables.insert _ (by simp only [h2]) h3, h.streams, h.dead⟩

theorem Sim.putAsk {u v : AsyncSampler} (h : Sim u v) (s : Nat) (now : Int) (x : SampReactor × Option Ask) : Sim (u.putAsk s now x) (v.putAsk s now x) := by
  obtain ⟨r, a⟩ := x
  cases a with
  | none => exact h.put s (.ok r)
  | some a => exact (h.put s (.ok r)).ask s now a

theorem Sim.putRes {u v : AsyncSampler} (h : Sim u v) (s : Nat) (now : Int) (x : Res (SampReactor × Option Ask)) :
    Sim (u.putRes s now x) (v.putRes s now x) := by
  cases x with
  | ok x => exact h.putAsk s now x
  | err c => exact ⟨h.tables, h.streams, rfl⟩
  | died => exact ⟨h.tables, h.streams, rfl⟩

theorem Sim.onRead {u v : AsyncSampler} (h : Sim u v) (s : Nat) (r : SampReactor) (req : Option SampleReq) (now : Int) :
    Sim (u.onRead s r req now) (v.onRead s r req now) := by
  unfold AsyncSampler.onRead
  cases req with
  | none => exact h.put ..
  | some q =>
    simp only
    split
    · exact h.put ..
    · have : (u.tables.get? q.table).map (fun t => t.w.table.defaultBatch) = (v.tables.get? q.table).map fun t => t.w.table.defaultBatch := by
        have := congrArg (Option.map fun x : Worker.W × List Worker.Out => x.1.table.defaultBatch) (h.tables q.table)
        simpa only [Option.map_map, Function.comp_def] using this
      rw [this]
      split
      · exact h.put ..
      · exact h.putAsk ..

theorem Sim.deliver {u v : AsyncSampler} (h : Sim u v) (w : Wire) (now : Int) (o : Worker.Out) :
    Sim (AsyncSampler.deliver w u now o) (AsyncSampler.deliver w v now o) := by
  cases o with
  | notify a b => exact h
  | answer q st =>
    simp only [AsyncSampler.deliver, h.streams]
    split
    · cases v.streams.get? (q.id / 2) with
      | none => exact h
      | some r =>
        simp only
        split
        · exact h
        · exact h.putRes ..
    · exact h

theorem Sim.step {u v v' : AsyncSampler} (h : Sim u v) {w : Wire} {e : AsyncSampler.Event} (hs : v.step w e = some v') :
    ∃ u', u.step w e = some u' ∧ Sim u' v' := by
  unfold AsyncSampler.step at hs ⊢
  rw [h.dead]
  split at hs
  · cases hs
  · rename_i hd
    rw [if_neg hd]
    cases e with
    | start s =>
      simp only [h.streams] at hs ⊢
      split at hs
      · cases hs
      · rename_i hc
        cases hs
        rw [if_neg hc]
        exact ⟨_, rfl, h.tables, rfl, rfl⟩
    | read s req now =>
      simp only [h.streams] at hs ⊢
      split at hs
      · cases hs
      · split at hs
        · rename_i hc
          cases hs
          rw [if_pos hc]
          exact ⟨_, rfl, h.onRead ..⟩
        · cases hs
    | write s ok =>
      simp only [h.streams] at hs ⊢
      split at hs
      · cases hs
      · split at hs
        · rename_i hc
          cases hs
          rw [if_pos hc]
          exact ⟨_, rfl, h.put ..⟩
        · cases hs
    | more s now =>
      simp only [h.streams] at hs ⊢
      split at hs
      · cases hs
      · split at hs
        · cases hs
        · rename_i hc
          cases hs
          rw [if_neg hc]
          exact ⟨_, rfl, h.putAsk ..⟩
    | next s =>
      simp only [h.streams] at hs ⊢
      split at hs
      · cases hs
      · split at hs
        · rename_i hc
          cases hs
          rw [if_pos hc]
          exact ⟨_, rfl, h.put ..⟩
        · cases hs
    | cancel s =>
      simp only [h.streams] at hs ⊢
      split at hs
      · cases hs
      · split at hs
        · cases hs
        · rename_i hc
          cases hs
          rw [if_neg hc]
          exact ⟨_, rfl, h.put ..⟩
    | done s =>
      simp only [h.streams] at hs ⊢
      split at hs
      · cases hs
      · split at hs
        · rename_i hc
          cases hs
          rw [if_pos hc]
          exact ⟨_, rfl, h.put ..⟩
        · cases hs
    | table name a =>
      simp only at hs ⊢
      split at hs
      · cases hs
      · rename_i t' ht'
        obtain ⟨t, h1, h2, h3⟩ := h.tables.some ht'
        rw [h1]
        simp only
        split at hs
        · cases hs
        · rename_i ho
          rw [if_neg ho, h2]
          split at hs
          · cases hs
          · cases hs
            refine ⟨_, rfl, h.tables.insert _ rfl (by simp only [h3]), h.streams, rfl⟩
    | deliver name i now =>
      simp only at hs ⊢
      split at hs
      · cases hs
      · rename_i t' ht'
        obtain ⟨t, h1, h2, h3⟩ := h.tables.some ht'
        rw [h1]
        simp only [h3]
        split at hs
        · cases hs
        · cases hs
          refine ⟨_, rfl, ?_⟩
          exact Sim.deliver (u := { u with tables := u.tables.insert name ⟨t.w, t'.todo.eraseIdx i, t.calling⟩, dead := v.dead })
            (v := { v with tables := v.tables.insert name ⟨t'.w, t'.todo.eraseIdx i, t'.calling⟩ }) ⟨h.tables.insert _ h2 rfl, h.streams, rfl⟩ ..

/-! ### What a section of a sample stream does to the tables -/

/-- A sample request is given to a table. -/
def Asks (T T' : AMap String AsyncTable) : Prop :=
  ∃ name t id n dl, T.get? name = some t ∧ T' = T.insert name { t with w := Worker.enqueueSample t.w id n dl }

theorem samp_put (v : AsyncSampler) (s : Nat) (r : Res SampReactor) : (v.put s r).tables = v.tables := by cases r <;> rfl

theorem samp_putAsk (v : AsyncSampler) (s : Nat) (now : Int) (x : SampReactor × Option Ask) :
    (v.putAsk s now x).dead = true ∨ (v.putAsk s now x).tables = v.tables ∨ Asks v.tables (v.putAsk s now x).tables := by
  obtain ⟨r, a⟩ := x
  cases a with
  | none => exact .inr (.inl rfl)
  | some a =>
    simp only [AsyncSampler.putAsk, AsyncSampler.ask]
    split
    · exact .inl rfl
    · rename_i t ht
      exact .inr (.inr ⟨_, t, _, _, _, ht, rfl⟩)

theorem samp_putRes (v : AsyncSampler) (s : Nat) (now : Int) (x : Res (SampReactor × Option Ask)) :
    (v.putRes s now x).dead = true ∨ (v.putRes s now x).tables = v.tables ∨ Asks v.tables (v.putRes s now x).tables := by
  cases x with
  | ok x => exact samp_putAsk v s now x
  | err c => exact .inl rfl
  | died => exact .inl rfl

theorem samp_deliver (w : Wire) (v : AsyncSampler) (now : Int) (o : Worker.Out) :
    (AsyncSampler.deliver w v now o).dead = true ∨ (AsyncSampler.deliver w v now o).tables = v.tables ∨
      Asks v.tables (AsyncSampler.deliver w v now o).tables := by
  cases o with
  | notify a b => exact .inr (.inl rfl)
  | answer q st =>
    simp only [AsyncSampler.deliver]
    split
    · split
      · exact .inr (.inl rfl)
      · split
        · exact .inr (.inl rfl)
        · exact samp_putRes ..
    · exact .inr (.inl rfl)

theorem samp_step {w : Wire} {v v' : AsyncSampler} {e : AsyncSampler.Event} (he : ofSampleStream e = true) (hs : v.step w e = some v') :
    v'.dead = true ∨ v'.tables = v.tables ∨ Asks v.tables v'.tables := by
  unfold AsyncSampler.step at hs
  split at hs
  · cases hs
  · cases e with
    | start s =>
      simp only at hs
      split at hs
      · cases hs
      · cases hs; exact .inr (.inl rfl)
    | read s req now =>
      simp only at hs
      split at hs
      · cases hs
      · split at hs
        · cases hs
          unfold AsyncSampler.onRead
          split
          · exact .inr (.inl (samp_put ..))
          · simp only
            split
            · exact .inr (.inl (samp_put ..))
            · split
              · exact .inr (.inl (samp_put ..))
              · exact samp_putAsk ..
        · cases hs
    | write s ok =>
      simp only at hs
      split at hs
      · cases hs
      · split at hs
        · cases hs; exact .inr (.inl (samp_put ..))
        · cases hs
    | more s now =>
      simp only at hs
      split at hs
      · cases hs
      · split at hs
        · cases hs
        · cases hs; exact samp_putAsk ..
    | next s =>
      simp only at hs
      split at hs
      · cases hs
      · split at hs
        · cases hs; exact .inr (.inl (samp_put ..))
        · cases hs
    | cancel s =>
      simp only at hs
      split at hs
      · cases hs
      · split at hs
        · cases hs
        · cases hs; exact .inr (.inl (samp_put ..))
    | done s =>
      simp only at hs
      split at hs
      · cases hs
      · split at hs
        · cases hs; exact .inr (.inl (samp_put ..))
        · cases hs
    | table name a => cases he
    | deliver name i now => cases he

/-! ### The server as its insert streams see it -/

theorem run_ind {w : Wire} {P : List Event → AsyncService → Prop} (hstep : ∀ pre v e v', P pre v → v.step w e = some v' → P (pre ++ [e]) v') :
    ∀ (post pre : List Event) (v v' : AsyncService), P pre v → v.run w post = some v' → P (pre ++ post) v'
  | [], pre, v, v', hp, h => by simp [run] at h; subst h; simpa using hp
  | e :: post, pre, v, v', hp, h => by
    simp only [run] at h
    split at h
    · cases h
    · rename_i v1 h1
      have := run_ind hstep post (pre ++ [e]) v1 v' (hstep pre v e v1 hp h1) h
      simpa using this

theorem server_snoc : ∀ {evs : List AsyncServer.Event} {v v' v'' : AsyncServer} {e : AsyncServer.Event}, v.run evs = some v' → v'.step e = some v'' →
    v.run (evs ++ [e]) = some v''
  | [], v, v', v'', e, h, hs => by
    simp only [AsyncServer.run, Option.some.injEq] at h
    subst h
    simp [AsyncServer.run, hs]
  | e' :: evs, v, v', v'', e, h, hs => by
    simp only [AsyncServer.run, List.cons_append] at h ⊢
    split at h
    · cases h
    · rename_i v1 h1
      exact server_snoc h hs

theorem sampler_snoc {w : Wire} : ∀ {evs : List AsyncSampler.Event} {v v' v'' : AsyncSampler} {e : AsyncSampler.Event}, v.run w evs = some v' →
    v'.step w e = some v'' → v.run w (evs ++ [e]) = some v''
  | [], v, v', v'', e, h, hs => by
    simp only [AsyncSampler.run, Option.some.injEq] at h
    subst h
    simp [AsyncSampler.run, hs]
  | e' :: evs, v, v', v'', e, h, hs => by
    simp only [AsyncSampler.run, List.cons_append] at h ⊢
    split at h
    · cases h
    · rename_i v1 h1
      exact sampler_snoc h hs

theorem insertRequests_snoc (s : Nat) (evs : List Event) (e : Event) : insertRequests s (evs ++ [e]) = insertRequests s evs ++ insertRequests s [e] := by
  simp [insertRequests]

theorem sampleRequests_snoc (s : Nat) (evs : List Event) (e : Event) : sampleRequests s (evs ++ [e]) = sampleRequests s evs ++ sampleRequests s [e] := by
  simp [sampleRequests]

theorem server_requests_snoc (s : Nat) (evs : List AsyncServer.Event) (e : AsyncServer.Event) :
    AsyncServer.requests s (evs ++ [e]) = AsyncServer.requests s evs ++ AsyncServer.requests s [e] := by simp [AsyncServer.requests]

theorem ask_step {x : AsyncServer} (hd : x.dead = false) (hl : ∀ name t, x.tables.get? name = some t → t.w.dead = false) {T' : AMap String AsyncTable}
    (h : Asks x.tables T') : ∃ name a, x.step (.table name a) = some ⟨T', x.streams, false⟩ := by
  obtain ⟨name, t, id, n, dl, ht, rfl⟩ := h
  refine ⟨name, .request id n dl, ?_⟩
  unfold AsyncServer.step
  rw [if_neg (by simp [hd])]
  simp only [ht, AsyncServer.isInsert]
  have hs : Worker.step t.w (.request id n dl) = some (Worker.enqueueSample t.w id n dl) := by
    unfold Worker.step
    rw [if_neg (by simp [hl name t ht])]
  have e1 : (Worker.enqueueSample t.w id n dl).out = t.w.out := rfl
  have e2 : (Worker.enqueueSample t.w id n dl).dead = t.w.dead := rfl
  simp only [hs, e1, e2, List.drop_length, List.append_nil, hl name t ht]
  rfl

theorem step_alive {w : Wire} {v v' : AsyncService} {e : Event} (h : v.step w e = some v') : v.dead = false := by
  cases hd : v.dead with
  | false => rfl
  | true =>
    have h1 : ∀ e, v.asServer.step e = none := fun e => by simp [AsyncServer.step, asServer, hd]
    have h2 : ∀ e, v.asSampler.step w e = none := fun e => by simp [AsyncSampler.step, asSampler, hd]
    cases e with
    | insert e => simp [step, h1] at h
    | sample e => simp [step, h2] at h
    | table n a => simp [step, h2] at h
    | deliver n i now =>
      simp only [step, deliver] at h
      split at h
      · cases h
      · split at h
        · cases h
        · split at h
          · rw [h1] at h; cases h
          · rw [h2] at h; cases h

/-- A run of the server is one of its insert streams: for them the sample streams are other callers of the tables. -/
theorem server_run {w : Wire} {T : AMap String Table} {evs : List Event} {v : AsyncService} (h : (AsyncService.init T).run w evs = some v) :
    ∃ evs' x, (AsyncServer.init T).run evs' = some x ∧ x.streams = v.inserts ∧ (v.dead = false → x = v.asServer) ∧
      ∀ s, AsyncServer.requests s evs' = insertRequests s evs := by
  refine run_ind (P := fun pre v => ∃ evs' x, (AsyncServer.init T).run evs' = some x ∧ x.streams = v.inserts ∧ (v.dead = false → x = v.asServer) ∧
      ∀ s, AsyncServer.requests s evs' = insertRequests s pre) ?_ evs [] _ v ⟨[], _, rfl, rfl, fun _ => rfl, fun _ => rfl⟩ h
  intro pre v e v' ⟨evs', x, h1, h2, h3, h4⟩ hs
  have hd := step_alive hs
  have hx := h3 hd
  subst hx
  -- the tables live
  have hl : ∀ {es : List AsyncServer.Event} {y : AsyncServer}, (AsyncServer.init T).run es = some y → y.dead = false →
      ∀ name t, y.tables.get? name = some t → t.w.dead = false := fun hr hy => (AsyncServer.AInv.run hr hy).tables.live
  -- the tables are asked or not
  have ask : ∀ {es : List AsyncServer.Event} {y : AsyncServer} {T' : AMap String AsyncTable} {d : Bool}, (AsyncServer.init T).run es = some y → y.dead = false →
      y.streams = v.inserts → (∀ s, AsyncServer.requests s es = insertRequests s (pre ++ [e])) → (d = true ∨ T' = y.tables ∨ Asks y.tables T') →
      ∃ evs' x, (AsyncServer.init T).run evs' = some x ∧ x.streams = v.inserts ∧ (d = false → x = ⟨T', v.inserts, d⟩) ∧
      ∀ s, AsyncServer.requests s evs' = insertRequests s (pre ++ [e]) := by
    intro es y T' d hr hy hst hq hc
    rcases hc with rfl | rfl | hc
    · exact ⟨es, y, hr, hst, (by intro g; cases g), hq⟩
    · refine ⟨es, y, hr, hst, fun g => ?_, hq⟩
      subst g
      rw [← hst, ← hy]
    · obtain ⟨n, a, hstp⟩ := ask_step hy (hl hr hy) hc
      refine ⟨es ++ [.table n a], ⟨T', y.streams, false⟩, server_snoc hr hstp, hst, (by intro g; subst g; rw [hst]), fun s => ?_⟩
      rw [server_requests_snoc, hq]
      simp [AsyncServer.requests]
  cases e with
  | insert e =>
    simp only [step] at hs
    split at hs
    · obtain ⟨y, hy, rfl⟩ := Option.map_eq_some_iff.mp hs
      refine ⟨evs' ++ [e], y, server_snoc h1 hy, rfl, fun _ => rfl, fun s => ?_⟩
      rw [server_requests_snoc, insertRequests_snoc, h4]
      congr 1
      cases e with
      | read s' r => cases r <;> rfl
      | _ => rfl
    · cases hs
  | sample e =>
    simp only [step] at hs
    split at hs
    · rename_i he
      obtain ⟨y, hy, rfl⟩ := Option.map_eq_some_iff.mp hs
      exact ask h1 hd rfl (fun s => by rw [insertRequests_snoc, h4]; simp [insertRequests]) (samp_step he hy)
    · cases hs
  | table name a =>
    simp only [step] at hs
    split at hs
    · cases hs
    · rename_i hi
      obtain ⟨y, hy, rfl⟩ := Option.map_eq_some_iff.mp hs
      unfold AsyncSampler.step at hy
      rw [if_neg (by simp [asSampler, hd])] at hy
      simp only at hy
      split at hy
      · cases hy
      · rename_i t ht
        split at hy
        · cases hy
        · split at hy
          · cases hy
          · rename_i w' hw'
            cases hy
            refine ⟨evs' ++ [.table name a], ⟨v.tables.insert name ⟨w', t.todo ++ w'.out.drop t.w.out.length, t.calling⟩, v.inserts, w'.dead⟩,
              server_snoc h1 ?_, rfl, fun _ => rfl, fun s => ?_⟩
            · unfold AsyncServer.step
              rw [if_neg (by simp [asServer, hd])]
              simp only [asServer, asSampler] at ht ⊢
              simp only [ht, hi, hw']
              rfl
            · rw [server_requests_snoc, insertRequests_snoc, h4]
              simp [AsyncServer.requests, insertRequests]
  | deliver name i now =>
    simp only [step, deliver] at hs
    split at hs
    · cases hs
    · rename_i t ht
      split at hs
      · cases hs
      · rename_i o ho
        split at hs
        · obtain ⟨y, hy, rfl⟩ := Option.map_eq_some_iff.mp hs
          refine ⟨evs' ++ [.deliver name i], y, server_snoc h1 hy, ?_, fun _ => rfl, fun s => ?_⟩
          · rfl
          · rw [server_requests_snoc, insertRequests_snoc, h4]
            simp [AsyncServer.requests, insertRequests]
        · rename_i hn
          obtain ⟨y, hy, rfl⟩ := Option.map_eq_some_iff.mp hs
          unfold AsyncSampler.step at hy
          rw [if_neg (by simp [asSampler, hd])] at hy
          simp only [asSampler, ht, ho, Option.some.injEq] at hy
          have hst : v.asServer.step (.deliver name i) = some ⟨v.tables.insert name { t with todo := t.todo.eraseIdx i }, v.inserts, v.dead⟩ := by
            unfold AsyncServer.step
            rw [if_neg (by simp [asServer, hd])]
            simp only [asServer, ht, ho]
            cases o with
            | notify a b => simp [isNotify] at hn
            | answer a b => rfl
          refine ask (server_snoc h1 hst) hd rfl (fun s => ?_) (hy ▸ samp_deliver ..)
          rw [server_requests_snoc, insertRequests_snoc, h4]
          simp [AsyncServer.requests, insertRequests]

/-! ### What a section of an insert stream does to the tables -/

/-- Chunks in the caches of streams have been sent on them. -/
def Caches (req : Nat → List InsertReq) (streams : AMap Nat InsReactor) : Prop :=
  ∀ s r, streams.get? s = some r → ∀ k ch, r.cache.get? k = some ch → ch.key = k ∧ ∃ q ∈ req s, ch ∈ q.chunks

/-- The section leaves the cache as it is. -/
def SameCache (r : InsReactor) (x : Res InsReactor) : Prop := ∀ r', x = .ok r' → r'.cache = r.cache

theorem same_ok (r r' : InsReactor) (h : r'.cache = r.cache) : SameCache r (.ok r') := fun _ e => by cases e; exact h

theorem same_startRead (r : InsReactor) : SameCache r r.startRead := by
  unfold InsReactor.startRead
  intro r' e
  split at e <;> cases e; rfl

theorem same_setFinished (r : InsReactor) (c : Option Code) : SameCache r (r.setFinished c) := by
  unfold InsReactor.setFinished
  intro r' e
  split at e <;> cases e; rfl

theorem same_maybeSend (r : InsReactor) : SameCache r r.maybeSend := by
  unfold InsReactor.maybeSend
  intro r' e
  split at e
  · cases e; rfl
  · split at e
    · cases e; rfl
    · split at e <;> cases e; rfl

theorem same_readEnd (r : InsReactor) : SameCache r r.readEnd := by
  unfold InsReactor.readEnd
  intro r' e
  simp only at e
  split at e
  · exact (same_setFinished _ _ _ e :)
  · cases e; rfl

theorem same_onWrite (r : InsReactor) (ok : Bool) : SameCache r (r.onWrite ok) := by
  unfold InsReactor.onWrite
  intro r' e
  simp only at e
  split at e
  · cases e; rfl
  · split at e
    · exact (same_setFinished _ _ _ e :)
    · split at e
      · exact (same_setFinished _ _ _ e :)
      · exact (same_maybeSend _ _ e :)

theorem same_onContinue (r : InsReactor) (c : Option Code) : SameCache r (r.onContinue c) := by
  unfold InsReactor.onContinue
  intro r' e
  cases c with
  | some c =>
    simp only at e
    split at e
    · cases e; rfl
    · exact (same_setFinished _ _ _ e :)
  | none =>
    simp only [InsReactor.maybeStartRead] at e
    split at e
    · exact (same_startRead _ _ e :)
    · cases e; rfl

theorem same_addConfirmation (r : InsReactor) (x : String × Key) : SameCache r (r.addConfirmation x) := by
  unfold InsReactor.addConfirmation
  intro r' e
  generalize (if r.responses.length < 2 then r.responses ++ [[x]] else InsReactor.addLast x r.responses) = l at e
  simp only at e
  split at e
  · exact (same_maybeSend _ _ e :)
  · cases e; rfl

theorem same_accepted (r : InsReactor) (b : Bool) (it : InsertItem) : SameCache r (r.accepted b it) := by
  unfold InsReactor.accepted
  intro r' e
  have h1 : ∀ r1, (if b = true then r.startRead else .ok r) = .ok r1 → r1.cache = r.cache := by
    intro r1 h
    split at h
    · exact same_startRead _ _ h
    · cases h; rfl
  split at e
  · rename_i r1 hr
    rw [← h1 _ hr]
    split at e
    · exact (same_addConfirmation _ _ _ e :)
    · cases e; rfl
  · cases e
  · cases e

/-- A reactor whose cache is in order is stored. -/
theorem Caches.put {req : Nat → List InsertReq} {x : AsyncServer} (h : Caches req x.streams) (s : Nat) {r : InsReactor}
    (hr : ∀ k ch, r.cache.get? k = some ch → ch.key = k ∧ ∃ q ∈ req s, ch ∈ q.chunks) {o : Res InsReactor} (ho : SameCache r o) :
    Caches req (x.put s o).streams := by
  cases o with
  | err c => exact h
  | died => exact h
  | ok r' =>
    intro s' r1 h1
    simp only [AsyncServer.put, AMap.get?_insert] at h1
    split at h1
    · rename_i e
      subst e
      cases h1
      rw [ho _ rfl]
      exact hr
    · exact h s' r1 h1

theorem ins_put (x : AsyncServer) (s : Nat) (r : Res InsReactor) : (x.put s r).tables = x.tables := by cases r <;> rfl

/-- The request has an item, which is given to a table. -/
def Gives (req : Nat → List InsertReq) (s : Nat) (q : InsertReq) (T T' : AMap String AsyncTable) : Prop :=
  ∃ it chunks t, q.item = some it ∧ T.get? it.table = some t ∧ Table.itemValid (it.toItem chunks) = true ∧
    Service.SentBy req it.table (it.toItem chunks) ∧ T' = T.insert it.table { t with w := Worker.enqueueInsert t.w (it.toItem chunks) s }

theorem process_gives {req : Nat → List InsertReq} {x : AsyncServer} {s : Nat} {r : InsReactor} {q : InsertReq} (hc : Caches req x.streams)
    (hr : ∀ k ch, r.cache.get? k = some ch → ch.key = k ∧ ∃ q ∈ req s, ch ∈ q.chunks) (hq : q ∈ req s) :
    Caches req (x.process s r q).streams ∧ ((x.process s r q).tables = x.tables ∨ Gives req s q x.tables (x.process s r q).tables) := by
  unfold AsyncServer.process
  split
  · exact ⟨hc, .inl rfl⟩
  · simp only
    have hsave : ∀ k ch, (saveChunks .async r.cache q.chunks).get? k = some ch → ch.key = k ∧ ∃ q ∈ req s, ch ∈ q.chunks := by
      intro k ch hk
      rcases saveChunks_get .async q.chunks r.cache k ch hk with g | ⟨g, e⟩
      · exact hr k ch g
      · exact ⟨e, q, hq, g⟩
    split
    · exact ⟨hc.put s (r := { r with cache := saveChunks .async r.cache q.chunks }) hsave (same_startRead _), .inl (ins_put ..)⟩
    · rename_i it hit
      split
      · exact ⟨hc.put s (r := { r with cache := saveChunks .async r.cache q.chunks }) hsave (same_setFinished _ _), .inl (ins_put ..)⟩
      · rename_i chunks hf
        split
        · exact ⟨hc, .inl rfl⟩
        · rename_i cache hrel
          have hcache : ∀ k ch, cache.get? k = some ch → ch.key = k ∧ ∃ q ∈ req s, ch ∈ q.chunks := by
            intro k ch hk
            rw [releaseChunks_eq hrel, AMap.get?_keep] at hk
            split at hk
            · exact hsave k ch hk
            · cases hk
          unfold AsyncServer.giveItem
          split
          · exact ⟨hc.put s hcache (r := { r with cache := cache }) (same_setFinished _ _), .inl (ins_put ..)⟩
          · rename_i t ht
            split
            · rename_i hv
              refine ⟨Caches.put (x := { x with tables := x.tables.insert it.table { t with w := Worker.enqueueInsert t.w (it.toItem chunks) s } }) hc s (r := { r with cache := cache }) hcache (same_accepted _ _ _), .inr ?_⟩
              refine ⟨it, chunks, t, hit, ht, hv, ⟨s, q, hq, it, hit, rfl, rfl, rfl, fun k hk => ?_⟩, by rw [ins_put]⟩
              have hg := findChunks_get hf
              have : cache.get? k = cache.get? k := rfl
              have hk' : (saveChunks .async r.cache q.chunks).get? k ∈ (getChunkKeys it.traj).map (saveChunks .async r.cache q.chunks).get? :=
                List.mem_map_of_mem hk
              rw [← hg] at hk'
              obtain ⟨ch, _, e⟩ := List.mem_map.mp hk'
              obtain ⟨h1, q', h2, h3⟩ := hsave k ch e.symm
              exact ⟨q', h2, ch, h3, h1⟩
            · exact ⟨hc.put s hcache (r := { r with cache := cache }) (same_setFinished _ _), .inl (ins_put ..)⟩

theorem ins_step {req : Nat → List InsertReq} {x y : AsyncServer} {e : AsyncServer.Event} (h : x.step e = some y) (ho : ofStream e = true)
    (hc : Caches req x.streams) (hq : ∀ s q, e = .read s (some q) → q ∈ req s) :
    Caches req y.streams ∧ (y.dead = true ∨ (∀ U, Alike U x.tables → Alike U y.tables) ∨ ∃ s q, e = .read s (some q) ∧ Gives req s q x.tables y.tables) := by
  have same : ∀ {T : AMap String AsyncTable}, T = x.tables → ∀ U, Alike U x.tables → Alike U T := fun e U g => e ▸ g
  unfold AsyncServer.step at h
  split at h
  · cases h
  · cases e with
    | start s =>
      simp only at h
      split at h
      · cases h
      · cases h
        exact ⟨hc.put (x := x) s (r := .make) (fun k ch g => by cases g) (o := .ok .make) (same_ok _ _ rfl), .inr (.inl (same rfl))⟩
    | read s q =>
      simp only at h
      split at h
      · cases h
      · rename_i r hr
        split at h
        · cases h
          have hcr := hc s r hr
          unfold AsyncServer.onRead
          cases q with
          | none => exact ⟨hc.put s (r := { r with reading := false }) hcr (same_readEnd _), .inr (.inl (same (ins_put ..)))⟩
          | some q =>
            simp only
            split
            · exact ⟨hc.put s (r := { r with reading := false }) hcr (same_readEnd _), .inr (.inl (same (ins_put ..)))⟩
            · obtain ⟨h1, h2⟩ := process_gives (r := { r with reading := false }) hc hcr (hq s q rfl)
              refine ⟨h1, .inr ?_⟩
              rcases h2 with h2 | h2
              · exact .inl (same h2)
              · exact .inr ⟨s, q, rfl, h2⟩
        · cases h
    | write s ok =>
      simp only at h
      split at h
      · cases h
      · rename_i r hr
        split at h
        · cases h
          exact ⟨hc.put s (hc s r hr) (same_onWrite _ _), .inr (.inl (same (ins_put ..)))⟩
        · cases h
    | cancel s =>
      simp only at h
      split at h
      · cases h
      · rename_i r hr
        split at h
        · cases h
        · cases h
          exact ⟨hc.put s (hc s r hr) (same_ok _ _ rfl), .inr (.inl (same (ins_put ..)))⟩
    | done s =>
      simp only at h
      split at h
      · cases h
      · rename_i r hr
        split at h
        · cases h
          exact ⟨hc.put s (hc s r hr) (same_ok _ _ rfl), .inr (.inl (same (ins_put ..)))⟩
        · cases h
    | table n a => cases ho
    | deliver n i => cases ho
    | call n i =>
      simp only at h
      split at h
      · cases h
      · rename_i t ht
        split at h
        · cases h
        · rename_i s st hst
          cases h
          unfold AsyncServer.callBack
          split
          · exact ⟨hc, .inl rfl⟩
          · rename_i r hr
            split
            · exact ⟨hc, .inl rfl⟩
            · refine ⟨Caches.put (x := { x with tables := x.tables.insert n { t with calling := t.calling.eraseIdx i } }) hc s (hc s r hr) (same_onContinue _ _), .inr (.inl fun U g => ?_)⟩
              rw [ins_put]
              exact g.keep ht rfl rfl

/-! ### The server as its sample streams see it -/

/-- What others do to a table: what others do to it, or an item is given to it that was sent by a client. -/
def Others (evs : List Event) (name : String) (a : Act) : Prop :=
  (AsyncServer.isInsert a = false ∧ Event.table name a ∈ evs) ∨
  ∃ i cb s q it, a = .insert i cb ∧ Table.itemValid i = true ∧ Service.SentBy (fun s => insertRequests s evs) name i ∧
    q ∈ insertRequests s evs ∧ q.item = some it ∧ it.table = name ∧ it.priority = i.priority

theorem Others.mono {evs : List Event} {name : String} {a : Act} (h : Others evs name a) (e : Event) : Others (evs ++ [e]) name a := by
  have hm : ∀ s, ∀ r ∈ insertRequests s evs, r ∈ insertRequests s (evs ++ [e]) := fun s r hr => by
    rw [insertRequests_snoc]
    exact List.mem_append_left _ hr
  rcases h with ⟨h1, h2⟩ | ⟨i, cb, s, q, it, h1, h2, h3, h4, h5⟩
  · exact .inl ⟨h1, List.mem_append_left _ h2⟩
  · exact .inr ⟨i, cb, s, q, it, h1, h2, h3.mono hm, hm s q h4, h5⟩

theorem Caches.mono {req req' : Nat → List InsertReq} (h : ∀ s, ∀ r ∈ req s, r ∈ req' s) {streams : AMap Nat InsReactor} (g : Caches req streams) :
    Caches req' streams := fun s r hr k ch hc => by
  obtain ⟨h1, q, h2, h3⟩ := g s r hr k ch hc
  exact ⟨h1, q, h s q h2, h3⟩

theorem sampler_requests_snoc (s : Nat) (evs : List AsyncSampler.Event) (e : AsyncSampler.Event) :
    AsyncSampler.requests s (evs ++ [e]) = AsyncSampler.requests s evs ++ AsyncSampler.requests s [e] := by simp [AsyncSampler.requests]

/-- What has been found of the server. -/
structure View (w : Wire) (T : AMap String Table) (evs : List Event) (v : AsyncService) (evs' : List AsyncSampler.Event) (u : AsyncSampler) : Prop where
  run : (AsyncSampler.init T).run w evs' = some u
  streams : u.streams = v.samples
  sim : v.dead = false → Sim u v.asSampler
  caches : Caches (fun s => insertRequests s evs) v.inserts
  requests : ∀ q, AsyncSampler.requests q evs' = sampleRequests q evs
  others : ∀ name a, AsyncSampler.Event.table name a ∈ evs' → Others evs name a

theorem service_snoc {w : Wire} : ∀ {evs : List Event} {v v' v'' : AsyncService} {e : Event}, v.run w evs = some v' → v'.step w e = some v'' →
    v.run w (evs ++ [e]) = some v''
  | [], v, v', v'', e, h, hs => by
    simp only [run, Option.some.injEq] at h
    subst h
    simp [run, hs]
  | e' :: evs, v, v', v'', e, h, hs => by
    simp only [run, List.cons_append] at h ⊢
    split at h
    · cases h
    · exact service_snoc h hs

theorem live {w : Wire} {T : AMap String Table} {evs : List Event} {v : AsyncService} (h : (AsyncService.init T).run w evs = some v) (hd : v.dead = false) :
    ∀ name t, v.tables.get? name = some t → t.w.dead = false := by
  obtain ⟨es, x, h1, _, h3, _⟩ := server_run h
  have := h3 hd
  subst this
  exact (AsyncServer.AInv.run h1 hd).tables.live

/-- The item is given to the table, as sample streams see it. -/
theorem insert_step {w : Wire} {u v : AsyncSampler} (h : Sim u v) (hd : v.dead = false) {name : String} {t : AsyncTable} (ht : v.tables.get? name = some t)
    (hl : t.w.dead = false) (i : Item) (s : Nat) :
    ∃ u', u.step w (.table name (.insert i s)) = some u' ∧
      Sim u' ⟨v.tables.insert name { t with w := Worker.enqueueInsert t.w i s }, v.streams, false⟩ := by
  have ho : (Worker.enqueueInsert t.w i s).out = t.w.out := by
    unfold Worker.enqueueInsert
    split
    · simp only
      split <;> rfl
    · rfl
  have hdd : (Worker.enqueueInsert t.w i s).dead = t.w.dead := by
    unfold Worker.enqueueInsert
    split
    · simp only
      split <;> rfl
    · rfl
  refine h.step ?_
  unfold AsyncSampler.step
  rw [if_neg (by simp [hd])]
  have hs : Worker.step t.w (.insert i s) = some (Worker.enqueueInsert t.w i s) := by
    unfold Worker.step
    rw [if_neg (by simp [hl])]
  simp only [ht, hs, ho, hdd, hl, List.drop_length, List.append_nil]
  rfl

/-- A run of the server is one of its sample streams: for them the insert streams are other callers of the tables. -/
theorem sampler_run {w : Wire} {T : AMap String Table} {evs : List Event} {v : AsyncService} (h : (AsyncService.init T).run w evs = some v) :
    ∃ evs' u, View w T evs v evs' u := by
  refine (run_ind (P := fun pre v => (AsyncService.init T).run w pre = some v ∧ ∃ evs' u, View w T pre v evs' u) ?_ evs [] _ v
    ⟨rfl, [], _, rfl, rfl, fun _ => ⟨fun _ => rfl, rfl, rfl⟩, (by intro s r hr; cases hr), fun _ => rfl, (by intro _ _ g; cases g)⟩ h).2
  intro pre v e v' ⟨hrun, evs', u, V⟩ hs
  have hrun' := service_snoc hrun hs
  refine ⟨hrun', ?_⟩
  have hd := step_alive hs
  have hsim := V.sim hd
  have hlive := live hrun hd
  have hm : ∀ s, ∀ r ∈ insertRequests s pre, r ∈ insertRequests s (pre ++ [e]) := fun s r hr => by
    rw [insertRequests_snoc]
    exact List.mem_append_left _ hr
  have oth : ∀ name a, AsyncSampler.Event.table name a ∈ evs' → Others (pre ++ [e]) name a := fun name a ha => (V.others name a ha).mono e
  have oth1 : ∀ {e' : AsyncSampler.Event}, (∀ name a, e' = .table name a → Others (pre ++ [e]) name a) →
      ∀ name a, AsyncSampler.Event.table name a ∈ evs' ++ [e'] → Others (pre ++ [e]) name a := by
    intro e' g name a ha
    rcases List.mem_append.mp ha with ha | ha
    · exact oth name a ha
    · rw [List.mem_singleton] at ha
      exact g name a ha.symm
  cases e with
  | insert e =>
    simp only [step] at hs
    split at hs
    · rename_i ho
      obtain ⟨y, hy, rfl⟩ := Option.map_eq_some_iff.mp hs
      have hsr : ∀ q, sampleRequests q (pre ++ [Event.insert e]) = sampleRequests q pre := fun q => by
        rw [sampleRequests_snoc]
        simp [sampleRequests]
      obtain ⟨h1, h2⟩ := ins_step (req := fun s => insertRequests s (pre ++ [Event.insert e])) hy ho (V.caches.mono hm) (by
        intro s q e1
        subst e1
        simp [insertRequests])
      have hreq : ∀ q, AsyncSampler.requests q evs' = sampleRequests q (pre ++ [Event.insert e]) := fun q => (V.requests q).trans (hsr q).symm
      have dead : y.dead = true → (v.withServer y).dead = false → Sim u (v.withServer y).asSampler := by
        intro g1 g2
        rw [show (v.withServer y).dead = y.dead from rfl, g1] at g2
        cases g2
      rcases h2 with h2 | h2 | ⟨s, q, rfl, it, chunks, t, g1, g2, g3, g4, g5⟩
      · exact ⟨evs', u, V.run, V.streams, dead h2, h1, hreq, oth⟩
      · refine ⟨evs', u, V.run, V.streams, fun g => ⟨h2 _ hsim.tables, V.streams, ?_⟩, h1, hreq, oth⟩
        exact hsim.dead.trans (hd.trans g.symm)
      · cases hyd : y.dead with
        | true => exact ⟨evs', u, V.run, V.streams, dead hyd, h1, hreq, oth⟩
        | false =>
          obtain ⟨u', k1, k2⟩ := insert_step (w := w) hsim hd g2 (hlive _ _ g2) (it.toItem chunks) s
          refine ⟨evs' ++ [.table it.table (.insert (it.toItem chunks) s)], u', sampler_snoc V.run k1, k2.streams, fun _ => ⟨?_, k2.streams, ?_⟩, h1,
            fun q => ?_, oth1 fun name a e1 => ?_⟩
          · show Alike u'.tables y.tables
            rw [g5]
            exact k2.tables
          · exact k2.dead.trans hyd.symm
          · rw [hsr, sampler_requests_snoc, V.requests]
            simp [AsyncSampler.requests]
          · cases e1
            exact .inr ⟨_, _, s, q, it, rfl, g3, g4, by simp [insertRequests], g1, rfl, rfl⟩
    · cases hs
  | sample e =>
    simp only [step] at hs
    split at hs
    · rename_i ho
      obtain ⟨y, hy, rfl⟩ := Option.map_eq_some_iff.mp hs
      obtain ⟨u', k1, k2⟩ := hsim.step hy
      refine ⟨evs' ++ [e], u', sampler_snoc V.run k1, k2.streams, fun _ => k2, V.caches.mono hm, fun q => ?_, oth1 fun name a e1 => ?_⟩
      · rw [sampleRequests_snoc, sampler_requests_snoc, V.requests]
        congr 1
        cases e <;> rfl
      · subst e1; cases ho
    · cases hs
  | table name a =>
    simp only [step] at hs
    split at hs
    · cases hs
    · rename_i hi
      obtain ⟨y, hy, rfl⟩ := Option.map_eq_some_iff.mp hs
      obtain ⟨u', k1, k2⟩ := hsim.step hy
      refine ⟨evs' ++ [.table name a], u', sampler_snoc V.run k1, k2.streams, fun _ => k2, V.caches.mono hm, fun q => ?_, oth1 fun name' a' e1 => ?_⟩
      · rw [sampleRequests_snoc, sampler_requests_snoc, V.requests]
        rfl
      · cases e1
        exact .inl ⟨by simpa using hi, by simp⟩
  | deliver name i now =>
    have hsr : ∀ q, sampleRequests q (pre ++ [Event.deliver name i now]) = AsyncSampler.requests q (evs' ++ [.deliver name i now]) := fun q => by
      rw [sampleRequests_snoc, sampler_requests_snoc, V.requests]
      rfl
    simp only [step, deliver] at hs
    split at hs
    · cases hs
    · rename_i t ht
      split at hs
      · cases hs
      · rename_i o hot
        split at hs
        · rename_i hn
          obtain ⟨y, hy, rfl⟩ := Option.map_eq_some_iff.mp hs
          cases o with
          | answer a b => cases hn
          | notify s st =>
            have hst : v.asSampler.step w (.deliver name i now) = some ⟨v.tables.insert name { t with todo := t.todo.eraseIdx i }, v.samples, v.dead⟩ := by
              unfold AsyncSampler.step
              rw [if_neg (by simp [asSampler, hd])]
              simp only [asSampler, ht, hot]
              rfl
            obtain ⟨u', k1, k2⟩ := hsim.step hst
            unfold AsyncServer.step at hy
            rw [if_neg (by simp [asServer, hd])] at hy
            simp only [asServer, ht, hot, Option.some.injEq] at hy
            subst hy
            refine ⟨evs' ++ [.deliver name i now], u', sampler_snoc V.run k1, k2.streams, fun _ => ⟨?_, k2.streams, k2.dead⟩, V.caches.mono hm,
              fun q => (hsr q).symm, oth1 fun name' a' e1 => by cases e1⟩
            have := k2.tables.keep (name := name) (t' := { t with
              todo := t.todo.eraseIdx i
              calling := if ({ tables := v.tables, streams := v.inserts, dead := v.dead } : AsyncServer).exists? s then t.calling ++ [(s, st)] else t.calling })
              (AMap.get?_insert_self ..) rfl rfl
            intro n
            rw [this n]
            simp only [withServer, asSampler, AsyncServer.lock, AMap.get?_insert]
            split <;> rfl
        · obtain ⟨y, hy, rfl⟩ := Option.map_eq_some_iff.mp hs
          obtain ⟨u', k1, k2⟩ := hsim.step hy
          exact ⟨evs' ++ [.deliver name i now], u', sampler_snoc V.run k1, k2.streams, fun _ => k2, V.caches.mono hm,
            fun q => (hsr q).symm, oth1 fun name' a' e1 => by cases e1⟩

theorem served_table : ∀ {full : Bool} {rs : List SampleReq} {got : List (String × Sampled)}, Served full rs got → ∀ y ∈ got, ∃ r ∈ rs, r.table = y.1
  | _, [], got, h, y, hy => by simp only [Served] at h; subst h; cases hy
  | full, r :: rs, got, h, y, hy => by
    obtain ⟨a, b, rfl, _, _, h1, h2⟩ := h
    rcases List.mem_append.mp hy with hy | hy
    · exact ⟨r, by simp, (h1 y hy).symm⟩
    · obtain ⟨r', g1, g2⟩ := served_table h2 y hy
      exact ⟨r', List.mem_cons_of_mem _ g1, g2⟩

/-- The samples of the server are of items that were sent, and what it writes are these samples. -/
theorem flow {w : Wire} (hw : ∀ k, (w.content k).key = k) {cfgs : AMap String Config} {evs : List Event} {v : AsyncService}
    (hr : (AsyncService.init (newTables cfgs)).run w evs = some v) (hp : Proper cfgs evs) :
    Flow w (fun s => insertRequests s evs) (fun q => sampleRequests q evs) v.got v.written := by
  obtain ⟨evs', u, V⟩ := sampler_run hr
  have hprop : AsyncSampler.Proper cfgs evs' := by
    intro name a ha c hc
    rcases V.others name a ha with ⟨h1, h2⟩ | ⟨i, cb, s, q, it, rfl, _, _, h4, h5, h6, h7⟩
    · cases a with
      | insert i cb => cases h1
      | mutate us ds => exact hp.mutate name us ds h2 c hc
      | _ => trivial
    · show c.admits i.priority
      rw [← h7]
      exact hp.insert s q h4 it h5 c (h6 ▸ hc)
  have hA := AsyncSampler.AInv.run hw V.run hprop
  have hgot : ∀ q, v.got q = u.got q := fun q => by simp only [got, AsyncSampler.got, asSampler, V.streams]
  have hwr : ∀ q, v.written q = u.written q := fun q => by simp only [written, AsyncSampler.written, asSampler, V.streams]
  refine ⟨hw, fun q y hy => ?_, fun q => ?_⟩
  · rw [hgot] at hy
    unfold AsyncSampler.got at hy
    cases hu : u.streams.get? q with
    | none => rw [hu] at hy; cases hy
    | some r =>
      rw [hu] at hy
      replace hy : y ∈ r.got := hy
      have hok := hA.ok q r hu
      constructor
      · obtain ⟨t, ht, hlog⟩ := hok.logged y hy
        obtain ⟨c, as, hc, hrun, hok', hevs⟩ := (hA.tabs _ t ht).runs
        refine (Worker.origin (Service.prov_stable (fun s => insertRequests s evs) y.1) hok' ?_ hrun).2 _ hlog
        intro i cb hi hv
        rcases hevs _ hi with ⟨_, _, _, e⟩ | hev
        · cases e
        · rcases V.others _ _ hev with ⟨h1, _⟩ | ⟨i', cb', _, _, _, e, _, h3, _⟩
          · cases h1
          · cases e; exact ⟨hv, h3⟩
      · obtain ⟨r', h1, h2⟩ := served_table (SampReactor.served_false hok.inv.toRInv0) y hy
        rw [V.requests] at h1
        exact ⟨r', h1, h2⟩
  · rw [hgot, hwr]
    unfold AsyncSampler.got AsyncSampler.written
    cases hu : u.streams.get? q with
    | none => exact List.prefix_rfl
    | some r => exact (hA.ok q r hu).inv.sent

end AsyncService
end Verif
