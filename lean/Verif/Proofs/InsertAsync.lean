import Verif.Proofs.InsertSync
import Verif.Proofs.WorkerProgress
/-
Invariants of the insert streams of the asynchronous server.
-/
namespace Verif
namespace AsyncServer
open Worker (W Act callbacks)

theorem run_ind {P : List Event → AsyncServer → Prop} (hstep : ∀ pre v e v', P pre v → v.step e = some v' → P (pre ++ [e]) v') :
    ∀ (post pre : List Event) (v v' : AsyncServer), P pre v → v.run post = some v' → P (pre ++ post) v'
  | [], pre, v, v', hp, h => by simp [run] at h; subst h; simpa using hp
  | e :: post, pre, v, v', hp, h => by
    simp only [run] at h
    split at h
    · cases h
    · rename_i v1 h1
      have := run_ind hstep post (pre ++ [e]) v1 v' (hstep pre v e v1 hp h1) h
      simpa using this

/-! ### The callbacks of a table -/

/-- Another call than `InsertOrAssignAsync`. -/
theorem frame {w w' : W} {a : Act} (hs : Worker.step w a = some w') (hi : isInsert a = false) :
    w'.refused = w.refused ∧ w'.accepted = w.accepted ∧ w.out <+: w'.out := by
  obtain ⟨_, ht⟩ := Worker.tr_of_step hs
  cases ht
  case insertBad => cases hi
  case insertOk => cases hi
  case insertFull => cases hi
  all_goals first
    | exact ⟨rfl, rfl, List.prefix_rfl⟩
    | exact ⟨rfl, rfl, List.prefix_append _ _⟩

/-- How many callbacks for the stream a table still has. -/
def _root_.Verif.AsyncTable.pend (t : AsyncTable) (s : Nat) : Nat :=
  ((callbacks t.todo).map Prod.fst).count s + (t.calling.map Prod.fst).count s + t.w.notify.count s + t.w.notifyList.count s

theorem pend_step {t : AsyncTable} {w' : W} {a : Act} (hc : Worker.Calls t.w) (hs : Worker.step t.w a = some w') (hi : isInsert a = false)
    (s : Nat) : AsyncTable.pend ⟨w', t.todo ++ w'.out.drop t.w.out.length, t.calling⟩ s = AsyncTable.pend t s := by
  obtain ⟨h1, _, l, h3⟩ := frame hs hi
  have h4 := hc.step hs
  have e1 := congrArg (List.count s) hc.all
  have e2 := congrArg (List.count s) h4.all
  rw [h1, e1, ← h3] at e2
  simp only [AsyncTable.pend, ← h3, List.drop_left, Worker.callbacks_append, List.map_append, List.count_append] at e2 ⊢
  omega

theorem pend_insert {t : AsyncTable} {i : Item} {s : Nat} (hv : Table.itemValid i = true) (s' : Nat) :
    AsyncTable.pend { t with w := Worker.enqueueInsert t.w i s } s' =
      AsyncTable.pend t s' + if canInsertMore t.w then 0 else if s' = s then 1 else 0 := by
  unfold Worker.enqueueInsert canInsertMore
  rw [if_pos hv]
  by_cases hc : t.w.pendingInserts.length + 1 < t.w.maxEnqueued
  · simp only [hc, if_true, decide_true]
    rfl
  · simp only [hc, if_false, decide_false, Bool.false_eq_true]
    simp only [AsyncTable.pend, Worker.signalled, List.count_append, List.count_singleton]
    by_cases he : s' = s
    · simp [he]; omega
    · simp [he, Ne.symm he]

theorem pend_deliver {t : AsyncTable} {i : Nat} {o : Worker.Out} (h : t.todo[i]? = some o) (s : Nat) :
    AsyncTable.pend { t with todo := t.todo.eraseIdx i } s + ((callbacks [o]).map Prod.fst).count s = AsyncTable.pend t s := by
  obtain ⟨hlt, hget⟩ := List.getElem?_eq_some_iff.mp h
  have h1 : t.todo = t.todo.take i ++ [o] ++ t.todo.drop (i + 1) := by
    rw [List.append_assoc, List.singleton_append, ← hget, ← List.drop_eq_getElem_cons hlt, List.take_append_drop]
  have h2 := congrArg (fun l => ((callbacks l).map Prod.fst).count s) h1
  simp only [Worker.callbacks_append, List.map_append, List.count_append] at h2
  simp only [AsyncTable.pend, List.eraseIdx_eq_take_drop_succ, Worker.callbacks_append, List.map_append, List.count_append]
  omega

theorem pend_call {t : AsyncTable} {i : Nat} {o : Nat × Worker.Status} (h : t.calling[i]? = some o) (s : Nat) :
    AsyncTable.pend { t with calling := t.calling.eraseIdx i } s + (if s = o.1 then 1 else 0) = AsyncTable.pend t s := by
  obtain ⟨hlt, hget⟩ := List.getElem?_eq_some_iff.mp h
  have h1 : t.calling = t.calling.take i ++ [o] ++ t.calling.drop (i + 1) := by
    rw [List.append_assoc, List.singleton_append, ← hget, ← List.drop_eq_getElem_cons hlt, List.take_append_drop]
  have h2 := congrArg (fun l => (l.map Prod.fst).count s) h1
  simp only [List.map_append, List.count_append, List.map_cons, List.map_nil, List.count_singleton] at h2
  simp only [AsyncTable.pend, List.eraseIdx_eq_take_drop_succ, List.map_append, List.count_append]
  by_cases e : s = o.1
  · simp only [e, beq_self_eq_true, if_true] at h2 ⊢; omega
  · have e' : (o.1 == s) = false := by simpa using Ne.symm e
    simp only [e, e', Bool.false_eq_true, if_false] at h2 ⊢; omega

theorem pend_lock (t : AsyncTable) (s : Nat) (st : Worker.Status) (s' : Nat) :
    AsyncTable.pend { t with calling := t.calling ++ [(s, st)] } s' = AsyncTable.pend t s' + if s' = s then 1 else 0 := by
  simp only [AsyncTable.pend, List.map_append, List.count_append, List.map_cons, List.map_nil, List.count_singleton]
  by_cases e : s' = s
  · simp [e]; omega
  · simp [e, Ne.symm e]

/-! ### Streams -/

/-- How many callbacks for the stream the table with this name has. -/
def waits (T : AMap String AsyncTable) (s : Nat) (name : String) : Nat :=
  match T.get? name with
  | some t => t.pend s
  | none => 0

theorem waits_insert (T : AMap String AsyncTable) (s : Nat) (name name' : String) (t : AsyncTable) :
    waits (T.insert name t) s name' = if name' = name then t.pend s else waits T s name' := by
  unfold waits
  rw [AMap.get?_insert]
  by_cases h : name' = name <;> simp [h]

theorem waits_some {T : AMap String AsyncTable} {name : String} {t : AsyncTable} (h : T.get? name = some t) (s : Nat) : waits T s name = t.pend s := by
  unfold waits; rw [h]

/-- The item has been taken by the table. -/
def Taken (T : AMap String AsyncTable) (x : String × Key) : Prop := ∃ t, T.get? x.1 = some t ∧ ∃ i ∈ t.w.accepted, i.key = x.2

/-- The requests of a stream, and whether it has been disturbed. -/
def hist (s : Nat) (evs : List Event) : List InsertReq × Bool := (requests s evs, evs.any (disturbs s))

/-- Invariant of a stream. -/
structure SInv (T : AMap String AsyncTable) (reqs : List InsertReq × Bool) (s : Nat) (r : InsReactor) : Prop where
  fin : r.finished ≠ none → r.responses = []
  wr : r.finished = none → (r.writing = true ↔ r.responses ≠ [])
  gone : r.gone = true → r.finished ≠ none ∧ r.reading = false
  canc : r.cancelled = true → r.stillReading = false
  cache : r.finished = none → ∀ k, k ∈ r.cache.keys ↔ k ∈ kept reqs.1
  half : r.finished = none → r.stillReading = false → r.cancelled = false → r.responses ≠ []
  one : ∃ n0, ∀ name, waits T s name ≤ if name = n0 then 1 else 0
  idle : r.reading = true → ∀ name, waits T s name = 0
  act : r.finished = none → r.stillReading = true → r.reading = true ∨ ∃ name, 0 < waits T s name
  conf : ∀ x, (x ∈ r.sent ∨ ∃ l ∈ r.responses, x ∈ l) → Taken T x
  calm : reqs.2 = false → r.cancelled = false ∧ (r.reading = true → r.stillReading = true) ∧
    (r.finished ≠ none ∨ r.stillReading = false → ∀ name, waits T s name = 0)

/-- The tables of the server. -/
structure TInv (T : AMap String AsyncTable) : Prop where
  calls : ∀ name t, T.get? name = some t → Worker.Calls t.w
  live : ∀ name t, T.get? name = some t → t.w.dead = false

/-- Invariant of the server. -/
structure AInv (evs : List Event) (v : AsyncServer) : Prop where
  alive : v.dead = false
  tables : TInv v.tables
  fresh : ∀ s, v.streams.get? s = none → hist s evs = ([], false) ∧ ∀ name, waits v.tables s name = 0
  streams : ∀ s r, v.streams.get? s = some r → SInv v.tables (hist s evs) s r

/-- What tables have taken, they have taken. -/
def More (T T' : AMap String AsyncTable) : Prop := ∀ x, Taken T x → Taken T' x

theorem SInv.mono {T T' : AMap String AsyncTable} {reqs : List InsertReq × Bool} {s : Nat} {r : InsReactor} (h : SInv T reqs s r) (hm : More T T')
    (hw : ∀ name, waits T' s name = waits T s name) : SInv T' reqs s r :=
  ⟨h.fin, h.wr, h.gone, h.canc, h.cache, h.half, by simpa only [hw] using h.one, by simpa only [hw] using h.idle,
    by simpa only [hw] using h.act, fun x hx => hm x (h.conf x hx), by simpa only [hw] using h.calm⟩

/-- One stream changes, and perhaps what the tables have for it. -/
theorem AInv.put {evs evs' : List Event} {v : AsyncServer} (h : AInv evs v) {T' : AMap String AsyncTable} (hT : TInv T') (hm : More v.tables T')
    {s : Nat} (hw : ∀ s', s' ≠ s → ∀ name, waits T' s' name = waits v.tables s' name)
    (hr : ∀ s', s' ≠ s → hist s' evs' = hist s' evs) {r' : InsReactor} (hs : SInv T' (hist s evs') s r') :
    AInv evs' ⟨T', v.streams.insert s r', false⟩ := by
  refine ⟨rfl, hT, fun s' hs' => ?_, fun s' r1 hs' => ?_⟩
  · simp only [AMap.get?_insert] at hs'
    split at hs'
    · cases hs'
    · rename_i hne
      rw [hr s' hne]
      obtain ⟨h1, h2⟩ := h.fresh s' hs'
      exact ⟨h1, fun name => by rw [hw s' hne]; exact h2 name⟩
  · simp only [AMap.get?_insert] at hs'
    split at hs'
    · cases hs'; subst_vars; exact hs
    · rename_i hne
      rw [hr s' hne]
      exact (h.streams s' r1 hs').mono hm (hw s' hne)

/-- Only tables change. -/
theorem AInv.same {evs evs' : List Event} {v : AsyncServer} (h : AInv evs v) {T' : AMap String AsyncTable} (hT : TInv T') (hm : More v.tables T')
    (hw : ∀ s name, waits T' s name = waits v.tables s name) (hr : ∀ s, hist s evs' = hist s evs) : AInv evs' ⟨T', v.streams, false⟩ := by
  refine ⟨rfl, hT, fun s hs => ?_, fun s r hs => ?_⟩
  · rw [hr]
    obtain ⟨h1, h2⟩ := h.fresh s hs
    exact ⟨h1, fun name => by rw [hw]; exact h2 name⟩
  · rw [hr]
    exact (h.streams s r hs).mono hm (hw s)

theorem TInv.insert {T : AMap String AsyncTable} (h : TInv T) {name : String} {t : AsyncTable} (h1 : Worker.Calls t.w) (h2 : t.w.dead = false) :
    TInv (T.insert name t) := by
  constructor <;>
  · intro name' t' ht
    rw [AMap.get?_insert] at ht
    split at ht
    · cases ht; assumption
    · first | exact h.calls _ _ ht | exact h.live _ _ ht

theorem More.insert {T : AMap String AsyncTable} {name : String} {t t' : AsyncTable} (h : T.get? name = some t)
    (hs : ∀ i ∈ t.w.accepted, i ∈ t'.w.accepted) : More T (T.insert name t') := by
  rintro ⟨n, k⟩ ⟨t1, h1, i, h2, h3⟩
  by_cases he : n = name
  · subst he
    have : t1 = t := by simpa [h] using h1.symm
    subst this
    exact ⟨t', by simp, i, hs i h2, h3⟩
  · exact ⟨t1, by simp only [AMap.get?_insert, he, if_false]; exact h1, i, h2, h3⟩

theorem More.rfl {T : AMap String AsyncTable} : More T T := fun _ h => h

/-! ### Calls of reactors -/

theorem setFinished_of {T : AMap String AsyncTable} {reqs : List InsertReq × Bool} {s : Nat} {r : InsReactor} (c : Option Code)
    (hf : r.finished = none) (hc : r.responses = [] ∨ c ≠ none) (gone : r.gone = true → r.reading = false)
    (canc : r.cancelled = true → r.stillReading = false) (one : ∃ n0, ∀ name, waits T s name ≤ if name = n0 then 1 else 0)
    (idle : r.reading = true → ∀ name, waits T s name = 0) (conf : ∀ x ∈ r.sent, Taken T x)
    (calm : reqs.2 = false → r.cancelled = false ∧ (r.reading = true → r.stillReading = true) ∧ ∀ name, waits T s name = 0) :
    ∃ r', r.setFinished c = .ok r' ∧ SInv T reqs s r' ∧ r'.finished = some c := by
  refine ⟨{ r with responses := [], finished := some c }, ?_, ?_, _root_.rfl⟩
  · unfold InsReactor.setFinished
    rw [if_neg]
    rintro (g | ⟨g1, g2⟩)
    · simp [hf] at g
    · rcases hc with hc | hc
      · exact g1 hc
      · exact hc g2
  · exact ⟨fun _ => _root_.rfl, by simp, fun g => ⟨by simp, gone g⟩, canc, by simp, by simp, one, idle, by simp,
      fun x hx => conf x (by rcases hx with hx | ⟨l, hl, _⟩; exact hx; cases hl), fun g => ⟨(calm g).1, (calm g).2.1, fun _ => (calm g).2.2⟩⟩

theorem one_zero {T : AMap String AsyncTable} {s : Nat} (h : ∀ name, waits T s name = 0) :
    ∃ n0, ∀ name, waits T s name ≤ if name = n0 then 1 else 0 := ⟨"", fun name => by rw [h]; exact Nat.zero_le _⟩

/-- The end of the requests. -/
theorem readEnd_ok {T : AMap String AsyncTable} {reqs reqs' : List InsertReq × Bool} {s : Nat} {r : InsReactor} (h : SInv T reqs s r) (hr : r.reading = true)
    (hq : reqs' = reqs ∨ (r.finished ≠ none ∧ reqs'.2 = reqs.2)) : ∃ r', ({ r with reading := false } : InsReactor).readEnd = .ok r' ∧ SInv T reqs' s r' := by
  have hq2 : reqs'.2 = reqs.2 := by
    rcases hq with hq | hq
    · rw [hq]
    · exact hq.2
  unfold InsReactor.readEnd
  simp only
  split
  · rename_i hc
    obtain ⟨r', h1, h2, _⟩ := setFinished_of (T := T) (reqs := reqs') (s := s) (r := { r with reading := false, stillReading := false }) none hc.2
      (Or.inl hc.1) (fun _ => _root_.rfl) (fun _ => _root_.rfl) h.one (by simp) (fun x hx => h.conf x (Or.inl hx))
      (fun g => ⟨(h.calm (hq2 ▸ g)).1, by simp, h.idle hr⟩)
    exact ⟨r', h1, h2⟩
  · rename_i hc
    refine ⟨_, _root_.rfl, h.fin, h.wr, fun g => ⟨(h.gone g).1, _root_.rfl⟩, fun _ => _root_.rfl, ?_, ?_, h.one, by simp, by simp, h.conf,
      fun g => ⟨(h.calm (hq2 ▸ g)).1, by simp, fun _ => h.idle hr⟩⟩
    · intro hf
      rcases hq with hq | hq
      · rw [hq]; exact h.cache hf
      · exact absurd hf hq.1
    · intro hf _ _ he
      exact hc ⟨he, hf⟩

/-- A write is done. -/
theorem onWrite_ok {T : AMap String AsyncTable} {reqs reqs' : List InsertReq × Bool} {s : Nat} {r : InsReactor} (h : SInv T reqs s r) (hw : r.writing = true)
    (ok : Bool) (hq : reqs'.1 = reqs.1) (hq2 : reqs'.2 = false → reqs.2 = false ∧ ok = true) : ∃ r', r.onWrite ok = .ok r' ∧ SInv T reqs' s r' := by
  unfold InsReactor.onWrite
  simp only
  split
  · rename_i hf
    have hf' : r.finished ≠ none := by intro e; simp [e] at hf
    exact ⟨_, _root_.rfl, h.fin, fun e => absurd e hf', h.gone, h.canc, by rw [hq]; exact h.cache, h.half, h.one, h.idle, h.act, h.conf,
      fun g => h.calm (hq2 g).1⟩
  · rename_i hf
    have hf' : r.finished = none := by simpa using hf
    have hg : r.gone = true → r.reading = false := fun g => (h.gone g).2
    have hc' : ∀ x ∈ r.sent, Taken T x := fun x hx => h.conf x (Or.inl hx)
    split
    · obtain ⟨r', h1, h2, _⟩ := setFinished_of (T := T) (reqs := reqs') (s := s) (r := { r with writing := false }) (some .internal) hf'
        (Or.inr (by simp)) hg h.canc h.one h.idle hc' (fun g => by have := (hq2 g).2; simp_all)
      exact ⟨r', h1, h2⟩
    · have hne := (h.wr hf').mp hw
      obtain ⟨a, l, hal⟩ := List.exists_cons_of_ne_nil hne
      split
      · rename_i hc
        obtain ⟨r', h1, h2, _⟩ := setFinished_of (T := T) (reqs := reqs') (s := s) (r := { r with writing := false, responses := r.responses.tail }) none hf'
          (Or.inl hc.2) hg h.canc h.one h.idle hc'
          (fun g => ⟨(h.calm (hq2 g).1).1, (h.calm (hq2 g).1).2.1, (h.calm (hq2 g).1).2.2 (Or.inr (by simpa using hc.1))⟩)
        exact ⟨r', h1, h2⟩
      · rename_i hc
        unfold InsReactor.maybeSend
        simp only [hal, List.tail_cons] at hc ⊢
        have hsub : ∀ x, (x ∈ r.sent ∨ ∃ m ∈ l, x ∈ m) → Taken T x := by
          rintro x (hx | ⟨m, hm, hx⟩)
          · exact hc' x hx
          · exact h.conf x (Or.inr ⟨m, by rw [hal]; exact List.mem_cons_of_mem _ hm, hx⟩)
        cases l with
        | nil =>
          refine ⟨_, _root_.rfl, fun _ => _root_.rfl, by simp, h.gone, h.canc, by rw [hq]; exact h.cache, ?_, h.one, h.idle, h.act, hsub, fun g => h.calm (hq2 g).1⟩
          intro _ h2 _
          exact absurd ⟨by simpa using h2, _root_.rfl⟩ hc
        | cons b l =>
          simp only [hf', Option.isSome_none, Bool.false_eq_true, if_false]
          refine ⟨_, _root_.rfl, ?_, by simp, fun g => absurd hf' (h.gone g).1, h.canc, fun _ => by rw [hq]; exact h.cache hf', by simp, h.one, h.idle, fun _ => h.act hf', ?_, ?_⟩
          · intro e; exact absurd _root_.rfl e
          · rintro x (hx | hx)
            · rcases List.mem_append.mp hx with hx | hx
              · exact hc' x hx
              · exact hsub x (Or.inr ⟨b, by simp, hx⟩)
            · exact hsub x (Or.inr hx)
          · intro g
            have := h.calm (hq2 g).1
            exact ⟨this.1, this.2.1, fun e => this.2.2 (Or.inr (by rcases e with e | e; exact absurd _root_.rfl e; exact e))⟩

theorem onCancel_ok {T : AMap String AsyncTable} {reqs reqs' : List InsertReq × Bool} {s : Nat} {r : InsReactor} (h : SInv T reqs s r)
    (hq : reqs'.1 = reqs.1) (hq2 : reqs'.2 = true) : SInv T reqs' s r.onCancel :=
  ⟨h.fin, h.wr, h.gone, fun _ => _root_.rfl, by rw [hq]; exact h.cache, by simp [InsReactor.onCancel], h.one, h.idle, by simp [InsReactor.onCancel], h.conf,
    by simp [hq2]⟩

theorem done_ok {T : AMap String AsyncTable} {reqs : List InsertReq × Bool} {s : Nat} {r : InsReactor} (h : SInv T reqs s r) (h1 : r.finished ≠ none)
    (h2 : r.reading = false) : SInv T reqs s { r with gone := true } :=
  ⟨h.fin, h.wr, fun _ => ⟨h1, h2⟩, h.canc, h.cache, h.half, h.one, h.idle, h.act, h.conf, h.calm⟩

/-- The callback of a table. -/
theorem onContinue_ok {T T' : AMap String AsyncTable} {reqs : List InsertReq × Bool} {s : Nat} {r : InsReactor} (h : SInv T reqs s r) (hm : More T T')
    (hr : r.reading = false) (h0 : ∀ name, waits T' s name = 0) (st : Option Code) : ∃ r', r.onContinue st = .ok r' ∧ SInv T' reqs s r' := by
  have hc : ∀ x, (x ∈ r.sent ∨ ∃ l ∈ r.responses, x ∈ l) → Taken T' x := fun x hx => hm x (h.conf x hx)
  cases st with
  | some e =>
    simp only [InsReactor.onContinue]
    split
    · rename_i hf
      have hf' : r.finished ≠ none := by intro e; simp [e] at hf
      exact ⟨r, _root_.rfl, h.fin, h.wr, h.gone, h.canc, h.cache, h.half, one_zero h0, fun _ => h0, fun e => absurd e hf', hc,
        fun g => ⟨(h.calm g).1, (h.calm g).2.1, fun _ => h0⟩⟩
    · rename_i hf
      have hf' : r.finished = none := by simpa using hf
      obtain ⟨r', h1, h2, _⟩ := setFinished_of (T := T') (reqs := reqs) (s := s) (r := r) (some e) hf'
        (Or.inr (by simp)) (fun _ => hr) h.canc (one_zero h0) (fun _ => h0) (fun x hx => hc x (Or.inl hx))
        (fun g => ⟨(h.calm g).1, (h.calm g).2.1, h0⟩)
      exact ⟨r', h1, h2⟩
  | none =>
    simp only [InsReactor.onContinue, InsReactor.maybeStartRead, InsReactor.startRead, hr, Bool.false_eq_true, if_false]
    split
    · rename_i hx
      refine ⟨_, _root_.rfl, h.fin, h.wr, ?_, h.canc, h.cache, h.half, one_zero h0, fun _ => h0, fun _ _ => Or.inl _root_.rfl, hc,
        fun g => ⟨(h.calm g).1, fun _ => hx.1, fun _ => h0⟩⟩
      intro g
      exact absurd hx.2.2 (h.gone g).1
    · rename_i hx
      refine ⟨r, _root_.rfl, h.fin, h.wr, h.gone, h.canc, h.cache, h.half, one_zero h0, fun _ => h0, ?_, hc,
        fun g => ⟨(h.calm g).1, (h.calm g).2.1, fun _ => h0⟩⟩
      intro hf hs
      refine absurd ⟨hs, ?_, hf⟩ hx
      intro g
      rw [h.canc g] at hs
      cases hs

theorem addLast_mem {x : String × Key} : ∀ {l : List (List (String × Key))} {y : String × Key}, (∃ m ∈ InsReactor.addLast x l, y ∈ m) →
    y = x ∨ ∃ m ∈ l, y ∈ m
  | [], y, h => by obtain ⟨m, hm, _⟩ := h; cases hm
  | [a], y, h => by
    obtain ⟨m, hm, hy⟩ := h
    simp only [InsReactor.addLast, List.mem_singleton] at hm
    subst hm
    rcases List.mem_append.mp hy with hy | hy
    · exact Or.inr ⟨a, by simp, hy⟩
    · exact Or.inl (by simpa using hy)
  | a :: b :: l, y, h => by
    obtain ⟨m, hm, hy⟩ := h
    simp only [InsReactor.addLast, List.mem_cons] at hm
    rcases hm with hm | hm
    · exact Or.inr ⟨a, by simp, hm ▸ hy⟩
    · rcases addLast_mem (l := b :: l) ⟨m, by simpa using hm, hy⟩ with e | ⟨m', h1, h2⟩
      · exact Or.inl e
      · exact Or.inr ⟨m', List.mem_cons_of_mem _ h1, h2⟩

theorem addLast_length {x : String × Key} : ∀ (l : List (List (String × Key))), (InsReactor.addLast x l).length = l.length
  | [] => rfl
  | [a] => rfl
  | a :: b :: l => by simp only [InsReactor.addLast, List.length_cons]; rw [addLast_length (b :: l)]; rfl

/-- A confirmation is added. -/
theorem addConfirmation_ok {T : AMap String AsyncTable} {reqs : List InsertReq × Bool} {s : Nat} {r : InsReactor} (h : SInv T reqs s r)
    (hf : r.finished = none) {x : String × Key} (hx : Taken T x) : ∃ r', r.addConfirmation x = .ok r' ∧ SInv T reqs s r' := by
  unfold InsReactor.addConfirmation
  simp only
  by_cases h0 : r.responses = []
  · have hw : r.writing = false := by
      cases hw : r.writing with
      | false => rfl
      | true => exact absurd h0 ((h.wr hf).mp hw)
    simp only [h0, List.length_nil, Nat.zero_lt_succ, if_true, List.nil_append, List.length_singleton, InsReactor.maybeSend, hf,
      Option.isSome_none, Bool.false_eq_true, if_false, hw]
    refine ⟨_, rfl, fun e => absurd rfl e, by simp, fun g => absurd hf (h.gone g).1, h.canc, fun _ => h.cache hf, by simp, h.one, h.idle, fun _ => h.act hf, ?_,
      fun g => ⟨(h.calm g).1, (h.calm g).2.1, fun e => (h.calm g).2.2 (Or.inr (by rcases e with e | e; exact absurd rfl e; exact e))⟩⟩
    rintro y (hy | ⟨l, hl, hy⟩)
    · rcases List.mem_append.mp hy with hy | hy
      · exact h.conf y (Or.inl hy)
      · simp only [List.mem_singleton] at hy; rw [hy]; exact hx
    · simp only [List.mem_singleton] at hl
      rw [hl, List.mem_singleton] at hy; rw [hy]; exact hx
  · have hw : r.writing = true := (h.wr hf).mpr h0
    obtain ⟨resp, hresp⟩ : ∃ resp, (if r.responses.length < 2 then r.responses ++ [[x]] else InsReactor.addLast x r.responses) = resp := ⟨_, rfl⟩
    have hlen : 2 ≤ resp.length := by
      have := List.length_pos_iff.mpr h0
      rw [← hresp]
      split
      · simp; omega
      · rw [addLast_length]; omega
    have hmem : ∀ y, (∃ m ∈ resp, y ∈ m) → y = x ∨ ∃ m ∈ r.responses, y ∈ m := by
      intro y hy
      rw [← hresp] at hy
      split at hy
      · obtain ⟨m, hm, hy⟩ := hy
        rcases List.mem_append.mp hm with hm | hm
        · exact Or.inr ⟨m, hm, hy⟩
        · simp only [List.mem_singleton] at hm
          rw [hm, List.mem_singleton] at hy
          exact Or.inl hy
      · exact addLast_mem hy
    simp only [hresp]
    rw [if_neg (by omega)]
    have hne : resp ≠ [] := by intro e; simp [e] at hlen
    refine ⟨_, rfl, fun e => absurd hf e, fun _ => by simp [hw, hne], h.gone, h.canc, h.cache, fun _ _ _ => hne, h.one, h.idle, h.act, ?_, h.calm⟩
    rintro y (hy | hy)
    · exact h.conf y (Or.inl hy)
    · rcases hmem y hy with e | e
      · rw [e]; exact hx
      · exact h.conf y (Or.inr e)

theorem releaseChunks_async {cache : Cache} {keep : List Key} (h : ∀ k ∈ keep, k ∈ cache.keys) (hn : keep.Nodup) :
    releaseChunks .async cache keep = some (cache.keep keep) := by
  unfold releaseChunks
  rw [if_pos]
  show (cache.keep keep).entries.length = keep.length
  rw [← List.length_map (f := Prod.fst)]
  refine length_eq_of_nodup_of_mem (cache.keep keep).nodup hn fun k => ?_
  show k ∈ (cache.keep keep).keys ↔ _
  rw [AMap.mem_keys_keep]
  exact ⟨fun g => g.1, fun g => ⟨g, h k g⟩⟩

/-! ### Requests -/

theorem requests_append (s : Nat) (evs : List Event) (e : Event) (h : ∀ r, e ≠ .read s (some r)) : requests s (evs ++ [e]) = requests s evs := by
  simp only [requests, List.filterMap_append]
  cases e with
  | read s' q =>
    cases q with
    | none => simp
    | some q =>
      by_cases hs : s' = s
      · subst hs; exact absurd rfl (h q)
      · simp [hs]
  | _ => simp

theorem hist_other (s : Nat) (evs : List Event) (e : Event) (h : ∀ r, e ≠ .read s (some r)) (hd : disturbs s e = false) : hist s (evs ++ [e]) = hist s evs := by
  simp only [hist, requests_append s evs e h, List.any_append, List.any_cons, hd, List.any_nil, Bool.or_false]

theorem requests_read (s : Nat) (evs : List Event) (q : InsertReq) : requests s (evs ++ [.read s (some q)]) = requests s evs ++ [q] := by
  simp [requests]

/-- An item is given to a table. -/
theorem giveItem_ok {evs evs' : List Event} {v : AsyncServer} (h : AInv evs v) {s : Nat} {r : InsReactor} {it : InsertItem} {chs : List ChunkData}
    (hr : ∀ s', s' ≠ s → hist s' evs' = hist s' evs) (h0 : ∀ name, waits v.tables s name = 0) (hrd : r.reading = false)
    (hf : r.finished = none)
    (hs : ∀ T' : AMap String AsyncTable, More v.tables T' → (∃ n0, ∀ name, waits T' s name ≤ if name = n0 then 1 else 0) →
      ∀ b, (b = true → ∀ name, waits T' s name = 0) → (b = true ∨ ∃ name, 0 < waits T' s name) → SInv T' (hist s evs') s { r with reading := b }) :
    AInv evs' (v.giveItem s r it chs) := by
  unfold giveItem
  have hbase : ∀ c : Code, ∃ r', r.setFinished (some c) = .ok r' ∧ SInv v.tables (hist s evs') s r' ∧ r'.finished = some (some c) := by
    intro c
    have := hs v.tables More.rfl (one_zero h0) true (fun _ => h0) (Or.inl rfl)
    exact setFinished_of (T := v.tables) (reqs := hist s evs') (s := s) (r := r) (some c) hf (Or.inr (by simp)) (fun _ => hrd) this.canc (one_zero h0)
      (fun _ => h0) (fun x hx => this.conf x (Or.inl hx)) (fun g => ⟨(this.calm g).1, by simp [hrd], h0⟩)
  have hend : ∀ c : Code, AInv evs' (v.put s (r.setFinished (some c))) := by
    intro c
    obtain ⟨r', h1, h2, _⟩ := hbase c
    rw [h1]
    have := h.put h.tables More.rfl (s := s) (fun _ _ _ => rfl) hr h2
    simpa only [put, h.alive] using this
  split
  · exact hend _
  · rename_i t ht
    split
    · rename_i hv
      have hT : TInv (v.tables.insert it.table { t with w := Worker.enqueueInsert t.w (it.toItem chs) s }) := by
        have hl := h.tables.live _ _ ht
        have hstep : Worker.step t.w (.insert (it.toItem chs) s) = some (Worker.enqueueInsert t.w (it.toItem chs) s) := by
          unfold Worker.step; rw [if_neg (by simp [hl])]
        refine h.tables.insert ((h.tables.calls _ _ ht).step hstep) ?_
        show (Worker.enqueueInsert t.w (it.toItem chs) s).dead = false
        unfold Worker.enqueueInsert
        rw [if_pos hv]
        split <;> exact hl
      have hacc : (Worker.enqueueInsert t.w (it.toItem chs) s).accepted = t.w.accepted ++ [it.toItem chs] := by
        unfold Worker.enqueueInsert
        rw [if_pos hv]
        split <;> rfl
      have hm : More v.tables (v.tables.insert it.table { t with w := Worker.enqueueInsert t.w (it.toItem chs) s }) :=
        More.insert ht fun i hi => by show i ∈ (Worker.enqueueInsert t.w (it.toItem chs) s).accepted; rw [hacc]; exact List.mem_append_left _ hi
      have hw : ∀ s' name, waits (v.tables.insert it.table { t with w := Worker.enqueueInsert t.w (it.toItem chs) s }) s' name =
          waits v.tables s' name + if name = it.table then (if canInsertMore t.w then 0 else if s' = s then 1 else 0) else 0 := by
        intro s' name
        rw [waits_insert]
        by_cases hn : name = it.table
        · subst hn
          rw [if_pos rfl, if_pos rfl, waits_some ht, pend_insert hv]
        · rw [if_neg hn, if_neg hn, Nat.add_zero]
      obtain ⟨T', hT'⟩ : ∃ T', v.tables.insert it.table { t with w := Worker.enqueueInsert t.w (it.toItem chs) s } = T' := ⟨_, rfl⟩
      have htk : Taken T' (it.table, it.key) := by
        rw [← hT']
        refine ⟨_, AMap.get?_insert_self .., it.toItem chs, ?_, rfl⟩
        show _ ∈ (Worker.enqueueInsert t.w (it.toItem chs) s).accepted
        rw [hacc]; simp
      rw [hT'] at hT hm hw ⊢
      have hother : ∀ s', s' ≠ s → ∀ name, waits T' s' name = waits v.tables s' name := by
        intro s' hne name
        rw [hw]; simp [hne]
      have hbo : SInv T' (hist s evs') s { r with reading := canInsertMore t.w } := by
        refine hs T' hm ⟨it.table, fun name => ?_⟩ _ ?_ ?_
        · rw [hw, h0]; split
          · split <;> simp
          · simp
        · intro e name; rw [hw, h0]; simp [e]
        · cases e : canInsertMore t.w
          · exact Or.inr ⟨it.table, by rw [hw, h0]; simp [e]⟩
          · exact Or.inl rfl
      have hres : ∃ r', r.accepted (canInsertMore t.w) it = .ok r' ∧ SInv T' (hist s evs') s r' := by
        unfold InsReactor.accepted
        have hread : (if canInsertMore t.w then r.startRead else .ok r) = .ok { r with reading := canInsertMore t.w } := by
          cases e : canInsertMore t.w
          · obtain ⟨_, _, _, _, _, rd, _, _, _⟩ := r
            simp only at hrd; subst hrd; rfl
          · simp [InsReactor.startRead, hrd]
        rw [hread]
        simp only
        split
        · exact addConfirmation_ok hbo hf htk
        · exact ⟨_, rfl, hbo⟩
      obtain ⟨r', h1, h2⟩ := hres
      rw [h1]
      have := h.put hT hm (s := s) hother hr h2
      simpa only [put, h.alive] using this
    · exact hend _

/-- A request is processed. -/
theorem process_ok {evs : List Event} {v : AsyncServer} (h : AInv evs v) {s : Nat} {r : InsReactor} (hs : v.streams.get? s = some r)
    (hrd : r.reading = true) (hf : r.finished = none) (q : InsertReq) :
    AInv (evs ++ [.read s (some q)]) (v.process s { r with reading := false } q) ∨
      ((v.process s { r with reading := false } q) = { v with dead := true } ∧ ¬ q.Strict (requests s evs)) := by
  have hr : ∀ s', s' ≠ s → hist s' (evs ++ [.read s (some q)]) = hist s' evs := by
    intro s' hne
    apply hist_other
    · intro r' e
      cases e
      exact hne rfl
    · rfl
  have hh : (hist s (evs ++ [.read s (some q)])).2 = (hist s evs).2 := by simp [hist, disturbs]
  have hh1 : (hist s (evs ++ [.read s (some q)])).1 = requests s evs ++ [q] := requests_read s evs q
  have hi := h.streams s r hs
  have h0 := hi.idle hrd
  -- the stream with another cache, reading or not
  have hset : ∀ (cache : Cache), (∀ k, k ∈ cache.keys ↔ k ∈ kept (hist s (evs ++ [.read s (some q)])).1) →
      ∀ T' : AMap String AsyncTable, More v.tables T' → (∃ n0, ∀ name, waits T' s name ≤ if name = n0 then 1 else 0) →
      ∀ b, (b = true → ∀ name, waits T' s name = 0) → (b = true ∨ ∃ name, 0 < waits T' s name) →
      SInv T' (hist s (evs ++ [.read s (some q)])) s { r with cache := cache, reading := b } := by
    intro cache hk T' hm hone b hb1 hb2
    exact ⟨hi.fin, hi.wr, fun g => absurd hf (hi.gone g).1, hi.canc, fun _ => hk, hi.half, hone, hb1, fun _ _ => hb2, fun x hx => hm x (hi.conf x hx),
      fun g => ⟨(hi.calm (hh ▸ g)).1, fun _ => (hi.calm (hh ▸ g)).2.1 hrd, fun e => by
        have := (hi.calm (hh ▸ g)).2.1 hrd
        rcases e with e | e
        · exact absurd hf e
        · simp [this] at e⟩⟩
  have hfin : ∀ (cache : Cache) (c : Code), AInv (evs ++ [.read s (some q)])
      (v.put s (({ r with reading := false, cache := cache } : InsReactor).setFinished (some c))) := by
    intro cache c
    obtain ⟨r', h1, h2, _⟩ := setFinished_of (T := v.tables) (reqs := hist s (evs ++ [.read s (some q)])) (s := s)
      (r := { r with reading := false, cache := cache }) (some c) hf (Or.inr (by simp)) (fun _ => rfl) hi.canc (one_zero h0)
      (fun _ => h0) (fun x hx => hi.conf x (Or.inl hx)) (fun g => ⟨(hi.calm (hh ▸ g)).1, by simp, h0⟩)
    rw [h1]
    have := h.put h.tables More.rfl (s := s) (fun _ _ _ => rfl) hr h2
    simpa only [put, h.alive] using this
  unfold process
  split
  · rename_i hc
    refine Or.inr ⟨rfl, fun hs => ?_⟩
    rcases hs.2.2 with g | g
    · exact g hc.1
    · exact g hc.2
  · simp only
    split
    · rename_i hit
      refine Or.inl ?_
      simp only [InsReactor.startRead, Bool.false_eq_true, if_false]
      have := h.put h.tables More.rfl (s := s) (fun _ _ _ => rfl) hr
        (hset (saveChunks .async r.cache q.chunks) (fun k => by
          rw [saveChunks_keys, hi.cache hf, hh1, kept_snoc, keptStep, hit]; simp [hist]) v.tables More.rfl (one_zero h0) true (fun _ => h0) (Or.inl rfl))
      simpa only [put, h.alive] using this
    · rename_i it hit
      split
      · exact Or.inl (hfin _ _)
      · rename_i chs hfc
        split
        · rename_i hrel
          refine Or.inr ⟨rfl, fun hst => ?_⟩
          rw [releaseChunks_async] at hrel
          · cases hrel
          · intro k hk
            rw [saveChunks_keys, hi.cache hf]
            exact hst.1 it hit k hk
          · exact hst.2.1 it hit
        · rename_i cache hrel
          refine Or.inl ?_
          refine giveItem_ok h hr h0 rfl hf (hset cache ?_)
          intro k
          rw [releaseChunks_keys hrel, hh1, kept_snoc, keptStep, hit]

/-- Who is to blame for a death: a request that is not as it should be, the table itself, or a call of a stream that is gone. -/
def Blame (evs : List Event) (v : AsyncServer) : Event → Prop
  | .read s (some q) => ¬ q.Strict (requests s evs)
  | .table name a => ∃ t w', v.tables.get? name = some t ∧ Worker.step t.w a = some w' ∧ w'.dead = true
  | .call name i => ∃ t s st r, v.tables.get? name = some t ∧ t.calling[i]? = some (s, st) ∧ v.streams.get? s = some r ∧ r.gone = true
  | _ => False

theorem AInv.set {evs : List Event} {v : AsyncServer} (h : AInv evs v) {e : Event} {s : Nat} (hr : ∀ s', s' ≠ s → hist s' (evs ++ [e]) = hist s' evs)
    {x : Res InsReactor} (hx : ∃ r', x = .ok r' ∧ SInv v.tables (hist s (evs ++ [e])) s r') : AInv (evs ++ [e]) (v.put s x) := by
  obtain ⟨r', rfl, h2⟩ := hx
  have := h.put (evs' := evs ++ [e]) h.tables More.rfl (s := s) (fun _ _ _ => rfl) hr h2
  simpa only [AsyncServer.put, h.alive] using this

/-- The weak pointer of a callback is locked. -/
theorem lock_ok {evs evs' : List Event} {v : AsyncServer} (h : AInv evs v) (hq : ∀ s, hist s evs' = hist s evs) {name : String}
    {t : AsyncTable} (ht : v.tables.get? name = some t) {i : Nat} {o : Worker.Out} (ho : t.todo[i]? = some o) :
    AInv evs' (v.lock name { t with todo := t.todo.eraseIdx i } o) := by
  have hT : ∀ cs, TInv (v.tables.insert name { t with todo := t.todo.eraseIdx i, calling := cs }) := by
    intro cs
    have h1 := h.tables.calls _ _ ht
    have h2 := h.tables.live _ _ ht
    exact h.tables.insert h1 h2
  have hm : ∀ cs, More v.tables (v.tables.insert name { t with todo := t.todo.eraseIdx i, calling := cs }) := fun cs => More.insert ht fun _ hi => hi
  have hva := h.alive
  have hd : ∀ s, _ := pend_deliver ho
  cases o with
  | answer a b =>
    have := h.same (evs' := evs') (hT t.calling) (hm t.calling) (fun s n => by
      rw [waits_insert]
      split
      · rename_i hn; subst hn; rw [waits_some ht, ← hd s]; simp [callbacks]
      · rfl) hq
    simpa only [lock, hva] using this
  | notify s st =>
    have hcb : ∀ s', ((callbacks [Worker.Out.notify s st]).map Prod.fst).count s' = if s' = s then 1 else 0 := by
      intro s'
      by_cases e : s' = s
      · simp [callbacks, e]
      · simp [callbacks, e, Ne.symm e]
    simp only [hcb] at hd
    unfold lock
    simp only
    cases he : v.exists? s with
    | true =>
      have := h.same (evs' := evs') (hT (t.calling ++ [(s, st)])) (hm _) (fun s' n => by
        rw [waits_insert]
        split
        · rename_i hn; subst hn
          rw [waits_some ht, ← hd s']
          exact pend_lock { t with todo := t.todo.eraseIdx i } s st s'
        · rfl) hq
      simpa only [hva, if_true] using this
    | false =>
      simp only [Bool.false_eq_true, if_false]
      have hT1 := hT t.calling
      have hm1 := hm t.calling
      have hw : ∀ s' n, waits (v.tables.insert name { t with todo := t.todo.eraseIdx i }) s' n + (if n = name ∧ s' = s then 1 else 0) = waits v.tables s' n := by
        intro s' n
        rw [waits_insert]
        by_cases hn : n = name
        · subst hn
          simp only [if_true, true_and]
          rw [waits_some ht]; exact hd s'
        · simp [hn]
      have hother : ∀ s', s' ≠ s → ∀ n, waits (v.tables.insert name { t with todo := t.todo.eraseIdx i }) s' n = waits v.tables s' n := by
        intro s' hne n
        have := hw s' n
        simpa [hne] using this
      have hself : ∀ n, waits (v.tables.insert name { t with todo := t.todo.eraseIdx i }) s n + (if n = name then 1 else 0) = waits v.tables s n := by
        intro n; have := hw s n; simpa using this
      unfold exists? at he
      split at he
      · rename_i hs
        have := (h.fresh s hs).2 name
        have h1 := hself name
        rw [if_pos rfl] at h1
        omega
      · rename_i r hs
        have hg : r.gone = true := by simpa using he
        have hi := h.streams s r hs
        have hgone := hi.gone hg
        refine ⟨hva, hT1, fun s' hs' => ?_, fun s' r1 hs' => ?_⟩
        · rw [hq]
          have hne : s' ≠ s := by rintro rfl; simp only [hs] at hs'; cases hs'
          exact ⟨(h.fresh s' hs').1, fun n => by rw [hother s' hne]; exact (h.fresh s' hs').2 n⟩
        · rw [hq]
          by_cases hne : s' = s
          · subst hne
            have hr1 : r1 = r := by simpa [hs] using hs'.symm
            subst hr1
            refine ⟨hi.fin, hi.wr, hi.gone, hi.canc, hi.cache, hi.half, ?_, fun e => ?_, fun e => absurd e hgone.1, fun x hx => hm1 x (hi.conf x hx),
              fun g => ⟨(hi.calm g).1, (hi.calm g).2.1, fun e n => Nat.eq_zero_of_le_zero (by rw [← (hi.calm g).2.2 e n]; exact Nat.le.intro (hself n))⟩⟩
            · obtain ⟨n0, hn0⟩ := hi.one
              exact ⟨n0, fun n => Nat.le_trans (Nat.le.intro (hself n)) (hn0 n)⟩
            · rw [hgone.2] at e; cases e
          · exact (h.streams s' r1 hs').mono hm1 (hother s' hne)

/-- A callback is called. -/
theorem callBack_ok {evs evs' : List Event} {v : AsyncServer} (h : AInv evs v) (hq : ∀ s, hist s evs' = hist s evs) {name : String}
    {t : AsyncTable} (ht : v.tables.get? name = some t) {i : Nat} {s : Nat} {st : Worker.Status} (ho : t.calling[i]? = some (s, st)) :
    AInv evs' (({ v with tables := v.tables.insert name { t with calling := t.calling.eraseIdx i } } : AsyncServer).callBack s st) ∨
      ((({ v with tables := v.tables.insert name { t with calling := t.calling.eraseIdx i } } : AsyncServer).callBack s st).dead = true ∧
        ∃ r, v.streams.get? s = some r ∧ r.gone = true) := by
  have hT : TInv (v.tables.insert name { t with calling := t.calling.eraseIdx i }) := by
    have h1 := h.tables.calls _ _ ht
    have h2 := h.tables.live _ _ ht
    exact h.tables.insert h1 h2
  have hm : More v.tables (v.tables.insert name { t with calling := t.calling.eraseIdx i }) := More.insert ht fun _ hi => hi
  have hw : ∀ s' n, waits (v.tables.insert name { t with calling := t.calling.eraseIdx i }) s' n +
      (if n = name then (if s' = s then 1 else 0) else 0) = waits v.tables s' n := by
    intro s' n
    rw [waits_insert]
    by_cases hn : n = name
    · subst hn
      rw [if_pos rfl, if_pos rfl, waits_some ht, ← pend_call ho]
    · rw [if_neg hn, if_neg hn, Nat.add_zero]
  obtain ⟨T', hT'⟩ : ∃ T', v.tables.insert name { t with calling := t.calling.eraseIdx i } = T' := ⟨_, rfl⟩
  rw [hT'] at hT hm hw ⊢
  have hva := h.alive
  have hother : ∀ s', s' ≠ s → ∀ n, waits T' s' n = waits v.tables s' n := by
    intro s' hne n
    have := hw s' n
    simpa [hne] using this
  have hself : ∀ n, waits T' s n + (if n = name then 1 else 0) = waits v.tables s n := by
    intro n; have := hw s n; simpa using this
  unfold callBack
  simp only
  split
  · rename_i hs
    have := (h.fresh s hs).2 name
    have h1 := hself name
    rw [if_pos rfl] at h1
    omega
  · rename_i r hs
    split
    · rename_i hg
      exact Or.inr ⟨rfl, r, hs, hg⟩
    · refine Or.inl ?_
      have hi := h.streams s r hs
      have h0 : ∀ n, waits T' s n = 0 := by
        intro n
        obtain ⟨n0, hn0⟩ := hi.one
        have e1 := hself name
        have e2 := hself n
        have e3 := hn0 name
        have e4 := hn0 n
        rw [if_pos rfl] at e1
        by_cases hn : n = name
        · subst hn
          split at e3 <;> omega
        · rw [if_neg hn] at e2
          split at e3
          · rename_i e; rw [if_neg (by rw [← e]; exact hn)] at e4; omega
          · omega
      have hrd : r.reading = false := by
        cases e : r.reading with
        | false => rfl
        | true =>
          have e1 := hself name
          rw [if_pos rfl, hi.idle e name] at e1
          omega
      obtain ⟨r', h1, h2⟩ := onContinue_ok (T' := T') hi hm hrd h0 st
      rw [h1]
      rw [← hq s] at h2
      have := h.put (evs' := evs') hT hm (s := s) hother (fun s' _ => hq s') h2
      simpa only [AsyncServer.put, hva] using this

theorem AInv.step {evs : List Event} {v v' : AsyncServer} {e : Event} (h : AInv evs v) (hs : v.step e = some v') :
    AInv (evs ++ [e]) v' ∨ (v'.dead = true ∧ Blame evs v e) := by
  unfold AsyncServer.step at hs
  rw [if_neg (by simp [h.alive])] at hs
  cases e with
  | start s =>
    simp only at hs
    split at hs
    · cases hs
    · rename_i hc
      cases hs
      have hn : v.streams.get? s = none := by
        simpa [AMap.contains] using hc
      refine Or.inl ?_
      have hsi : SInv v.tables (hist s (evs ++ [.start s])) s .make := by
        obtain ⟨h1, h2⟩ := h.fresh s hn
        rw [hist_other _ _ _ (by simp) rfl, h1]
        exact ⟨by simp [InsReactor.make], by simp [InsReactor.make], by simp [InsReactor.make], by simp [InsReactor.make],
          by simp [InsReactor.make, kept], by simp [InsReactor.make], one_zero h2, fun _ => h2, fun _ _ => Or.inl rfl, by simp [InsReactor.make], fun _ => ⟨rfl, fun _ => rfl, fun _ => h2⟩⟩
      exact h.set (e := .start s) (s := s) (x := .ok .make) (fun s' _ => hist_other _ _ _ (by simp) rfl) ⟨_, rfl, hsi⟩
  | read s q =>
    simp only at hs
    split at hs
    · cases hs
    · rename_i r hr
      split at hs
      · rename_i hrd
        cases hs
        have hi := h.streams s r hr
        unfold onRead
        cases q with
        | none => exact Or.inl (h.set (fun s' _ => hist_other _ _ _ (by simp) rfl) (readEnd_ok hi hrd (Or.inl (hist_other _ _ _ (by simp) rfl))))
        | some q =>
          simp only
          split
          · rename_i hf
            have hf' : r.finished ≠ none := by intro e; simp [e] at hf
            obtain ⟨r', h1, h2⟩ := readEnd_ok (reqs' := hist s (evs ++ [.read s (some q)])) hi hrd (Or.inr ⟨hf', by simp [hist, disturbs]⟩)
            rw [h1]
            refine Or.inl ?_
            have := h.put (evs' := evs ++ [.read s (some q)]) h.tables More.rfl (s := s) (fun _ _ _ => rfl)
              (fun s' hne => hist_other s' evs (.read s (some q)) (by intro r' e; cases e; exact hne rfl) rfl) h2
            simpa only [AsyncServer.put, h.alive] using this
          · rename_i hf
            rcases process_ok h hr hrd (by simpa using hf) q with h1 | ⟨h1, h2⟩
            · exact Or.inl h1
            · exact Or.inr ⟨by rw [h1], h2⟩
      · cases hs
  | write s ok =>
    simp only at hs
    split at hs
    · cases hs
    · rename_i r hr
      split at hs
      · rename_i hw
        cases hs
        refine Or.inl (h.set (fun s' hne => hist_other _ _ _ (by simp) (by simp [disturbs, Ne.symm hne])) (onWrite_ok (h.streams s r hr) hw ok ?_ ?_))
        · exact requests_append s evs _ (by simp)
        · intro g
          simp only [hist, List.any_append, List.any_cons, List.any_nil, Bool.or_false, Bool.or_eq_false_iff, disturbs] at g
          exact ⟨g.1, by simpa using g.2⟩
      · cases hs
  | cancel s =>
    simp only at hs
    split at hs
    · cases hs
    · rename_i r hr
      split at hs
      · cases hs
      · cases hs
        exact Or.inl (h.set (fun s' hne => hist_other _ _ _ (by simp) (by simp [disturbs, Ne.symm hne])) ⟨_, rfl, onCancel_ok (h.streams s r hr)
          (requests_append s evs _ (by simp)) (by simp [hist, disturbs])⟩)
  | done s =>
    simp only at hs
    split at hs
    · cases hs
    · rename_i r hr
      split at hs
      · rename_i hc
        cases hs
        exact Or.inl (h.set (fun s' _ => hist_other _ _ _ (by simp) rfl) ⟨_, rfl, done_ok (by rw [hist_other _ _ _ (by simp) rfl]; exact h.streams s r hr) (by intro e; simp [e] at hc) (by simpa using hc.2.1)⟩)
      · cases hs
  | table name a =>
    simp only at hs
    split at hs
    · cases hs
    · rename_i t ht
      split at hs
      · cases hs
      · rename_i hi
        have hi' : isInsert a = false := by simpa using hi
        split at hs
        · cases hs
        · rename_i w' hw'
          cases hs
          cases hd : w'.dead with
          | true => exact Or.inr ⟨rfl, t, w', ht, hw', hd⟩
          | false =>
            refine Or.inl ?_
            have hc := h.tables.calls _ _ ht
            refine h.same (h.tables.insert (hc.step hw') hd) (More.insert ht fun i hi => ?_) (fun s n => ?_) (fun s => hist_other s evs _ (by simp) rfl)
            · show i ∈ w'.accepted
              rw [(frame hw' hi').2.1]; exact hi
            · rw [waits_insert]
              split
              · rename_i hn
                subst hn
                rw [pend_step hc hw' hi', waits_some ht]
              · rfl
  | deliver name i =>
    simp only at hs
    split at hs
    · cases hs
    · rename_i t ht
      split at hs
      · cases hs
      · rename_i o ho
        cases hs
        exact Or.inl (lock_ok h (fun s => hist_other s evs _ (by simp) rfl) ht ho)
  | call name i =>
    simp only at hs
    split at hs
    · cases hs
    · rename_i t ht
      split at hs
      · cases hs
      · rename_i s st ho
        cases hs
        rcases callBack_ok (evs' := evs ++ [.call name i]) h (fun s => hist_other s evs _ (by simp) rfl) ht ho with g | ⟨g1, r, g2, g3⟩
        · exact Or.inl g
        · exact Or.inr ⟨g1, t, s, st, r, ht, ho, g2, g3⟩

theorem init_get (T : AMap String Table) (name : String) : (init T).tables.get? name = (T.get? name).map fun t => ⟨Worker.init t, [], []⟩ := by
  obtain ⟨l, hn⟩ := T
  simp only [init, AMap.get?]
  clear hn
  induction l with
  | nil => rfl
  | cons e l ih =>
    obtain ⟨a, b⟩ := e
    simp only [List.map_cons, List.lookup_cons]
    cases name == a
    · exact ih
    · rfl

theorem AInv.init (T : AMap String Table) : AInv [] (init T) := by
  have hz : ∀ s name, waits (AsyncServer.init T).tables s name = 0 := by
    intro s name
    unfold waits
    rw [init_get]
    cases T.get? name with
    | none => rfl
    | some t => simp [AsyncTable.pend, callbacks, Worker.init]
  refine ⟨rfl, ⟨fun name t ht => ?_, fun name t ht => ?_⟩, fun s _ => ⟨rfl, hz s⟩, fun s r hs => by cases hs⟩
  · rw [init_get] at ht
    obtain ⟨t0, _, rfl⟩ := Option.map_eq_some_iff.mp ht
    exact Worker.Calls.init t0
  · rw [init_get] at ht
    obtain ⟨t0, _, rfl⟩ := Option.map_eq_some_iff.mp ht
    rfl

theorem step_alive {v v' : AsyncServer} {e : Event} (h : v.step e = some v') : v.dead = false := by
  unfold AsyncServer.step at h
  cases hd : v.dead with
  | false => rfl
  | true => rw [if_pos hd] at h; cases h

theorem AInv.run {T : AMap String Table} {evs : List Event} {v : AsyncServer} (h : (AsyncServer.init T).run evs = some v) (hd : v.dead = false) : AInv evs v := by
  have := run_ind (P := fun evs v => v.dead = false → AInv evs v) (fun pre v e v' hp hs hd' => by
    rcases (hp (step_alive hs)).step hs with g | g
    · exact g
    · rw [hd'] at g; cases g.1) evs [] _ v (fun _ => AInv.init T) h hd
  simpa using this

/-! ### Tables -/

/-- Something is true of all workers. -/
def Tabs (P : String → W → Prop) (T : AMap String AsyncTable) : Prop := ∀ name t, T.get? name = some t → P name t.w

theorem Tabs.insert {P : String → W → Prop} {T : AMap String AsyncTable} (h : Tabs P T) {name : String} {t : AsyncTable} (hs : P name t.w) :
    Tabs P (T.insert name t) := by
  intro name' t' ht
  rw [AMap.get?_insert] at ht
  split at ht
  · cases ht; subst_vars; exact hs
  · exact h _ _ ht

/-- The calls of tables that an event makes fulfil a condition. -/
def Fits (ok : String → Act → Prop) : Event → Prop
  | .read s (some q) => ∀ it, q.item = some it → ∀ chs, ok it.table (.insert (it.toItem chs) s)
  | .table name a => ok name a
  | _ => True

theorem put_tables (v : AsyncServer) (s : Nat) (x : Res InsReactor) : (v.put s x).tables = v.tables := by
  cases x <;> rfl

theorem process_tabs {P : String → W → Prop} {ok : String → Act → Prop}
    (hstep : ∀ name w a w', P name w → ok name a → Worker.step w a = some w' → P name w') {v : AsyncServer} (h : Tabs P v.tables)
    (hl : TInv v.tables) (s : Nat) (r : InsReactor) {q : InsertReq} (hq : Fits ok (.read s (some q))) : Tabs P (v.process s r q).tables := by
  unfold process
  split
  · exact h
  · simp only
    split
    · rw [put_tables]; exact h
    · rename_i it hit
      split
      · rw [put_tables]; exact h
      · rename_i chs _
        split
        · exact h
        · unfold giveItem
          split
          · rw [put_tables]; exact h
          · rename_i t ht
            split
            · rw [put_tables]
              refine h.insert (hstep _ t.w (.insert (it.toItem chs) s) _ (h _ _ ht) (hq it hit chs) ?_)
              unfold Worker.step
              rw [if_neg (by simp [hl.live _ _ ht])]
            · rw [put_tables]; exact h

theorem Tabs.step {P : String → W → Prop} {ok : String → Act → Prop}
    (hstep : ∀ name w a w', P name w → ok name a → Worker.step w a = some w' → P name w') {v v' : AsyncServer} {e : Event} (h : Tabs P v.tables)
    (hl : TInv v.tables) (he : Fits ok e) (hs : v.step e = some v') : Tabs P v'.tables := by
  unfold AsyncServer.step at hs
  split at hs
  · cases hs
  · cases e with
    | start s =>
      simp only at hs
      split at hs
      · cases hs
      · cases hs; exact h
    | read s q =>
      simp only at hs
      split at hs
      · cases hs
      · split at hs
        · cases hs
          unfold onRead
          cases q with
          | none => rw [put_tables]; exact h
          | some q =>
            simp only
            split
            · rw [put_tables]; exact h
            · exact process_tabs hstep h hl _ _ he
        · cases hs
    | write s ok =>
      simp only at hs
      split at hs
      · cases hs
      · split at hs
        · cases hs; rw [put_tables]; exact h
        · cases hs
    | cancel s =>
      simp only at hs
      split at hs
      · cases hs
      · split at hs
        · cases hs
        · cases hs; exact h
    | done s =>
      simp only at hs
      split at hs
      · cases hs
      · split at hs
        · cases hs; exact h
        · cases hs
    | table name a =>
      simp only at hs
      split at hs
      · cases hs
      · rename_i t ht
        split at hs
        · cases hs
        · split at hs
          · cases hs
          · rename_i w' hw'
            cases hs
            have := hstep _ _ _ _ (h _ _ ht) he hw'
            exact h.insert this
    | deliver name i =>
      simp only at hs
      split at hs
      · cases hs
      · rename_i t ht
        split at hs
        · cases hs
        · rename_i o ho
          cases hs
          have : ∀ cs, Tabs P (v.tables.insert name { t with todo := t.todo.eraseIdx i, calling := cs }) := by
            intro cs
            have h1 := h _ _ ht
            exact h.insert h1
          unfold lock
          cases o with
          | answer a b => exact this _
          | notify s st => exact this _
    | call name i =>
      simp only at hs
      split at hs
      · cases hs
      · rename_i t ht
        split at hs
        · cases hs
        · rename_i s st ho
          cases hs
          have : Tabs P (v.tables.insert name { t with calling := t.calling.eraseIdx i }) := by
            have h1 := h _ _ ht
            exact h.insert h1
          unfold callBack
          simp only
          split
          · exact this
          · split
            · exact this
            · rw [put_tables]; exact this

theorem Tabs.init {P : String → W → Prop} {T : AMap String Table} (h : ∀ name t, T.get? name = some t → P name (Worker.init t)) :
    Tabs P (AsyncServer.init T).tables := by
  intro name t ht
  rw [init_get] at ht
  obtain ⟨t0, h0, rfl⟩ := Option.map_eq_some_iff.mp ht
  exact h _ _ h0

/-- While the server lives. -/
theorem Tabs.run {P : String → W → Prop} {ok : String → Act → Prop}
    (hstep : ∀ name w a w', P name w → ok name a → Worker.step w a = some w' → P name w') {T : AMap String Table} {evs : List Event}
    {v : AsyncServer} (h0 : ∀ name t, T.get? name = some t → P name (Worker.init t)) (he : ∀ e ∈ evs, Fits ok e)
    (h : (AsyncServer.init T).run evs = some v) : Tabs P v.tables := by
  have := run_ind (P := fun pre v => (v.dead = false → AInv pre v) ∧ ((∀ e ∈ pre, Fits ok e) → Tabs P v.tables))
    (fun pre v e v' hp hs => by
      have hd := step_alive hs
      refine ⟨fun hd' => ?_, fun hf => ?_⟩
      · rcases (hp.1 hd).step hs with g | g
        · exact g
        · rw [hd'] at g; cases g.1
      · exact (hp.2 fun e he => hf e (List.mem_append_left _ he)).step hstep (hp.1 hd).tables (hf e (by simp)) hs)
    evs [] _ v ⟨fun _ => AInv.init T, fun _ => Tabs.init h0⟩ h
  exact this.2 he

/-- The worker of a new table with this name. -/
def WOrd (cfgs : AMap String Config) (name : String) (w : W) : Prop :=
  ∃ c, cfgs.get? name = some c ∧ Worker.Order w ∧ Worker.Seq c.init w

theorem WOrd.run {cfgs : AMap String Config} {evs : List Event} {v : AsyncServer} (h : (AsyncServer.init (newTables cfgs)).run evs = some v) :
    Tabs (WOrd cfgs) v.tables := by
  refine Tabs.run (ok := fun _ _ => True) ?_ ?_ ?_ h
  · rintro name w a w' ⟨c, hc, h1, h2⟩ _ hs
    exact ⟨c, hc, h1.step hs, h2.step hs⟩
  · intro name t ht
    rw [newTables_get] at ht
    obtain ⟨c, hc, rfl⟩ := Option.map_eq_some_iff.mp ht
    exact ⟨c, hc, Worker.Order.init _, Worker.Seq.init (by rfl)⟩
  · intro e _
    cases e with
    | read s q => cases q <;> simp [Fits]
    | _ => trivial

/-- The worker of a table with this name, while priorities are admitted. -/
def WSound (cfgs : AMap String Config) (name : String) (w : W) : Prop := ∃ c, cfgs.get? name = some c ∧ Worker.Sound c w

/-- Calls of the tables with these configurations. -/
def ActOk (cfgs : AMap String Config) (name : String) (a : Act) : Prop := ∀ c, cfgs.get? name = some c → a.Ok c

theorem WSound.step {cfgs : AMap String Config} {name : String} {w w' : W} {a : Act} (h : WSound cfgs name w) (ha : ActOk cfgs name a)
    (hs : Worker.step w a = some w') : WSound cfgs name w' := by
  obtain ⟨c, hc, h⟩ := h
  exact ⟨c, hc, h.step (ha c hc) hs⟩

theorem WSound.init {cfgs : AMap String Config} (name : String) (t : Table) (h : (newTables cfgs).get? name = some t) : WSound cfgs name (Worker.init t) := by
  rw [newTables_get] at h
  obtain ⟨c, hc, rfl⟩ := Option.map_eq_some_iff.mp h
  exact ⟨c, hc, Worker.Sound.init c⟩

theorem EventOk.fits {cfgs : AMap String Config} {pre : List Event} {e : Event} (h : EventOk cfgs pre e) : Fits (ActOk cfgs) e := by
  cases e with
  | read s q =>
    cases q with
    | none => trivial
    | some q => intro it hit chs c hc; exact h.2 it hit c hc
  | table name a =>
    cases a with
    | mutate us ds => exact h
    | insert i cb => exact h.elim
    | _ => exact fun _ _ => trivial
  | _ => trivial

/-- Nothing kills the server. -/
theorem alive_step {cfgs : AMap String Config} {evs : List Event} {v v' : AsyncServer} {e : Event} (h : AInv evs v) (ht : Tabs (WSound cfgs) v.tables)
    (he : EventOk cfgs evs e) (hr : NoRace v e) (hs : v.step e = some v') : AInv (evs ++ [e]) v' ∧ Tabs (WSound cfgs) v'.tables := by
  refine ⟨?_, Tabs.step (P := WSound cfgs) (ok := ActOk cfgs) (fun _ _ _ _ hw ha hs => hw.step ha hs) ht h.tables he.fits hs⟩
  rcases h.step hs with g | ⟨_, g⟩
  · exact g
  · cases e with
    | read s q =>
      cases q with
      | none => cases g
      | some q => exact absurd he.1 g
    | table name a =>
      obtain ⟨t, w', h1, h2, h3⟩ := g
      obtain ⟨c, hc, hw⟩ := WSound.step (ht _ _ h1) he.fits h2
      rw [hw.fine.alive] at h3
      cases h3
    | call name i =>
      obtain ⟨t, s, st, r, h1, h2, h3, h4⟩ := g
      exact absurd h4 (by simp [hr name i rfl t h1 s st h2 r h3])
    | _ => cases g

end AsyncServer
end Verif
