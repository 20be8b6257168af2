import Verif.Proofs.SampleShare
import Verif.Props.C55_C58_SampleSync
import Verif.Model.Timeout
/-
Sample streams of the asynchronous server: how many samples are delivered (C55), what the timeout means there and in the client (C58),
whether streams that have ended take samples (C66), and whether streams are forgotten (C67).
-/
namespace Verif
open Worker (W Act Req answers live)

namespace AsyncSampler

theorem written_some {v : AsyncSampler} {s : Nat} {r : SampReactor} (h : v.streams.get? s = some r) : v.written s = r.out.written.flatten := by
  simp [written, h]

theorem endedWith_iff {v : AsyncSampler} {s : Nat} {st : Option Code} :
    v.endedWith s = some st ↔ ∃ r, v.streams.get? s = some r ∧ r.finished = some st := by
  unfold endedWith
  rw [Option.bind_eq_some_iff]

/-! ### C55 -/

/-- C55, asynchronous server, after any schedule of any number of streams and of other calls of the tables: the process lives; the samples
given to a stream answer its requests in order, never more than asked for, and have been taken from their tables; what the client makes of
the responses is a prefix of them; and if the stream has ended with OK and was not cancelled, then every request got exactly the samples
it asked for and the client makes of the responses exactly these, as a sampler in the same process would. -/
theorem C55_async {cfgs : AMap String Config} {w : Wire} (hw : ∀ k, (w.content k).key = k) {evs : List Event} {v : AsyncSampler}
    (hp : Proper cfgs evs) (hr : (init (newTables cfgs)).run w evs = some v) (s : Nat) :
    v.dead = false ∧ Served false (requests s evs) (v.got s) ∧ clientSamples (v.written s) <+: localSamples w (v.got s) ∧
    (∀ y ∈ v.got s, ∃ t, v.tables.get? y.1 = some t ∧ ExtEvent.sample y.2.item ∈ t.w.table.log) ∧
    (v.endedWith s = some none → ¬ Cancelled s evs →
      Served true (requests s evs) (v.got s) ∧ clientSamples (v.written s) = localSamples w (v.got s) ∧ NothingLeft (v.written s)) := by
  have hi := AInv.run hw hr hp
  refine ⟨hi.alive, ?_⟩
  cases hx : v.streams.get? s with
  | none =>
    have hg : v.got s = [] := by simp [got, hx]
    have hwr : v.written s = [] := by simp [written, hx]
    rw [(hi.fresh s hx).1, hg, hwr]
    refine ⟨rfl, List.prefix_rfl, by simp, fun he => ?_⟩
    obtain ⟨x, h1, _⟩ := endedWith_iff.mp he
    rw [hx] at h1; cases h1
  | some r =>
    have h0 := hi.ok s r hx
    rw [got_some hx, written_some hx]
    refine ⟨SampReactor.served_false h0.inv.toRInv0, h0.inv.sent, h0.logged, fun he hc => ?_⟩
    obtain ⟨r', h1, h2⟩ := endedWith_iff.mp he
    rw [hx] at h1; cases h1
    have hcn : r.cancelled = false := by
      cases hb : r.cancelled with
      | false => rfl
      | true => exact absurd (h0.canc.mp hb) hc
    exact (h0.inv.ok h2 hcn).2

/-- C55, asynchronous server: no sample is delivered twice, neither to one stream nor to two: the streams together have at most those
samples that the table has produced, each as often as it was produced. -/
theorem C55_async_once {cfgs : AMap String Config} {w : Wire} (hw : ∀ k, (w.content k).key = k) {evs : List Event} {v : AsyncSampler}
    (hp : Proper cfgs evs) (hr : (init (newTables cfgs)).run w evs = some v) {name : String} {c : Config} {t : SampTable}
    (hc : cfgs.get? name = some c) (ht : v.tables.get? name = some t) {ss : List Nat} (hn : ss.Nodup) :
    c.init.run t.w.trace = some t.w.table ∧
    ∀ y, (ss.flatMap fun s => fromTable name (v.got s)).count y ≤ (Worker.drawn c.init t.w.trace).count y := by
  have hi := AInv.run hw hr hp
  obtain ⟨c', as, h1, h2, _, _⟩ := (hi.tabs name t ht).runs
  rw [hc] at h1
  cases h1
  have hd := (hi.tabs name t ht).alive
  refine ⟨C25_sequential h2 hd, fun y => ?_⟩
  have h3 := Fair.run hw hr hp ss hn name t ht y
  have h4 := (C26_samples h2 hd).count_eq y
  rw [List.count_append] at h4
  unfold given inAnswers at h3
  omega

/-- C55, asynchronous server: what one step adds to a stream are samples of the table of one of its requests, no more than that asks for
and no more than its batch size unless that is left to the server. -/
theorem C55_async_batch {cfgs : AMap String Config} {w : Wire} (hw : ∀ k, (w.content k).key = k) {evs : List Event} {v v' : AsyncSampler}
    (hp : Proper cfgs evs) (hr : (init (newTables cfgs)).run w evs = some v) {e : Event} (hs : v.step w e = some v') (s : Nat) :
    v'.got s = v.got s ∨ ∃ req ∈ requests s evs, ∃ l : List Sampled, v'.got s = v.got s ++ l.map (req.table, ·) ∧
      (l.length : Int) ≤ req.num ∧ (req.flexible ≠ -1 → (l.length : Int) ≤ req.flexible) := by
  have hi := AInv.run hw hr hp
  rcases got_step hs with hg | ⟨nm, i, now, tb, q, st, r, tk, rfl, k1, k2, k3, k4, k5, k6, k7, k8⟩
  · exact .inl (hg s)
  · by_cases hss : s = q.id / 2
    · subst hss
      have hq : q.id = reqId (q.id / 2) := by simp only [reqId]; omega
      have hpend : q.bare ∈ pendOf v.tables nm (q.id / 2) := by
        rw [pendOf_some k1]
        refine List.mem_filter.mpr ⟨?_, decide_eq_true (show q.bare.id = reqId (q.id / 2) from hq)⟩
        simp only [SampTable.pend, List.mem_append, List.mem_map]
        refine .inl (.inl (.inl ⟨(q, st), ?_, rfl⟩))
        simp only [answers, List.mem_filterMap]
        exact ⟨_, List.mem_of_getElem? k2, rfl⟩
      obtain ⟨m1, tk', n1, n2, n3⟩ := (hi.link _ r k4).mine _ _ hpend
      rw [k6] at n1
      cases n1
      have hti := hi.tabs _ _ k1
      have hans : (q, st) ∈ answers tb.w.out := by
        simp only [answers, List.mem_filterMap]
        exact ⟨_, hti.todo (List.mem_of_getElem? k2), rfl⟩
      have h0 := hi.ok _ r k4
      have hpos := SampReactor.TaskOk.pos (h0.inv.task tk k6)
      have hne : tk.next ≠ 0 := fun e => h0.inv.wait m1 ((SampReactor.idle_iff k6).mpr e)
      have hlen : (q.samples.length : Int) ≤ tk.next := by
        have n3 : q.num = tk.next.toNat := n3
        rcases hti.served.ok q st hans with ⟨_, g⟩ | ⟨_, g⟩ <;> simp only [Req.want] at g <;> omega
      obtain ⟨rs, req, more, g1, _, g3, g4, g5, g6, g7, g8, _⟩ := h0.inv.task tk k6
      refine .inr ⟨req, by rw [g1]; simp, q.samples, by rw [k7, g5], ?_, fun hf => ?_⟩
      · simp only [SampTask.next] at hlen; omega
      · have := g8 hf
        simp only [SampTask.next] at hlen; omega
    · exact .inl (k8 s hss)

/-- C55, asynchronous server: every request that a stream has made to a table was made by an event at which it could do so, for one of its
own requests of that table, for at least one sample, at most as many as asked for and as the batch size allows, and with the timeout of
that request. -/
theorem C55_async_asks {cfgs : AMap String Config} {w : Wire} (hw : ∀ k, (w.content k).key = k) {evs : List Event} {v : AsyncSampler}
    (hp : Proper cfgs evs) (hr : (init (newTables cfgs)).run w evs = some v) {s : Nat} {name : String} {q : Req} (hq : q ∈ v.asked name)
    (hid : q.id = reqId s) : ∃ pre e, pre ++ [e] <+: evs ∧ AskNow pre e name s q := by
  have hi := AInv.run hw hr hp
  unfold asked at hq
  cases ht : v.tables.get? name with
  | none => rw [ht] at hq; cases hq
  | some t =>
    rw [ht] at hq
    exact (hi.tabs name t ht).asked q hq s hid

/-- C55, asynchronous server: why a stream has ended with an error. -/
theorem C55_async_status {cfgs : AMap String Config} {w : Wire} (hw : ∀ k, (w.content k).key = k) {evs : List Event} {v : AsyncSampler}
    (hp : Proper cfgs evs) (hr : (init (newTables cfgs)).run w evs = some v) {s : Nat} {c : Code} (he : v.endedWith s = some (some c)) :
    Why cfgs s evs c := by
  obtain ⟨r, h1, h2⟩ := endedWith_iff.mp he
  exact ((AInv.run hw hr hp).ok s r h1).why c h2

/-- A read of the stream is under way, and it has not been finished. -/
def Reads (v : AsyncSampler) (s : Nat) : Prop := ∃ r, v.streams.get? s = some r ∧ r.reading = true ∧ r.finished = none

/-- C55, asynchronous server: a request for no samples, or with a batch size that is neither positive nor -1, ends the stream with
`InvalidArgument`, and one for an unknown table with `NotFound`; no sample is taken and no table changes. -/
theorem C55_async_rejects {w : Wire} {v : AsyncSampler} {s : Nat} {req : SampleReq} {now : Int} (hd : v.dead = false) (hr : v.Reads s) {c : Code}
    (h : (req.num ≤ 0 ∨ (req.flexible ≤ 0 ∧ req.flexible ≠ -1)) ∧ c = .invalidArgument ∨
      (0 < req.num ∧ (0 < req.flexible ∨ req.flexible = -1)) ∧ v.tables.get? req.table = none ∧ c = .notFound) :
    ∃ v', v.step w (.read s (some req) now) = some v' ∧ v'.endedWith s = some (some c) ∧ v'.tables = v.tables ∧ v'.got s = v.got s ∧
      v'.written s = v.written s ∧ v'.dead = false ∧ ∀ s', s' ≠ s → v'.streams.get? s' = v.streams.get? s' := by
  obtain ⟨r, hx, hrd, hf⟩ := hr
  have hres : ({ r with reading := false } : SampReactor).process req ((v.tables.get? req.table).map fun t => t.w.table.defaultBatch) = .inr c := by
    unfold SampReactor.process
    rcases h with ⟨h1, rfl⟩ | ⟨h1, h2, rfl⟩
    · have : req.valid = false := by
        rw [Bool.eq_false_iff]
        intro g
        have := (SampleReq.valid_iff req).mp g
        omega
      simp [this]
    · have : req.valid = true := (SampleReq.valid_iff req).mpr h1
      simp [this, h2]
  refine ⟨v.onRead s r (some req) now, by simp [AsyncSampler.step, hd, hx, hrd], ?_⟩
  have hon : v.onRead s r (some req) now = v.put s (.ok { r with reading := false, out := { r.out with queue := [] }, finished := some (some c) }) := by
    unfold onRead
    simp only [hf, Option.isSome_none, Bool.false_eq_true, if_false, hf ▸ hres]
    simp only [SampReactor.setFinished]
    simp
  rw [hon]
  refine ⟨by simp [endedWith, AsyncSampler.put], rfl, by simp [got, AsyncSampler.put, hx], by simp [written, AsyncSampler.put, hx], hd, fun s' hne => ?_⟩
  simp [AsyncSampler.put, AMap.get?_insert, hne]

/-! ### C58 -/

/-- C58, asynchronous server: a stream is ended with `DeadlineExceeded` only if one of its requests has a positive timeout, and a worker has
looked at the clock when that timeout had passed since the table was asked. -/
theorem C58_async {cfgs : AMap String Config} {w : Wire} (hw : ∀ k, (w.content k).key = k) {evs : List Event} {v : AsyncSampler}
    (hp : Proper cfgs evs) (hr : (init (newTables cfgs)).run w evs = some v) {s : Nat} (he : v.endedWith s = some (some .deadlineExceeded)) :
    ∃ q ∈ requests s evs, ∃ ms, q.timeout = some ms ∧ 0 < ms ∧ ∃ e ∈ evs, ∃ start now d, askTime s q.table e = some start ∧
      Event.table q.table (.work now d) ∈ evs ∧ start + ms * 1000000 ≤ now :=
  C55_async_status hw hp hr he

/-- C58, asynchronous server: without a positive timeout a stream never ends with `DeadlineExceeded`. -/
theorem C58_async_never {cfgs : AMap String Config} {w : Wire} (hw : ∀ k, (w.content k).key = k) {evs : List Event} {v : AsyncSampler}
    (hp : Proper cfgs evs) (hr : (init (newTables cfgs)).run w evs = some v) {s : Nat}
    (hn : ∀ q ∈ requests s evs, ∀ ms, q.timeout = some ms → ms ≤ 0) : v.endedWith s ≠ some (some .deadlineExceeded) := by
  intro he
  obtain ⟨q, h1, ms, h2, h3, _⟩ := C58_async hw hp hr he
  have := hn q h1 ms h2
  omega

/-- C58, asynchronous server: while a table has a request of a stream with a positive timeout and its worker sleeps, the worker is going
to wake up no later than the timeout after the table was asked. -/
theorem C58_async_alarm {cfgs : AMap String Config} {w : Wire} (hw : ∀ k, (w.content k).key = k) {evs : List Event} {v : AsyncSampler}
    (hp : Proper cfgs evs) (hr : (init (newTables cfgs)).run w evs = some v) {s : Nat} {name : String} {t : SampTable}
    (ht : v.tables.get? name = some t) {q : Req} (hq : q ∈ t.w.open) (hid : q.id = reqId s) (hsl : t.w.pc = .waiting) (hwk : t.w.woken = false) :
    ∃ req ∈ requests s evs, req.table = name ∧ ((∃ ms, req.timeout = some ms ∧ 0 < ms) → ∃ ms start x, ∃ e ∈ evs, req.timeout = some ms ∧
      askTime s name e = some start ∧ t.w.wakeAt = some x ∧ x ≤ start + ms * 1000000) := by
  have hi := AInv.run hw hr hp
  have hti := hi.tabs name t ht
  obtain ⟨c, as, h1, h2, h3, h4⟩ := hti.runs
  have hasked : q.bare ∈ t.w.asked := by
    rw [← (C26_once h2).mem_iff]
    exact List.mem_append_right _ (List.mem_map_of_mem hq)
  obtain ⟨pre, e, hpre, req, k1, k2, k3, k4, k5, k6, start, k7, k8⟩ := hti.asked q.bare hasked s hid
  have hmem : req ∈ requests s evs := by
    obtain ⟨post, hpost⟩ := hpre
    rw [← hpost, requests_append]
    exact List.mem_append_left _ k1
  refine ⟨req, hmem, k3, fun ⟨ms, g1, g2⟩ => ?_⟩
  have hdl : q.deadline = some (start + ms * 1000000) := by
    have k8 : q.deadline = deadlineAt start req.asyncTimeout := k8
    rw [k8]
    simp [SampleReq.asyncTimeout, g1, g2, deadlineAt, millis]
  obtain ⟨x, x1, x2⟩ := C26_alarm h2 hsl hwk hq hdl
  exact ⟨ms, start, x, e, hpre.subset (by simp), g1, k7, x1, x2⟩

/-! ### C66, C67 -/

/-- C66, in part: a stream that has ended with OK without having been cancelled has no request in any table, at any later time. For the
other streams see `C66_false`. -/
theorem C66_ok_partial {cfgs : AMap String Config} {w : Wire} (hw : ∀ k, (w.content k).key = k) {evs : List Event} {v : AsyncSampler}
    (hp : Proper cfgs evs) (hr : (init (newTables cfgs)).run w evs = some v) {s : Nat} (he : v.endedWith s = some none) (hc : ¬ Cancelled s evs)
    {name : String} {t : SampTable} (ht : v.tables.get? name = some t) {q : Req} (hq : q ∈ t.w.open) : q.id ≠ reqId s := by
  intro hid
  have hi := AInv.run hw hr hp
  obtain ⟨r, h1, h2⟩ := endedWith_iff.mp he
  have h0 := hi.ok s r h1
  have hcn : r.cancelled = false := by
    cases hb : r.cancelled with
    | false => rfl
    | true => exact absurd (h0.canc.mp hb) hc
  have hw := (h0.inv.still (h0.inv.ok h2 hcn).1 hcn).2.2.1
  have hp := (hi.link s r h1).empty hw name
  have : q.bare ∈ pendOf v.tables name s := by
    rw [pendOf_some ht]
    refine List.mem_filter.mpr ⟨?_, decide_eq_true (show q.bare.id = reqId s from hid)⟩
    simp only [Worker.W.open, List.mem_append] at hq
    simp only [SampTable.pend, List.mem_append]
    rcases hq with (hq | hq) | hq
    · exact .inl (.inl (.inr (List.mem_map_of_mem hq)))
    · exact .inl (.inr (List.mem_map_of_mem hq))
    · exact .inr (List.mem_map_of_mem hq)
  rw [hp] at this
  cases this

/-- Something is under way for the stream: a read, a write, a section that follows a write or a callback, a request to a table or the
callback of one. -/
def Outstanding (v : AsyncSampler) (s : Nat) : Prop :=
  (∃ r, v.streams.get? s = some r ∧ (r.reading = true ∨ r.writing = true ∨ 0 < r.after ∨ r.resume = true)) ∨
  ∃ name t, v.tables.get? name = some t ∧ ((∃ q st, Worker.Out.answer q st ∈ t.todo ∧ q.id = reqId s) ∨ ∃ q ∈ t.w.open, q.id = reqId s)

/-- C67: a stream that has neither finished nor been cancelled is never forgotten. For cancelled streams see `C67_false`. -/
theorem C67_outstanding_partial {cfgs : AMap String Config} {w : Wire} (hw : ∀ k, (w.content k).key = k) {evs : List Event} {v : AsyncSampler}
    (hp : Proper cfgs evs) (hr : (init (newTables cfgs)).run w evs = some v) {s : Nat} {r : SampReactor} (hs : v.streams.get? s = some r)
    (hf : v.endedWith s = none) (hc : ¬ Cancelled s evs) : v.Outstanding s := by
  have hi := AInv.run hw hr hp
  have h0 := hi.ok s r hs
  have hf : r.finished = none := by simpa [endedWith, hs] using hf
  have hcn : r.cancelled = false := by
    cases hb : r.cancelled with
    | false => rfl
    | true => exact absurd (h0.canc.mp hb) hc
  by_cases hid : r.Idle
  · refine .inl ⟨r, hs, ?_⟩
    rcases h0.inv.rest hf hcn hid with g | g | ⟨_, g⟩
    · exact .inl g
    · exact .inr (.inr (.inr g))
    · exact .inr (.inl ((h0.inv.wr hf).mpr g))
  · rcases h0.inv.busy hf hid with g | g | g
    · have hgone : r.gone = false := by
        cases hb : r.gone with
        | false => rfl
        | true => exact absurd hf (h0.inv.gone hb).1
      obtain ⟨tk, q, _, k2⟩ := (hi.link s r hs).has hgone g
      refine .inr ?_
      unfold pendOf at k2
      split at k2
      · cases k2
      · rename_i t ht
        refine ⟨_, t, ht, ?_⟩
        obtain ⟨k3, k4⟩ := List.mem_filter.mp k2
        have k4 : q.id = reqId s := of_decide_eq_true k4
        simp only [SampTable.pend, List.mem_append, List.mem_map] at k3
        rcases k3 with ((⟨a, k3, rfl⟩ | ⟨a, k3, rfl⟩) | ⟨a, k3, rfl⟩) | ⟨a, k3, rfl⟩
        · obtain ⟨q', st⟩ := a
          simp only [answers, List.mem_filterMap] at k3
          obtain ⟨o, k5, k6⟩ := k3
          cases o with
          | notify _ _ => cases k6
          | answer q2 st2 =>
            cases k6
            exact .inl ⟨_, _, k5, k4⟩
        · exact .inr ⟨a, by simp [Worker.W.open, k3], k4⟩
        · exact .inr ⟨a, by simp [Worker.W.open, k3], k4⟩
        · exact .inr ⟨a, by simp [Worker.W.open, k3], k4⟩
    · exact .inl ⟨r, hs, .inr (.inl g)⟩
    · exact .inl ⟨r, hs, .inr (.inr (.inl g))⟩

end AsyncSampler

/-! ### C58, the client -/

/-- C58, client: infinite timeouts and those of whole milliseconds survive the conversion to the request and back, and every number of
milliseconds survives the conversion to a duration and back, all negative ones being infinite. -/
theorem C58_client (n : Nat) (ms : Int) : fromMillis (toMillis none) = none ∧ fromMillis (toMillis (some ((n : Int) * 1000000))) = some ((n : Int) * 1000000) ∧
    (0 ≤ ms → toMillis (fromMillis ms) = ms) ∧ (ms < 0 → fromMillis ms = none ∧ toMillis (fromMillis ms) = -1) := by
  refine ⟨rfl, ?_, fun h => ?_, fun h => ?_⟩
  · have h1 : ((n : Int) * 1000000).tdiv 1000000 = n := Int.mul_tdiv_cancel _ (by decide)
    have h2 : ¬ (n : Int) < 0 := by omega
    simp [toMillis, fromMillis, h1, h2, millis]
  · have h1 : (ms * 1000000).tdiv 1000000 = ms := Int.mul_tdiv_cancel _ (by decide)
    have h2 : ¬ ms < 0 := by omega
    simp [toMillis, fromMillis, h2, millis, h1]
  · simp [toMillis, fromMillis, h]

/-- C58, client and servers: an infinite timeout given to the sampler is infinite on both servers, and one of a positive number of whole
milliseconds is that on both servers. -/
theorem C58_end_to_end_partial (table : String) (num flexible : Int) (n : Nat) :
    (clientRequest table num none flexible).syncTimeout = none ∧ (clientRequest table num none flexible).asyncTimeout = none ∧
    (clientRequest table num (some (((n : Int) + 1) * 1000000)) flexible).syncTimeout = some (((n : Int) + 1) * 1000000) ∧
    (clientRequest table num (some (((n : Int) + 1) * 1000000)) flexible).asyncTimeout = some (((n : Int) + 1) * 1000000) := by
  have h1 : (((n : Int) + 1) * 1000000).tdiv 1000000 = n + 1 := Int.mul_tdiv_cancel _ (by decide)
  have h2 : ¬ (n : Int) + 1 < 0 := by omega
  have h3 : 0 < (n : Int) + 1 := by omega
  refine ⟨by simp [clientRequest, SampleReq.syncTimeout, toMillis], by simp [clientRequest, SampleReq.asyncTimeout, toMillis], ?_, ?_⟩
  · simp only [clientRequest, SampleReq.syncTimeout, toMillis, h1, h2, if_false, millis]
  · simp only [clientRequest, SampleReq.asyncTimeout, toMillis, h1, h3, if_true, millis]

/-- C58 does not hold for timeouts of less than a millisecond: they are zero on the synchronous server and infinite on the asynchronous
one. -/
theorem C58_short_false (table : String) (num flexible ns : Int) (h0 : 0 ≤ ns) (h1 : ns < 1000000) :
    (clientRequest table num (some ns) flexible).syncTimeout = some 0 ∧ (clientRequest table num (some ns) flexible).asyncTimeout = none := by
  have h2 : ns.tdiv 1000000 = 0 := by rw [Int.tdiv_eq_ediv_of_nonneg h0]; omega
  constructor
  · simp [clientRequest, SampleReq.syncTimeout, toMillis, h2, millis]
  · simp [clientRequest, SampleReq.asyncTimeout, toMillis, h2]

/-! ### Cases -/

namespace SampleDemo

/-- A table from which every item can be sampled once, at any time. -/
def wideCfg : Config := ⟨10, 1, .fifo, .fifo, 1, 1, 0, 10, by decide⟩

def wideCfgs : AMap String Config := ⟨[("t", wideCfg)], by decide⟩

/-- An item over one chunk. -/
def item1 (k : Key) : Item := ⟨k, .val 1, 0, 0, [⟨[⟨k, 0, 1, 0⟩], false⟩], [⟨k, 1⟩]⟩

def ains (i : Item) : AsyncSampler.Event := .table "t" (.insert i 1)

def awork (n : Nat) (now : Int) : List AsyncSampler.Event := List.replicate n (.table "t" (.work now (draw 0)))

def awake : AsyncSampler.Event := .table "t" .wake

def asyncAfter (cs : AMap String Config) (evs : List AsyncSampler.Event) (P : AsyncSampler → Bool) : Bool :=
  ((AsyncSampler.init (newTables cs)).run wire evs).any P

theorem asyncAfter_run {cs : AMap String Config} {evs : List AsyncSampler.Event} {P : AsyncSampler → Bool} (h : asyncAfter cs evs P = true) :
    ∃ v, (AsyncSampler.init (newTables cs)).run wire evs = some v ∧ P v = true := by
  unfold asyncAfter at h
  cases hr : (AsyncSampler.init (newTables cs)).run wire evs with
  | none => simp [hr] at h
  | some v => exact ⟨v, rfl, by simpa [hr] using h⟩

/-- First-in first-out tables take every priority. -/
theorem fifo_proper {cs : AMap String Config} (h : ∀ name c, cs.get? name = some c → c.sampler = .fifo ∧ c.remover = .fifo) (evs : List AsyncSampler.Event) :
    AsyncSampler.Proper cs evs := by
  intro name a _ c hc
  obtain ⟨h1, h2⟩ := h name c hc
  have hadm : ∀ p, c.admits p := fun p => by unfold Config.admits; rw [h1, h2]; exact ⟨rfl, rfl⟩
  cases a <;> simp [Act.Ok, hadm]

theorem cfgs_fifo : ∀ name c, cfgs.get? name = some c → c.sampler = .fifo ∧ c.remover = .fifo := by
  intro name c hc
  simp only [cfgs, AMap.get?, List.lookup_cons] at hc
  split at hc
  · cases hc; exact ⟨rfl, rfl⟩
  · cases hc

theorem wideCfgs_fifo : ∀ name c, wideCfgs.get? name = some c → c.sampler = .fifo ∧ c.remover = .fifo := by
  intro name c hc
  simp only [wideCfgs, AMap.get?, List.lookup_cons] at hc
  split at hc
  · cases hc; exact ⟨rfl, rfl⟩
  · cases hc

/-- A stream asks for three samples, two at a time, and then for one more, has to wait, gets them and ends; another one times out; a third
one, with a timeout of zero, waits longer and is cancelled. -/
def asyncDemo : List AsyncSampler.Event :=
  [.start 0, .start 1, .start 2, ains (item3 10), ains (item3 20), .read 0 (some ⟨"t", 3, some 5, 2⟩) 100] ++ awork 17 200 ++
  [.deliver "t" 2 300, ains (item3 30), awake] ++ awork 15 400 ++
  [.deliver "t" 3 500, .next 0, .write 0 true, .more 0 500, .write 0 true, .more 0 500, .write 0 true, .more 0 500] ++
  [.read 1 (some ⟨"t", 1, some 5, 2⟩) 1000, .read 2 (some ⟨"t", 1, some 0, 2⟩) 1000, awake] ++ awork 9 5000999 ++ [awake] ++ awork 10 5001000 ++
  [.deliver "t" 3 5001000, .done 1, .read 0 (some ⟨"t", 1, none, -1⟩) 5001000, awake] ++ awork 5 5001000 ++
  [.cancel 2, ains (item3 40), ains (item3 50), awake] ++ awork 23 6000000 ++
  [.deliver "t" 5 6000001, .deliver "t" 5 6000001, .write 0 true, .more 0 6000001, .next 0, .read 0 none 6000001]

end SampleDemo

namespace AsyncSampler
open SampleDemo

/-- Meets the hypotheses of `C55_async`, `C55_async_once`, `C55_async_status`, `C58_async` and `C66_ok_partial`. -/
example : ∃ v, Proper cfgs asyncDemo ∧ (init (newTables cfgs)).run wire asyncDemo = some v ∧ v.endedWith 0 = some none ∧ ¬ Cancelled 0 asyncDemo ∧
    (v.got 0).map (fun x => x.2.item.key) = [10, 20, 30, 50] ∧ (clientSamples (v.written 0)).length = 4 ∧
    v.endedWith 1 = some (some .deadlineExceeded) ∧ (v.got 2).map (fun x => x.2.item.key) = [40] ∧ (requests 0 asyncDemo).length = 2 ∧
    (v.asked "t").map (fun q => (q.id, q.num, q.deadline)) =
      [(0, 2, some 5000100), (0, 1, some 5000300), (2, 1, some 5001000), (4, 1, none), (0, 1, none)] := by
  obtain ⟨v, h1, h2⟩ := asyncAfter_run (cs := cfgs) (evs := asyncDemo) (P := fun v => decide (v.endedWith 0 = some none) &&
    decide ((v.got 0).map (fun x => x.2.item.key) = [10, 20, 30, 50]) && decide ((clientSamples (v.written 0)).length = 4) &&
    decide (v.endedWith 1 = some (some .deadlineExceeded)) && decide ((v.got 2).map (fun x => x.2.item.key) = [40]) &&
    decide ((v.asked "t").map (fun q => (q.id, q.num, q.deadline)) =
      [(0, 2, some 5000100), (0, 1, some 5000300), (2, 1, some 5001000), (4, 1, none), (0, 1, none)])) (by decide +kernel)
  simp only [Bool.and_eq_true, decide_eq_true_eq] at h2
  obtain ⟨⟨⟨⟨⟨a, b⟩, c⟩, d⟩, e⟩, f⟩ := h2
  exact ⟨v, fifo_proper cfgs_fifo _, h1, a, by simp [Cancelled, asyncDemo, awork, ains, awake], b, c, d, e, by decide +kernel, f⟩

/-- Meets the hypotheses of `C58_async_alarm` (stream 1 waits with a timeout) and `C67_outstanding_partial` (streams 0 and 1). -/
example : ∃ v t q, Proper cfgs (asyncDemo.take 61) ∧ (init (newTables cfgs)).run wire (asyncDemo.take 61) = some v ∧ v.tables.get? "t" = some t ∧
    q ∈ t.w.open ∧ q.id = reqId 1 ∧ t.w.pc = .waiting ∧ t.w.woken = false ∧ t.w.wakeAt = some 5001000 ∧ (v.streams.get? 0).isSome = true ∧
    v.endedWith 0 = none ∧ v.endedWith 1 = none := by
  obtain ⟨v, h1, h2⟩ := asyncAfter_run (cs := cfgs) (evs := asyncDemo.take 61) (P := fun v => match v.tables.get? "t" with
    | none => false
    | some t => (t.w.open.any fun q => decide (q.id = reqId 1)) && decide (t.w.pc = .waiting) && !t.w.woken && decide (t.w.wakeAt = some 5001000) &&
      (v.streams.get? 0).isSome && decide (v.endedWith 0 = none) && decide (v.endedWith 1 = none)) (by decide +kernel)
  split at h2
  · cases h2
  · rename_i t ht
    simp only [Bool.and_eq_true, decide_eq_true_eq, Bool.not_eq_true', List.any_eq_true] at h2
    obtain ⟨⟨⟨⟨⟨⟨⟨q, a1, a2⟩, b⟩, c⟩, d⟩, e⟩, f⟩, g⟩ := h2
    exact ⟨v, t, q, fifo_proper cfgs_fifo _, h1, ht, a1, a2, b, c, d, e, f, g⟩

/-- Meets the hypotheses of `C55_async_rejects`. -/
example : ∃ v, (init (newTables cfgs)).run wire [.start 0] = some v ∧ v.dead = false ∧ v.Reads 0 := ⟨_, rfl, rfl, _, rfl, rfl, rfl⟩

/-- C66 does not hold: the write of the first of five samples fails, the stream is ended, and then it takes the other four items, which
can be sampled once only, out of the table. -/
theorem C66_false : ∃ evs more v v' t', Proper wideCfgs (evs ++ more) ∧ (init (newTables wideCfgs)).run wire evs = some v ∧
    v.endedWith 0 = some (some .internal) ∧ (v.asked "t").length = 2 ∧ v.run wire more = some v' ∧ (v'.asked "t").length = 5 ∧
    v'.tables.get? "t" = some t' ∧ t'.w.table.data.keys = [] ∧ (v'.written 0).length = 1 := by
  have h : ((init (newTables wideCfgs)).run wire
      ([.start 0, ains (item1 10), ains (item1 20), ains (item1 30), ains (item1 40), ains (item1 50), .read 0 (some ⟨"t", 5, none, 1⟩) 0] ++ awork 22 0 ++
        [.deliver "t" 5 0, .write 0 false])).any (fun v => decide (v.endedWith 0 = some (some .internal)) && decide ((v.asked "t").length = 2) &&
      (v.run wire ([awake] ++ awork 15 0 ++ [.more 0 0, .deliver "t" 5 0, awake] ++ awork 15 0 ++ [.deliver "t" 5 0, awake] ++ awork 15 0 ++
        [.deliver "t" 5 0, awake] ++ awork 15 0)).any fun v' => decide ((v'.asked "t").length = 5) && decide ((v'.written 0).length = 1) &&
          ((v'.tables.get? "t").any fun t => decide (t.w.table.data.keys = []))) = true := by decide +kernel
  rw [Option.any_eq_true] at h
  obtain ⟨v, h1, h2⟩ := h
  rw [Bool.and_eq_true, Option.any_eq_true] at h2
  obtain ⟨h3, v', h4, h5⟩ := h2
  rw [Bool.and_eq_true, Option.any_eq_true] at h5
  obtain ⟨h6, t', h7, h8⟩ := h5
  simp only [Bool.and_eq_true, decide_eq_true_eq] at h3 h6 h8
  exact ⟨_, _, v, v', t', fifo_proper wideCfgs_fifo _, h1, h3.1, h3.2, h4, h6.1, h7, h8, h6.2⟩

/-- The stream is forgotten. -/
def Lost (v : AsyncSampler) (s : Nat) : Prop := ∃ r, v.streams.get? s = some r ∧ r.finished = none ∧ r.reading = false ∧ r.writing = false ∧
  r.after = 0 ∧ r.resume = false ∧ r.waiting = false

theorem Lost.ended {v : AsyncSampler} {s : Nat} (h : Lost v s) : v.endedWith s = none := by
  obtain ⟨r, h1, h2, _⟩ := h
  simp [endedWith, h1, h2]

theorem Lost.step {w : Wire} {cfgs : AMap String Config} {evs : List Event} {v v' : AsyncSampler} {e : Event} {s : Nat} (h : Lost v s)
    (hi : AInv w cfgs evs v) (hs : v.step w e = some v') : Lost v' s := by
  obtain ⟨r, h1, h2, h3, h4, h5, h6, h7⟩ := h
  have put : ∀ {v1 : AsyncSampler} {s' : Nat} {x : Res SampReactor}, v1.streams.get? s = some r → s' ≠ s → Lost (v1.put s' x) s := by
    intro v1 s' x g hne
    refine ⟨r, ?_, h2, h3, h4, h5, h6, h7⟩
    unfold AsyncSampler.put
    split
    · simp only [AMap.get?_insert, if_neg (Ne.symm hne)]; exact g
    · exact g
  have ask : ∀ {v1 : AsyncSampler} {s' : Nat} {now : Int} {a : Ask}, Lost v1 s → Lost (v1.ask s' now a) s := by
    intro v1 s' now a g
    obtain ⟨r, g⟩ := g
    refine ⟨r, ?_, g.2⟩
    unfold AsyncSampler.ask
    split <;> exact g.1
  have putAsk : ∀ {v1 : AsyncSampler} {s' : Nat} {now : Int} {x : SampReactor × Option Ask}, v1.streams.get? s = some r → s' ≠ s →
      Lost (v1.putAsk s' now x) s := by
    intro v1 s' now x g hne
    obtain ⟨r', a⟩ := x
    cases a with
    | none => exact put g hne
    | some a => exact ask (put g hne)
  unfold AsyncSampler.step at hs
  split at hs
  · cases hs
  cases e with
  | start s' =>
    simp only at hs
    split at hs
    · cases hs
    · rename_i hc
      cases hs
      refine ⟨r, ?_, h2, h3, h4, h5, h6, h7⟩
      rw [AMap.get?_insert, if_neg, h1]
      rintro rfl
      simp [AMap.contains, h1] at hc
  | read s' req now =>
    simp only at hs
    split at hs
    · cases hs
    · rename_i r1 hr1
      split at hs
      · rename_i hrd
        cases hs
        have hne : s' ≠ s := by rintro rfl; rw [h1] at hr1; cases hr1; rw [h3] at hrd; cases hrd
        unfold onRead
        simp only
        split
        · exact put h1 hne
        · split
          · exact put h1 hne
          · split
            · exact put h1 hne
            · exact putAsk h1 hne
      · cases hs
  | write s' ok =>
    simp only at hs
    split at hs
    · cases hs
    · rename_i r1 hr1
      split at hs
      · rename_i hrd
        cases hs
        exact put h1 (by rintro rfl; rw [h1] at hr1; cases hr1; rw [h4] at hrd; cases hrd)
      · cases hs
  | more s' now =>
    simp only at hs
    split at hs
    · cases hs
    · rename_i r1 hr1
      split at hs
      · cases hs
      · rename_i hrd
        cases hs
        exact putAsk h1 (by rintro rfl; rw [h1] at hr1; cases hr1; exact hrd h5)
  | next s' =>
    simp only at hs
    split at hs
    · cases hs
    · rename_i r1 hr1
      split at hs
      · rename_i hrd
        cases hs
        exact put h1 (by rintro rfl; rw [h1] at hr1; cases hr1; rw [h6] at hrd; cases hrd)
      · cases hs
  | cancel s' =>
    simp only at hs
    split at hs
    · cases hs
    · rename_i r1 hr1
      split at hs
      · cases hs
      · cases hs
        by_cases hne : s' = s
        · subst hne
          rw [h1] at hr1
          cases hr1
          exact ⟨r.onCancel, by simp [AsyncSampler.put, AMap.get?_insert], h2, h3, h4, h5, h6, h7⟩
        · exact put h1 hne
  | done s' =>
    simp only at hs
    split at hs
    · cases hs
    · rename_i r1 hr1
      split at hs
      · rename_i hrd
        cases hs
        exact put h1 (by rintro rfl; rw [h1] at hr1; cases hr1; rw [h2] at hrd; cases hrd.1)
      · cases hs
  | table name a =>
    simp only at hs
    split at hs
    · cases hs
    · split at hs
      · cases hs
      · split at hs
        · cases hs
        · cases hs; exact ⟨r, h1, h2, h3, h4, h5, h6, h7⟩
  | deliver name i now =>
    simp only at hs
    split at hs
    · cases hs
    · rename_i t ht
      split at hs
      · cases hs
      · rename_i o ho
        cases hs
        cases o with
        | notify c st => exact ⟨r, h1, h2, h3, h4, h5, h6, h7⟩
        | answer q st =>
          unfold AsyncSampler.deliver
          simp only
          split
          · rename_i hq
            have hne : q.id / 2 ≠ s := by
              intro e
              have hp : q.bare ∈ pendOf v.tables name s := by
                rw [pendOf_some ht]
                refine List.mem_filter.mpr ⟨?_, decide_eq_true (show q.id = reqId s by simp only [reqId]; omega)⟩
                simp only [SampTable.pend, List.mem_append, List.mem_map]
                refine .inl (.inl (.inl ⟨(q, st), ?_, rfl⟩))
                simp only [answers, List.mem_filterMap]
                exact ⟨_, List.mem_of_getElem? ho, rfl⟩
              rw [(hi.link s r h1).empty h7] at hp
              cases hp
            split
            · exact ⟨r, h1, h2, h3, h4, h5, h6, h7⟩
            · split
              · exact ⟨r, h1, h2, h3, h4, h5, h6, h7⟩
              · unfold putRes
                split
                · exact putAsk h1 hne
                · exact ⟨r, h1, h2, h3, h4, h5, h6, h7⟩
          · exact ⟨r, h1, h2, h3, h4, h5, h6, h7⟩

/-- C67 does not hold for streams that are cancelled: here the last response has been written and the next read has not been started when
the client cancels; then no read is started, nothing is under way, and whatever happens later the stream is not finished. -/
theorem C67_false : ∃ evs v, Proper cfgs evs ∧ (init (newTables cfgs)).run wire evs = some v ∧ (v.streams.get? 0).isSome = true ∧
    ∀ more v', Proper cfgs (evs ++ more) → v.run wire more = some v' → v'.endedWith 0 = none := by
  obtain ⟨v, h1, h2⟩ := asyncAfter_run (cs := cfgs) (evs := [.start 0, ains (item1 10), .read 0 (some ⟨"t", 1, some 5, 2⟩) 100] ++ awork 9 200 ++
    [.deliver "t" 1 400, .write 0 true, .more 0 500, .cancel 0, .next 0]) (P := fun v => match v.streams.get? 0 with
      | none => false
      | some r => decide (r.finished = none) && !r.reading && !r.writing && decide (r.after = 0) && !r.resume && !r.waiting) (by decide +kernel)
  refine ⟨_, v, fifo_proper cfgs_fifo _, h1, ?_, fun more v' hp hr => ?_⟩
  · split at h2
    · cases h2
    · rename_i r hr; simp [hr]
  · have hl : Lost v 0 := by
      split at h2
      · cases h2
      · rename_i r hr
        simp only [Bool.and_eq_true, decide_eq_true_eq, Bool.not_eq_true'] at h2
        obtain ⟨⟨⟨⟨⟨a, b⟩, c⟩, d⟩, e⟩, f⟩ := h2
        exact ⟨r, hr, a, b, c, d, e, f⟩
    have hw : ∀ k, (wire.content k).key = k := fun _ => rfl
    have := run_ind (P := fun pre x => Proper cfgs pre → AInv wire cfgs pre x ∧ Lost x 0) (fun pre x e x' ih hs hpre => by
      obtain ⟨i1, i2⟩ := ih fun n a ha => hpre n a (List.mem_append_left _ ha)
      exact ⟨i1.step hw (fun n a ha => hpre n a (List.mem_append_right _ ha)) hs, i2.step i1 hs⟩) more _ _ v'
      (fun h => ⟨AInv.run hw h1 h, hl⟩) hr
    exact (this hp).2.ended

end AsyncSampler

/-- C58 does not hold for a timeout of zero: on the synchronous server the stream can end with `DeadlineExceeded` as soon as it has to
wait; on the asynchronous one it never does. -/
theorem C58_zero_false :
    (∃ evs v, SyncSampler.Proper SampleDemo.cfgs evs ∧ (SyncSampler.init (newTables SampleDemo.cfgs)).run SampleDemo.wire evs = some v ∧
      SyncSampler.requests 0 evs = [⟨"t", 1, some 0, -1⟩] ∧ v.endedWith 0 = some (some .deadlineExceeded)) ∧
    ∀ (cfgs : AMap String Config) (w : Wire), (∀ k, (w.content k).key = k) → ∀ evs v, AsyncSampler.Proper cfgs evs →
      (AsyncSampler.init (newTables cfgs)).run w evs = some v → AsyncSampler.requests 0 evs = [⟨"t", 1, some 0, -1⟩] →
      v.endedWith 0 ≠ some (some .deadlineExceeded) := by
  constructor
  · obtain ⟨v, h1, h2⟩ := SampleDemo.syncAfter_run (evs := [.start 0, .request 0 ⟨"t", 1, some 0, -1⟩, SampleDemo.smp 0 7, .timeout 0 7])
      (P := fun v => decide (v.endedWith 0 = some (some .deadlineExceeded))) (by decide +kernel)
    refine ⟨_, v, ?_, h1, by decide, by simpa using h2⟩
    intro name op h
    simp [SampleDemo.smp] at h
  · intro cfgs w hw evs v hp hr hq
    refine AsyncSampler.C58_async_never hw hp hr fun q hm ms hms => ?_
    rw [hq, List.mem_singleton] at hm
    subst hm
    cases hms
    exact Int.le_refl 0

end Verif
