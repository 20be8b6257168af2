import Verif.Proofs.SampleSync
import Verif.Props.C56_C57_InsertService
import Verif.Props.TableDemo
import Verif.Props.C44_C46_Sample
/-
Sample streams of the synchronous server: how many samples are delivered (C55), and what the timeout means (C58).
-/
namespace Verif
open Table (Op)

theorem SampleReq.valid_iff (r : SampleReq) : r.valid = true ↔ 0 < r.num ∧ (0 < r.flexible ∨ r.flexible = -1) := by
  unfold SampleReq.valid
  rw [Bool.and_eq_true, Bool.or_eq_true, decide_eq_true_eq, decide_eq_true_eq, decide_eq_true_eq]
  rfl

namespace SyncSampler

theorem got_eq {v : SyncSampler} {s : Nat} {x : SampStream} (h : v.streams.get? s = some x) : v.got s = x.got := by simp [got, h]

theorem written_eq {v : SyncSampler} {s : Nat} {x : SampStream} (h : v.streams.get? s = some x) : v.written s = x.written := by simp [written, h]

theorem endedWith_iff {v : SyncSampler} {s : Nat} {st : Option Code} (h : v.endedWith s = some st) :
    ∃ x, v.streams.get? s = some x ∧ x.phase = .ended st := by
  unfold endedWith at h
  split at h
  · rename_i hx
    cases h
    exact ⟨_, hx, rfl⟩
  · cases h

theorem PhaseOk.prefix {w : Wire} {reqs : List SampleReq} {t0 : Option Int} {tm : Option Duration} {full : Bool} {wr : List Entry}
    {got : List (String × Sampled)} {p : SampPhase} (h : PhaseOk w reqs t0 tm full wr got p) :
    Served false reqs got ∧ wr <+: msgs w got := by
  cases p with
  | reading => exact ⟨h.1.weaken, h.2 ▸ List.prefix_rfl⟩
  | ready => exact ⟨h.1.served (by simp), h.2.1 ▸ List.prefix_rfl⟩
  | waiting => exact ⟨h.1.served (by simp), h.2.1 ▸ List.prefix_rfl⟩
  | writing => exact ⟨h.1.served (by simp), ⟨_, h.2.1⟩⟩
  | ended st =>
    cases st with
    | none => exact ⟨h.1.weaken, h.2 ▸ List.prefix_rfl⟩
    | some c => exact ⟨h.1, h.2.1⟩

theorem msgs_collect {w : Wire} (hw : ∀ k, (w.content k).key = k) {got : List (String × Sampled)}
    (hv : ∀ y ∈ got, Table.itemValid y.2.item = true) : NothingLeft (msgs w got) ∧ clientSamples (msgs w got) = localSamples w got := by
  have h := C44_sync w.size w.max (samples := got.map fun x => x.2.sent w) fun s hs => by
    obtain ⟨y, hy, rfl⟩ := List.mem_map.mp hs
    exact Sampled.sent_valid hw (hv y hy)
  rw [List.flatMap_map] at h
  exact ⟨h.1, by simpa [localSamples, clientSamples, msgs, Function.comp_def] using h.2⟩

/-- C55, synchronous server, after any schedule of any number of streams and of other calls of the tables: the process lives; the samples
got for a stream answer its requests in order, never more than asked for, and the tables have made them in that order; what the client makes of the responses is a prefix of
them; and if the stream has ended with OK and was not cancelled, then every request got exactly the samples it asked for and the client
makes of the responses exactly these, as a sampler in the same process would. -/
theorem C55_sync {cfgs : AMap String Config} {w : Wire} (hw : ∀ k, (w.content k).key = k) {evs : List Event} {v : SyncSampler}
    (hp : Proper cfgs evs) (hr : (init (newTables cfgs)).run w evs = some v) (s : Nat) :
    v.dead = false ∧ Served false (requests s evs) (v.got s) ∧ clientSamples (v.written s) <+: localSamples w (v.got s) ∧
    (∀ name t, v.tables.get? name = some t → (samplesFrom name (v.got s)).Sublist t.log) ∧
    (v.endedWith s = some none → ¬ Cancelled s evs →
      Served true (requests s evs) (v.got s) ∧ clientSamples (v.written s) = localSamples w (v.got s) ∧ NothingLeft (v.written s)) := by
  obtain ⟨hi, hd⟩ := inv_run hw hp hr
  refine ⟨hd, ?_⟩
  cases hx : v.streams.get? s with
  | none =>
    have hg : v.got s = [] := by simp [got, hx]
    have hwr : v.written s = [] := by simp [written, hx]
    rw [(hi.fresh s hx).1, hg, hwr]
    refine ⟨rfl, List.prefix_rfl, by simp [samplesFrom], fun he => ?_⟩
    obtain ⟨x, h1, _⟩ := endedWith_iff he
    rw [hx] at h1; cases h1
  | some x =>
    have h0 := hi.ok s x hx
    obtain ⟨p1, p2⟩ := h0.phase.prefix
    obtain ⟨m1, m2⟩ := msgs_collect hw h0.items
    rw [got_eq hx, written_eq hx]
    refine ⟨p1, m2 ▸ clientSamples_prefix p2, h0.logged, fun he hc => ?_⟩
    obtain ⟨x', h1, h2⟩ := endedWith_iff he
    rw [hx] at h1; cases h1
    have hcn : x.cancelled = false := by
      cases hb : x.cancelled with
      | false => rfl
      | true => exact absurd ((hi.cancelled s x hx).mp hb) hc
    have hph := h0.phase
    rw [h2, hcn] at hph
    obtain ⟨q1, q2⟩ := hph
    rw [q2]
    exact ⟨q1, m2, m1⟩

/-- C55, synchronous server: what one call of the table adds are samples of the table of the last request, no more than its batch size
unless that is left to the server. -/
theorem C55_sync_batch {cfgs : AMap String Config} {w : Wire} (hw : ∀ k, (w.content k).key = k) {evs : List Event} {v v' : SyncSampler}
    (hp : Proper cfgs evs) (hr : (init (newTables cfgs)).run w evs = some v) {s : Nat} {now : Int} {ds : Nat → Draw}
    (hs : v.step w (.sample s now ds) = some v') :
    ∃ (req : SampleReq) (l : List Sampled), (requests s evs).getLast? = some req ∧ v'.got s = v.got s ++ l.map (req.table, ·) ∧
      (req.flexible ≠ -1 → (l.length : Int) ≤ req.flexible) := by
  obtain ⟨hi, hd⟩ := inv_run hw hp hr
  have key : ∀ (x : SampStream) (req : SampleReq) (d c : Int) (dl : Duration) (t : Table) (op : Op), v.streams.get? s = some x →
      Part (!x.cancelled) (requests s evs) x.got req c → req.valid = true → c < req.num →
      Table.BatchOk (batchSize req d c) (t.step op) →
      v' = sampled w { v with tables := v.tables.insert req.table (t.step op).1 } s x req d c dl (t.step op).2 →
      ∃ (req : SampleReq) (l : List Sampled), (requests s evs).getLast? = some req ∧ v'.got s = v.got s ++ l.map (req.table, ·) ∧
        (req.flexible ≠ -1 → (l.length : Int) ≤ req.flexible) := by
    intro x req d c dl t op hx hpart hval hc hb he
    have hlast : (requests s evs).getLast? = some req := by
      obtain ⟨_, _, _, h1, _⟩ := hpart
      rw [h1]; simp
    have hsame : ∀ y : SampStream, v'.streams.get? s = some y → y.got = x.got → v'.got s = v.got s ++ ([] : List Sampled).map (req.table, ·) := by
      intro y hy hg
      rw [got_eq hy, got_eq hx, hg]; simp
    have hnil : req.flexible ≠ -1 → ((([] : List Sampled).length : Int)) ≤ req.flexible := by
      have := (SampleReq.valid_iff req).mp hval
      intro hf
      simp only [List.length_nil]
      omega
    unfold SyncSampler.sampled at he
    split at he
    · rename_i l hres
      refine ⟨req, l, hlast, ?_, fun hf => ?_⟩
      · rw [he, got_eq (by rw [setStream_get, if_pos rfl]), got_eq hx]
      · obtain ⟨_, _, g⟩ := hb.res.2 l hres
        have := (SampleReq.valid_iff req).mp hval
        simp only [batchSize, SampleReq.batch, autoSelect, if_neg hf] at g
        omega
    · exact ⟨req, [], hlast, hsame { x with phase := .waiting req d c dl } (by rw [he, setStream_get, if_pos rfl]) rfl, hnil⟩
    · rename_i hres
      exact absurd hres hb.res.1
    · rename_i e _
      exact ⟨req, [], hlast, hsame { x with phase := .ended (some e) } (by rw [he, setStream_get, if_pos rfl]) rfl, hnil⟩
    · exact ⟨req, [], hlast, hsame x (by rw [he]; exact hx) rfl, hnil⟩
  unfold SyncSampler.step at hs
  rw [if_neg (by simp [hd])] at hs
  simp only at hs
  split at hs
  · rename_i tm cn req d c wr gt hx
    split at hs
    · cases hs
    · rename_i hcond
      unfold section_ at hs
      split at hs
      · cases hs
      · rename_i t ht
        have h0 := hi.ok s _ hx
        obtain ⟨p1, p2, p3, p4, p5⟩ := h0.phase
        have hcle : c ≤ req.num := by obtain ⟨_, _, _, _, _, _, _, g, _⟩ := p1; exact g
        exact key _ req d c _ t _ hx p1 p4 (by simp at hcond; omega) (Table.sample_spec (hi.valid _ _ ht) _ _) (Option.some.inj hs).symm
  · rename_i tm cn req d c dl wr gt hx
    unfold section_ at hs
    split at hs
    · cases hs
    · rename_i t ht
      have h0 := hi.ok s _ hx
      obtain ⟨p1, p2, p3, p4, p5, _⟩ := h0.phase
      exact key _ req d c _ t _ hx p1 p4 p5 (Table.sampleResume_spec (hi.valid _ _ ht) _ _) (Option.some.inj hs).symm
  · cases hs

/-- C55, synchronous server: a request for no samples, or with a batch size that is neither positive nor -1, ends the stream with
`InvalidArgument`, and one for an unknown table with `NotFound`; no sample is taken and no table changes. -/
theorem C55_sync_rejects {w : Wire} {v : SyncSampler} {s : Nat} {req : SampleReq} (hd : v.dead = false) (hr : v.Reads s) {c : Code}
    (h : (req.num ≤ 0 ∨ (req.flexible ≤ 0 ∧ req.flexible ≠ -1)) ∧ c = .invalidArgument ∨
      (0 < req.num ∧ (0 < req.flexible ∨ req.flexible = -1)) ∧ v.tables.get? req.table = none ∧ c = .notFound) :
    ∃ v', v.step w (.request s req) = some v' ∧ v'.endedWith s = some (some c) ∧ v'.tables = v.tables ∧ v'.got s = v.got s ∧
      v'.written s = v.written s ∧ ∀ s', s' ≠ s → v'.streams.get? s' = v.streams.get? s' := by
  obtain ⟨⟨tm, cn, p, wr, gt⟩, hx, hp⟩ := hr
  cases hp
  refine ⟨v.setStream s (v.take ⟨tm, cn, .reading, wr, gt⟩ req), by simp [SyncSampler.step, hd, hx], ?_⟩
  have hres : v.take ⟨tm, cn, .reading, wr, gt⟩ req = ⟨some (tm.getD req.syncTimeout), cn, .ended (some c), wr, gt⟩ := by
    unfold take
    rcases h with ⟨h1, rfl⟩ | ⟨h1, h2, rfl⟩
    · have : req.valid = false := by
        rw [Bool.eq_false_iff]
        intro g
        have := (SampleReq.valid_iff req).mp g
        omega
      simp [this]
    · have : req.valid = true := by
        exact (SampleReq.valid_iff req).mpr h1
      simp [this, h2]
  have hget : (v.setStream s (v.take ⟨tm, cn, .reading, wr, gt⟩ req)).streams.get? s = some ⟨some (tm.getD req.syncTimeout), cn, .ended (some c), wr, gt⟩ := by
    rw [setStream_get, if_pos rfl, hres]
  refine ⟨by simp [endedWith, hget], rfl, by rw [got_eq hget, got_eq hx], by rw [written_eq hget, written_eq hx], fun s' hne => ?_⟩
  rw [setStream_get, if_neg hne]

/-- C58, synchronous server: a stream that waits for the rate limiter can end with `DeadlineExceeded` at exactly those times that are at
least as many milliseconds after the beginning of the call as the timeout of the first request of the stream says, if it says a number
that is not negative. -/
theorem C58_sync {cfgs : AMap String Config} {w : Wire} (hw : ∀ k, (w.content k).key = k) {evs : List Event} {v : SyncSampler}
    (hp : Proper cfgs evs) (hr : (init (newTables cfgs)).run w evs = some v) {s : Nat} (hwt : v.Waits s) :
    ∃ t0 r, callStart s evs = some t0 ∧ (requests s evs).head? = some r ∧ ∀ now,
      ((∃ ms, r.timeout = some ms ∧ 0 ≤ ms ∧ t0 + ms * 1000000 ≤ now) →
        ∃ v', v.step w (.timeout s now) = some v' ∧ v'.endedWith s = some (some .deadlineExceeded)) ∧
      ((v.step w (.timeout s now)).isSome → ∃ ms, r.timeout = some ms ∧ 0 ≤ ms ∧ t0 + ms * 1000000 ≤ now) := by
  obtain ⟨hi, hd⟩ := inv_run hw hp hr
  obtain ⟨⟨tm, cn, p, wr, gt⟩, req, d, c, dl, hx, hph⟩ := hwt
  cases hph
  have h0 := hi.ok s _ hx
  obtain ⟨p1, p2, p3, p4, p5, t0, p6, p7⟩ := h0.phase
  have hne : requests s evs ≠ [] := by obtain ⟨b, _, _, h, _⟩ := p1; rw [h]; simp
  obtain ⟨r, rs, hrs⟩ := List.exists_cons_of_ne_nil hne
  have htm := h0.timeout
  rw [hrs] at htm
  simp only [List.head?_cons, Option.map_some] at htm
  subst htm
  simp only [Option.getD_some] at p7
  refine ⟨t0, r, p6, by rw [hrs]; rfl, fun now => ?_⟩
  have hstep : v.step w (.timeout s now) = if passed now dl then
      some (v.setStream s ⟨some r.syncTimeout, cn, .ended (some .deadlineExceeded), wr, gt⟩) else none := by
    simp [SyncSampler.step, hd, hx]
  have hpass : passed now dl = true ↔ ∃ ms, r.timeout = some ms ∧ 0 ≤ ms ∧ t0 + ms * 1000000 ≤ now := by
    rw [p7]
    unfold SampleReq.syncTimeout
    cases ht : r.timeout with
    | none => simp [deadlineAt, passed]
    | some ms =>
      simp only
      split
      · rename_i hneg
        simp only [deadlineAt, passed, Option.some.injEq, exists_eq_left']
        constructor
        · simp
        · intro g; omega
      · rename_i hneg
        simp only [deadlineAt, passed, millis, Option.some.injEq, exists_eq_left', decide_eq_true_eq]
        omega
  constructor
  · intro h
    refine ⟨_, by rw [hstep, if_pos (hpass.mpr h)], ?_⟩
    simp [endedWith, setStream_get]
  · intro h
    apply hpass.mp
    rw [hstep] at h
    split at h
    · assumption
    · simp at h

/-- C58, synchronous server: without a timeout, or with a negative one, in its first request a stream never ends with
`DeadlineExceeded`. -/
theorem C58_sync_never {cfgs : AMap String Config} {w : Wire} (hw : ∀ k, (w.content k).key = k) {evs : List Event} {v : SyncSampler}
    (hp : Proper cfgs evs) (hr : (init (newTables cfgs)).run w evs = some v) {s : Nat}
    (hn : ∀ r, (requests s evs).head? = some r → ∀ ms, r.timeout = some ms → ms < 0) :
    v.endedWith s ≠ some (some .deadlineExceeded) := by
  obtain ⟨hi, hd⟩ := inv_run hw hp hr
  intro he
  obtain ⟨x, hx, h2⟩ := endedWith_iff he
  have h0 := hi.ok s x hx
  have hph := h0.phase
  rw [h2] at hph
  obtain ⟨_, _, h3⟩ := hph
  obtain ⟨ms, h4⟩ := h3 rfl
  rw [h0.timeout, Option.map_eq_some_iff] at h4
  obtain ⟨r, h5, h6⟩ := h4
  have := hn r h5
  unfold SampleReq.syncTimeout at h6
  cases ht : r.timeout with
  | none => simp [ht] at h6
  | some m => simp [ht, this m ht] at h6

/-! ### Cases -/

end SyncSampler

namespace SampleDemo

/-- One table, which lets in one item more than have been sampled. -/
def queueCfg : Config := ⟨10, 1, .fifo, .fifo, 1, 1, 0, 2, by decide⟩

def cfgs : AMap String Config := ⟨[("t", queueCfg)], by decide⟩

/-- Two chunks for a message. -/
def wire : Wire := ⟨fun e => e.data.length, fun _ => 1, 2, InsertDemo.chunk⟩

/-- An item over three chunks. -/
def item3 (k : Key) : Item := ⟨k, .val 1, 0, 0, [⟨[⟨k, 0, 1, 0⟩, ⟨k + 1, 0, 1, 0⟩, ⟨k + 2, 0, 1, 0⟩], false⟩], [⟨k, 1⟩, ⟨k + 1, 1⟩, ⟨k + 2, 1⟩]⟩

/-- An insert by another call. -/
def ins (k : Key) : SyncSampler.Event := .table "t" (.insert (item3 k) 1 (draw 0))

def smp (s : Nat) (now : Int) : SyncSampler.Event := .sample s now fun _ => draw 0

def syncAfter (evs : List SyncSampler.Event) (P : SyncSampler → Bool) : Bool := ((SyncSampler.init (newTables cfgs)).run wire evs).any P

theorem syncAfter_run {evs : List SyncSampler.Event} {P : SyncSampler → Bool} (h : syncAfter evs P = true) :
    ∃ v, (SyncSampler.init (newTables cfgs)).run wire evs = some v ∧ P v = true := by
  unfold syncAfter at h
  cases hr : (SyncSampler.init (newTables cfgs)).run wire evs with
  | none => simp [hr] at h
  | some v => exact ⟨v, rfl, by simpa [hr] using h⟩

/-- A stream asks for three samples and then for one more, has to wait, gets them and ends; another one is cancelled; a third one waits. -/
def demo : List SyncSampler.Event :=
  [.start 0, .start 1, .start 2, ins 10, ins 20, .request 0 ⟨"t", 3, some 5, 2⟩, smp 0 100, .write 0 true, .write 0 true, .write 0 true,
   .write 0 true, smp 0 200, ins 30, smp 0 300, .write 0 true, .write 0 true, .next 0, .request 0 ⟨"t", 1, none, -1⟩,
   .request 1 ⟨"t", 7, none, 4⟩, ins 40, smp 1 400, .cancel 1, .write 1 true, .write 1 true, .next 1, .eof 1, ins 50,
   smp 0 500, .write 0 true, .write 0 true, .next 0, .eof 0, .request 2 ⟨"t", 1, some 3, -1⟩, smp 2 1000, smp 2 2000]

theorem demo_proper : SyncSampler.Proper cfgs demo := by
  intro name op h
  have hop : ∃ k, op = .insert (item3 k) 1 (draw 0) ∧ Table.itemValid (item3 k) = true := by
    simp only [demo, ins, smp, List.mem_cons, List.not_mem_nil, or_false, SyncSampler.Event.table.injEq, reduceCtorEq, false_or] at h
    rcases h with ⟨_, rfl⟩ | ⟨_, rfl⟩ | ⟨_, rfl⟩ | ⟨_, rfl⟩ | ⟨_, rfl⟩ <;> exact ⟨_, rfl, by decide⟩
  obtain ⟨k, rfl, hval⟩ := hop
  refine ⟨fun i now hi => ?_, fun c hc => ?_⟩
  · simp only [Op.item, Option.some.injEq, Prod.mk.injEq] at hi
    rw [← hi.1]
    exact hval
  · simp only [cfgs, AMap.get?, List.lookup_cons] at hc
    split at hc
    · cases hc; exact ⟨rfl, rfl⟩
    · cases hc

end SampleDemo

namespace SyncSampler
open SampleDemo

/-- Meets the hypotheses of the theorems of this file. -/
example : ∃ v, (init (newTables cfgs)).run wire demo = some v ∧ v.endedWith 0 = some none ∧ (v.got 0).map (fun x => x.2.item.key) = [10, 20, 30, 50] ∧
    (v.written 0).length = 8 ∧ v.endedWith 1 = some none ∧ (v.got 1).map (fun x => x.2.item.key) = [40] ∧ callStart 2 demo = some 1000 ∧
    (v.step wire (.timeout 2 3000999)).isSome = false ∧ (v.step wire (.timeout 2 3001000)).isSome = true := by
  obtain ⟨v, h1, h2⟩ := syncAfter_run (evs := demo) (P := fun v => decide (v.endedWith 0 = some none) &&
    decide ((v.got 0).map (fun x => x.2.item.key) = [10, 20, 30, 50]) && decide ((v.written 0).length = 8) && decide (v.endedWith 1 = some none) &&
    decide ((v.got 1).map (fun x => x.2.item.key) = [40]) && !(v.step wire (.timeout 2 3000999)).isSome &&
    (v.step wire (.timeout 2 3001000)).isSome) (by decide +kernel)
  simp only [Bool.and_eq_true, decide_eq_true_eq, Bool.not_eq_true'] at h2
  obtain ⟨⟨⟨⟨⟨⟨a, b⟩, c⟩, d⟩, e⟩, f⟩, g⟩ := h2
  exact ⟨v, h1, a, b, c, d, e, by decide +kernel, f, g⟩

/-- Some of the requests that are rejected. -/
example : ∃ v, (init (newTables cfgs)).run wire [.start 0] = some v ∧ v.dead = false ∧ v.Reads 0 := ⟨_, rfl, rfl, _, rfl, rfl⟩

/-- C58 does not hold for the later requests of a stream on the synchronous server: here the last request says 1 ms, and the stream waits
for ever. -/
theorem C58_later_requests_false : ∃ evs v r, Proper cfgs evs ∧ (init (newTables cfgs)).run wire evs = some v ∧ v.Waits 0 ∧
    (requests 0 evs).getLast? = some r ∧ r.timeout = some 1 ∧ ∀ now, v.step wire (.timeout 0 now) = none := by
  let evs : List Event := [.start 0, ins 10, .request 0 ⟨"t", 1, none, -1⟩, smp 0 0, .write 0 true, .write 0 true, .next 0,
    .request 0 ⟨"t", 1, some 1, -1⟩, smp 0 0]
  have hp : Proper cfgs evs := by
    intro name op h
    refine demo_proper name op ?_
    simp only [evs, demo, ins, smp, List.mem_cons, List.not_mem_nil, or_false, reduceCtorEq, false_or] at h ⊢
    exact .inl h
  obtain ⟨v, h1, h2⟩ := syncAfter_run (evs := evs) (P := fun v => match v.streams.get? 0 with
    | some ⟨_, _, .waiting _ _ _ _, _, _⟩ => true
    | _ => false) (by decide +kernel)
  have hw : v.Waits 0 := by
    split at h2
    · rename_i hx; exact ⟨_, _, _, _, _, hx, rfl⟩
    · cases h2
  obtain ⟨t0, r, c1, c2, c3⟩ := C58_sync (w := wire) (fun _ => rfl) hp h1 hw
  have hr : r = ⟨"t", 1, none, -1⟩ := Option.some.inj (c2.symm.trans (by decide))
  refine ⟨evs, v, ⟨"t", 1, some 1, -1⟩, hp, h1, hw, by decide, rfl, fun now => ?_⟩
  have := (c3 now).2
  cases hs : v.step wire (.timeout 0 now) with
  | none => rfl
  | some v' =>
    rw [hs] at this
    obtain ⟨ms, g, _⟩ := this rfl
    rw [hr] at g
    cases g

end SyncSampler
end Verif
