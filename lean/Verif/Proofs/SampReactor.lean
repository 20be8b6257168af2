import Verif.Proofs.SampleTable
import Verif.Proofs.SampleSync
/-
Invariant of one sample stream of the asynchronous server.
-/
namespace Verif
open SyncSampler (Part)

/-- No samples are missing for the current request. -/
def SampReactor.Idle (r : SampReactor) : Prop := ∀ t, r.task = some t → t.next = 0

/-- The task belongs to the last of the requests that was not ignored. -/
def TaskOk (reqs : List SampleReq) (finished : Option (Option Code)) (got : List (String × Sampled)) (t : SampTask) : Prop :=
  ∃ rs req more, reqs = rs ++ [req] ++ more ∧ (finished = none → more = []) ∧ req.valid = true ∧ t.timeout = req.asyncTimeout ∧
    t.table = req.table ∧ t.requested = req.num ∧ 1 ≤ t.batch ∧ (req.flexible ≠ -1 → t.batch = req.flexible) ∧
    Part true (rs ++ [req]) got req t.fetched

/-- The invariant, except that sampling may have to be started. -/
structure RInv0 (w : Wire) (reqs : List SampleReq) (r : SampReactor) : Prop where
  canc : r.cancelled = true → r.stillReading = false
  wr : r.finished = none → (r.writing = true ↔ r.out.queue ≠ [])
  gone : r.gone = true → r.finished ≠ none ∧ r.reading = false ∧ r.writing = false ∧ r.after = 0 ∧ r.resume = false
  noTask : r.task = none → r.waiting = false ∧ r.resume = false ∧ r.out.queue = [] ∧ r.writing = false ∧ r.after = 0 ∧ r.got = [] ∧
    (r.finished = none → reqs = [])
  task : ∀ t, r.task = some t → TaskOk reqs r.finished r.got t
  read : r.reading = true → r.waiting = false ∧ r.resume = false ∧ r.Idle
  res : r.resume = true → r.waiting = false ∧ r.Idle
  wait : r.waiting = true → ¬ r.Idle
  still : r.stillReading = false → r.cancelled = false → r.reading = false ∧ r.resume = false ∧ r.waiting = false ∧ r.Idle
  ok : r.finished = some none → r.cancelled = false → r.stillReading = false ∧ Served true reqs r.got ∧
    clientSamples r.out.written.flatten = localSamples w r.got ∧ NothingLeft r.out.written.flatten
  rest : r.finished = none → r.cancelled = false → r.Idle → r.reading = true ∨ r.resume = true ∨ (r.stillReading = false ∧ r.out.queue ≠ [])
  inv : r.finished = none → Reactor.Inv r.out (r.got.map fun x => x.2.sent w)
  sent : clientSamples r.out.written.flatten <+: localSamples w r.got
  items : ∀ y ∈ r.got, Table.itemValid y.2.item = true

/-- The invariant. -/
structure RInv (w : Wire) (reqs : List SampleReq) (r : SampReactor) : Prop extends RInv0 w reqs r where
  busy : r.finished = none → ¬ r.Idle → r.waiting = true ∨ r.writing = true ∨ 0 < r.after

namespace SampReactor
variable {w : Wire} {reqs : List SampleReq} {r : SampReactor}

theorem idle_iff {t : SampTask} (h : r.task = some t) : r.Idle ↔ t.next = 0 := by
  unfold Idle; rw [h]; simp

theorem make_ok : RInv w [] make := by
  refine ⟨?_, by simp [make, Idle]⟩
  constructor <;> simp [make, Idle, clientSamples, collectAll, localSamples]
  exact ⟨by simp, [], .nil, rfl⟩

theorem TaskOk.pos {reqs : List SampleReq} {f : Option (Option Code)} {got : List (String × Sampled)} {t : SampTask} (h : TaskOk reqs f got t) :
    0 ≤ t.fetched ∧ t.fetched ≤ t.requested ∧ 1 ≤ t.batch ∧ 0 ≤ t.next := by
  obtain ⟨rs, req, more, _, _, _, _, _, h1, h2, _, _, _, _, _, _, h3, h4, _⟩ := h
  unfold SampTask.next
  omega

theorem next_zero {reqs : List SampleReq} {f : Option (Option Code)} {got : List (String × Sampled)} {t : SampTask} (h : TaskOk reqs f got t)
    (h0 : t.next = 0) : t.fetched = t.requested := by
  have := TaskOk.pos h
  unfold SampTask.next at h0
  omega

/-- When no samples are missing, all requests have been served. -/
theorem served (h : RInv0 w reqs r) (hi : r.Idle) (hf : r.finished = none) : Served true reqs r.got := by
  cases ht : r.task with
  | none => obtain ⟨_, _, _, _, _, h6, h7⟩ := h.noTask ht; rw [h7 hf, h6]; rfl
  | some t =>
    have h1 := h.task t ht
    have h2 := next_zero h1 ((idle_iff ht).mp hi)
    obtain ⟨rs, req, more, g1, g2, _, _, _, g3, _, _, g4⟩ := h1
    rw [g1, g2 hf, List.append_nil]
    exact g4.served fun _ => ⟨rfl, by omega⟩

theorem served_false (h : RInv0 w reqs r) : Served false reqs r.got := by
  have more : ∀ (more rs : List SampleReq) (got : List (String × Sampled)), Served false rs got → Served false (rs ++ more) got := by
    intro more
    induction more with
    | nil => intro rs got h; simpa using h
    | cons q more ih =>
      intro rs got h
      have := h.snoc (r := q) (b := []) (by simp) (by simp) (by simp)
      have := ih _ _ this
      simpa using this
  cases ht : r.task with
  | none =>
    obtain ⟨_, _, _, _, _, h6, h7⟩ := h.noTask ht
    rw [h6]
    simpa using more reqs [] [] rfl
  | some t =>
    obtain ⟨rs, req, m, g1, g2, _, _, _, g3, _, _, g4⟩ := h.task t ht
    rw [g1]
    exact more _ _ _ (g4.served (by simp))

/-- What the client has when nothing is waiting to be written. -/
theorem all_sent (hw : ∀ k, (w.content k).key = k) (h : RInv0 w reqs r) (hf : r.finished = none) (hq : r.out.queue.tail = []) :
    clientSamples r.out.written.flatten = localSamples w r.got ∧ NothingLeft r.out.written.flatten := by
  obtain ⟨_, gs, hgs, hent⟩ := h.inv hf
  rw [hq] at hent
  have hall := collect_groups hgs []
  have hs := hgs.samples fun s hs => by
    obtain ⟨y, hy, rfl⟩ := List.mem_map.mp hs
    exact Sampled.sent_valid hw (h.items y hy)
  simp only [List.flatten_nil, List.append_nil] at hent
  unfold clientSamples NothingLeft collectAll localSamples
  rw [hent, hall]
  refine ⟨?_, rfl⟩
  simpa [Function.comp_def] using hs

/-- `SetReactorAsFinished` with an error. -/
theorem fail_ok {reqs' : List SampleReq} (h : RInv0 w reqs r) (hf : r.finished = none) (c : Code)
    (hq : reqs' = reqs ∨ ∃ q, reqs' = reqs ++ [q]) :
    ∃ r', r.setFinished (some c) = .ok r' ∧ RInv w reqs' r' ∧ r'.finished = some (some c) ∧ r'.waiting = r.waiting ∧ r'.task = r.task ∧
      r'.gone = r.gone ∧ r'.cancelled = r.cancelled ∧ r'.got = r.got ∧ r'.out.written = r.out.written := by
  refine ⟨{ r with out := { r.out with queue := [] }, finished := some (some c) }, ?_, ?_, rfl, rfl, rfl, rfl, rfl, rfl, rfl⟩
  · simp [setFinished, hf]
  · refine ⟨⟨h.canc, by simp, fun g => absurd hf (h.gone g).1, fun g => ?_, fun t ht => ?_, h.read, h.res, h.wait, h.still, by simp, by simp,
      by simp, h.sent, h.items⟩, by simp⟩
    · obtain ⟨h1, h2, h3, h4, h5, h6, h7⟩ := h.noTask g
      exact ⟨h1, h2, rfl, h4, h5, h6, by simp⟩
    · obtain ⟨rs, req, more, g1, _, g3⟩ := h.task t ht
      rcases hq with rfl | ⟨q, rfl⟩
      · exact ⟨rs, req, more, g1, by simp, g3⟩
      · exact ⟨rs, req, more ++ [q], by rw [g1, List.append_assoc], by simp, g3⟩

/-- `SetReactorAsFinished` with OK. -/
theorem finish_ok (hw : ∀ k, (w.content k).key = k) (h : RInv0 w reqs r) (hf : r.finished = none) (hq : r.out.queue = [])
    (hs : r.stillReading = false) :
    ∃ r', r.setFinished none = .ok r' ∧ RInv w reqs r' ∧ r'.waiting = r.waiting ∧ r'.task = r.task ∧ r'.gone = r.gone ∧
      r'.cancelled = r.cancelled ∧ r'.got = r.got := by
  refine ⟨{ r with out := { r.out with queue := [] }, finished := some none }, ?_, ?_, rfl, rfl, rfl, rfl, rfl⟩
  · simp [setFinished, hf, hq]
  · refine ⟨⟨h.canc, by simp, fun g => absurd hf (h.gone g).1, fun g => ?_, fun t ht => ?_, h.read, h.res, h.wait, h.still, fun _ hc => ?_, by simp,
      by simp, h.sent, h.items⟩, by simp⟩
    · obtain ⟨h1, h2, h3, h4, h5, h6, h7⟩ := h.noTask g
      exact ⟨h1, h2, rfl, h4, h5, h6, by simp⟩
    · obtain ⟨rs, req, more, g1, _, g3⟩ := h.task t ht
      exact ⟨rs, req, more, g1, by simp, g3⟩
    · have a := served h (h.still hs hc).2.2.2 hf
      have b := all_sent hw h hf (by rw [hq]; rfl)
      exact ⟨hs, a, b⟩

/-- No more requests. -/
theorem readEnd_ok {reqs' : List SampleReq} (hw : ∀ k, (w.content k).key = k) (h : RInv w reqs r) (hr : r.reading = true)
    (hq : reqs' = reqs ∨ (r.finished ≠ none ∧ ∃ q, reqs' = reqs ++ [q])) :
    ∃ r', ({ r with reading := false } : SampReactor).readEnd = .ok r' ∧ RInv w reqs' r' ∧ r'.waiting = r.waiting ∧ r'.task = r.task ∧
      r'.gone = r.gone ∧ r'.cancelled = r.cancelled ∧ r'.got = r.got ∧ (r'.finished = r.finished ∨ r'.finished = some none) := by
  have hidle := h.read hr
  have hok : r.finished = some none → r.cancelled = true := by
    intro g
    cases hc : r.cancelled with
    | true => rfl
    | false =>
      have := (h.still (h.ok g hc).1 hc).1
      rw [hr] at this
      cases this
  have hno : r.task = none → r.finished = none → reqs' = [] := fun g hf => by
    rcases hq with rfl | ⟨hq, _⟩
    · exact (h.noTask g).2.2.2.2.2.2 hf
    · exact absurd hf hq
  have htask : ∀ t, r.task = some t → TaskOk reqs' r.finished r.got t := fun t ht => by
    rcases hq with rfl | ⟨hf, q, rfl⟩
    · exact h.task t ht
    · obtain ⟨rs, req, more, g1, g2, g3⟩ := h.task t ht
      exact ⟨rs, req, more ++ [q], by rw [g1, List.append_assoc], fun e => absurd e hf, g3⟩
  unfold readEnd
  simp only
  have hnt : r.task = none → r.waiting = false ∧ r.resume = false ∧ r.out.queue = [] ∧ r.writing = false ∧ r.after = 0 ∧ r.got = [] ∧
      (r.finished = none → reqs' = []) := fun g => by
    obtain ⟨h1, h2, h3, h4, h5, h6, h7⟩ := h.noTask g
    exact ⟨h1, h2, h3, h4, h5, h6, hno g⟩
  by_cases hc : r.out.queue = [] ∧ r.finished = none
  · rw [if_pos hc]
    have hreq : reqs' = reqs := by
      rcases hq with hq | hq
      · exact hq
      · exact absurd hc.2 hq.1
    subst hreq
    have a := served h.toRInv0 hidle.2.2 hc.2
    have b := all_sent hw h.toRInv0 hc.2 (by rw [hc.1]; rfl)
    refine ⟨{ r with reading := false, stillReading := false, out := { r.out with queue := [] }, finished := some none }, ?_, ?_, rfl, rfl, rfl, rfl, rfl, .inr rfl⟩
    · simp [setFinished, hc.1, hc.2]
    · refine ⟨⟨fun _ => rfl, by simp, fun g => absurd hc.2 (h.gone g).1, fun g => ?_, fun t ht => ?_, by simp, h.res, h.wait,
        fun _ _ => ⟨rfl, hidle.2.1, hidle.1, hidle.2.2⟩, fun _ _ => ⟨rfl, a, b⟩, by simp, by simp, h.sent, h.items⟩, by simp⟩
      · obtain ⟨h1, h2, h3, h4, h5, h6, h7⟩ := h.noTask g
        exact ⟨h1, h2, rfl, h4, h5, h6, by simp⟩
      · obtain ⟨rs, req, more, g1, _, g3⟩ := h.task t ht
        exact ⟨rs, req, more, g1, by simp, g3⟩
  · rw [if_neg hc]
    refine ⟨_, rfl, ⟨⟨fun _ => rfl, h.wr, fun g => ⟨(h.gone g).1, rfl, (h.gone g).2.2⟩, hnt, htask, by simp, h.res, h.wait,
        fun _ _ => ⟨rfl, hidle.2.1, hidle.1, hidle.2.2⟩, fun g1 g2 => ?_, fun g1 _ _ => .inr (.inr ⟨rfl, fun e => hc ⟨e, g1⟩⟩), h.inv,
        h.sent, h.items⟩, h.busy⟩, rfl, rfl, rfl, rfl, rfl, .inl rfl⟩
    have := hok g1
    simp only at g2
    rw [this] at g2
    cases g2

/-- A write is done. -/
theorem onWrite_ok (hw : ∀ k, (w.content k).key = k) (h : RInv w reqs r) (hwr : r.writing = true) (ok : Bool) :
    ∃ r', r.onWrite ok = .ok r' ∧ RInv w reqs r' ∧ r'.waiting = r.waiting ∧ r'.task = r.task ∧ r'.gone = r.gone ∧
      r'.cancelled = r.cancelled ∧ r'.got = r.got ∧
      (r'.finished = r.finished ∨ r'.finished = some none ∨ (ok = false ∧ r'.finished = some (some .internal))) := by
  have hgone : r.gone = false := by
    cases hg : r.gone with
    | false => rfl
    | true => have := (h.gone hg).2.2.1; rw [hwr] at this; cases this
  have hsome : ∃ t, r.task = some t := by
    cases ht : r.task with
    | none => have := (h.noTask ht).2.2.2.1; rw [hwr] at this; cases this
    | some t => exact ⟨t, rfl⟩
  obtain ⟨t, ht⟩ := hsome
  have hgf : ∀ {P : Prop}, r.gone = true → P := fun g => by rw [hgone] at g; cases g
  have hnn : ∀ {P : Prop}, r.task = none → P := fun g => by rw [ht] at g; cases g
  unfold onWrite
  simp only
  by_cases hf : r.finished.isSome
  · rw [if_pos hf]
    have hf' : r.finished ≠ none := by intro e; simp [e] at hf
    exact ⟨_, rfl, ⟨⟨h.canc, fun e => absurd e hf', fun g => hgf g, fun g => hnn g, h.task, h.read, h.res, h.wait, h.still, h.ok,
      fun e => absurd e hf', fun e => absurd e hf', h.sent, h.items⟩, fun e => absurd e hf'⟩, rfl, rfl, rfl, rfl, rfl, .inl rfl⟩
  · rw [if_neg hf]
    have hf' : r.finished = none := by simpa using hf
    have hne := (h.wr hf').mp hwr
    obtain ⟨a, l, hal⟩ := List.exists_cons_of_ne_nil hne
    cases ok with
    | false =>
      refine ⟨{ r with writing := false, after := r.after + 1, out := { r.out with queue := [] }, finished := some (some .internal) }, ?_, ?_,
        rfl, rfl, rfl, rfl, rfl, .inr (.inr ⟨rfl, rfl⟩)⟩
      · simp [setFinished, hf']
      · refine ⟨⟨h.canc, by simp, fun g => hgf g, fun g => hnn g, fun t ht => ?_, h.read, h.res, h.wait, h.still, by simp, by simp,
          by simp, h.sent, h.items⟩, by simp⟩
        obtain ⟨rs, req, more, g1, _, g3⟩ := h.task t ht
        exact ⟨rs, req, more, g1, by simp, g3⟩
    | true =>
      simp only [Bool.not_true, Bool.false_eq_true, if_false, hal, List.tail_cons]
      by_cases hc : (!r.stillReading) = true ∧ l = []
      · rw [if_pos hc]
        have hs : r.stillReading = false := by simpa using hc.1
        have b := all_sent hw h.toRInv0 hf' (by rw [hal, List.tail_cons]; exact hc.2)
        refine ⟨{ r with writing := false, after := r.after + 1, out := { r.out with queue := [] }, finished := some none }, ?_, ?_, rfl, rfl, rfl, rfl, rfl, .inr (.inl rfl)⟩
        · simp [setFinished, hf', hc.2]
        · refine ⟨⟨h.canc, by simp, fun g => hgf g, fun g => hnn g, fun t ht => ?_, h.read, h.res, h.wait, h.still, fun _ hcc => ?_,
            by simp, by simp, h.sent, h.items⟩, by simp⟩
          · obtain ⟨rs, req, more, g1, _, g3⟩ := h.task t ht
            exact ⟨rs, req, more, g1, by simp, g3⟩
          · have a := served h.toRInv0 (h.still hs hcc).2.2.2 hf'
            exact ⟨hs, a, b⟩
      · rw [if_neg hc]
        have hinv := Reactor.inv_step (bytes := w.bytes) (max := w.max) (h.inv hf') .writeDone (by simp [Reactor.samplesOf])
        have hq' := Reactor.writeDone_queue r.out
        simp only [Reactor.samplesOf, List.flatMap_cons, List.flatMap_nil, List.append_nil, Reactor.step, hne, if_false] at hinv
        rw [hal, List.tail_cons] at hq'
        have hwd : r.out.writeDone = ({ r.out with queue := l } : Reactor).sendNext := by simp [Reactor.writeDone, hal]
        rw [hwd] at hinv hq'
        have hsent : clientSamples ({ r.out with queue := l } : Reactor).sendNext.written.flatten <+: localSamples w r.got := by
          obtain ⟨_, gs, hgs, hent⟩ := hinv
          have hall := collect_groups hgs []
          have hs := hgs.samples fun s hs => by
            obtain ⟨y, hy, rfl⟩ := List.mem_map.mp hs
            exact Sampled.sent_valid hw (h.items y hy)
          have := SyncSampler.clientSamples_prefix (a := ({ r.out with queue := l } : Reactor).sendNext.written.flatten) ⟨_, hent⟩
          unfold clientSamples localSamples collectAll at *
          rw [hall] at this
          rw [List.nil_append, hs, List.map_map] at this
          exact this
        have hrest : r.cancelled = false → r.Idle → r.reading = true ∨ r.resume = true ∨ (r.stillReading = false ∧ l ≠ []) := by
          intro g1 g2
          rcases h.rest hf' g1 g2 with g | g | ⟨g, _⟩
          · exact .inl g
          · exact .inr (.inl g)
          · exact .inr (.inr ⟨g, fun e => hc ⟨by simp [g], e⟩⟩)
        unfold maybeSend
        simp only [hf', Option.isSome_none, Bool.false_eq_true, or_false, if_false]
        by_cases hl : l = []
        · rw [if_pos hl]
          have he : ({ r.out with queue := l } : Reactor).sendNext = { r.out with queue := l } := by simp [Reactor.sendNext, hl]
          rw [he] at hinv hsent
          exact ⟨_, rfl, ⟨⟨h.canc, (fun _ => by simp [hl]), fun g => hgf g, fun g => hnn g, (by simpa only [hf'] using h.task), h.read,
            h.res, h.wait, h.still, by simp, fun _ => hrest, fun _ => hinv, hsent, h.items⟩, fun _ _ => .inr (.inr (Nat.succ_pos _))⟩, rfl, rfl, rfl,
            rfl, rfl, .inl rfl⟩
        · rw [if_neg hl]
          exact ⟨_, rfl, ⟨⟨h.canc, (fun _ => by simp only [hq']; simp [hl]), fun g => hgf g, fun g => hnn g,
            (by simpa only [hf'] using h.task), h.read, h.res, h.wait, h.still, by simp, (fun _ => by simp only [hq']; exact hrest), fun _ => hinv, hsent, h.items⟩,
            fun _ _ => .inr (.inr (Nat.succ_pos _))⟩, rfl, rfl, rfl, rfl, rfl, .inl rfl⟩

/-- The callback calls `MaybeStartRead`. -/
theorem next_ok (h : RInv w reqs r) (hr : r.resume = true) :
    ∃ r', ({ r with resume := false } : SampReactor).maybeStartRead = .ok r' ∧ RInv w reqs r' ∧ r'.waiting = r.waiting ∧ r'.task = r.task ∧
      r'.gone = r.gone ∧ r'.cancelled = r.cancelled ∧ r'.got = r.got ∧ r'.finished = r.finished := by
  have hread : r.reading = false := by
    cases hx : r.reading with
    | false => rfl
    | true => have := (h.read hx).2.1; rw [hr] at this; cases this
  have hgone : r.gone = false := by
    cases hg : r.gone with
    | false => rfl
    | true => have := (h.gone hg).2.2.2.2; rw [hr] at this; cases this
  have hgf : ∀ {P : Prop}, r.gone = true → P := fun g => by rw [hgone] at g; cases g
  have hnn : ∀ {P : Prop}, r.task = none → P := fun g => by have := (h.noTask g).2.1; rw [hr] at this; cases this
  have hidle := h.res hr
  unfold maybeStartRead
  by_cases hc : r.stillReading = true ∧ ¬ r.cancelled = true ∧ r.finished = none
  · rw [if_pos hc]
    simp only [startRead, hread, Bool.false_eq_true, if_false]
    exact ⟨_, rfl, ⟨⟨h.canc, h.wr, fun g => hgf g, fun g => hnn g, h.task, fun _ => ⟨hidle.1, rfl, hidle.2⟩, by simp, h.wait,
      fun g => (by simp only at g; rw [hc.1] at g; cases g), h.ok, fun _ _ _ => .inl rfl, h.inv, h.sent, h.items⟩, h.busy⟩, rfl, rfl, rfl, rfl, rfl, rfl⟩
  · rw [if_neg hc]
    refine ⟨_, rfl, ⟨⟨h.canc, h.wr, fun g => hgf g, fun g => hnn g, h.task, fun g => (by simp only [hread] at g; cases g), by simp, h.wait,
      fun g1 g2 => ?_, h.ok, fun g1 g2 g3 => ?_, h.inv, h.sent, h.items⟩, h.busy⟩, rfl, rfl, rfl, rfl, rfl, rfl⟩
    · have := (h.still g1 g2).2.1; rw [hr] at this; cases this
    · exfalso
      cases hs : r.stillReading with
      | true => exact hc ⟨hs, by simpa using g2, g1⟩
      | false => have := (h.still hs g2).2.1; rw [hr] at this; cases this

theorem cancel_ok (h : RInv w reqs r) : RInv w reqs r.onCancel :=
  ⟨⟨fun _ => rfl, h.wr, h.gone, h.noTask, h.task, h.read, h.res, h.wait, (fun _ g => by cases g), (fun _ g => by cases g), (fun _ g => by cases g),
    h.inv, h.sent, h.items⟩, h.busy⟩

theorem done_ok (h : RInv w reqs r) (h1 : r.finished.isSome = true) (h2 : r.reading = false) (h3 : r.writing = false) (h4 : r.after = 0)
    (h5 : r.resume = false) : RInv w reqs { r with gone := true } :=
  ⟨⟨h.canc, h.wr, fun _ => ⟨(fun e => by have e : r.finished = none := e; simp [e] at h1), h2, h3, h4, h5⟩, h.noTask, h.task, h.read, h.res, h.wait, h.still, h.ok, h.rest,
    h.inv, h.sent, h.items⟩, h.busy⟩

/-- The answer of `MaybeStartSampling`, if it was waiting for samples before or not. -/
def AskOk (before : Bool) (r' : SampReactor) : Option Ask → Prop
  | none => r'.waiting = before
  | some a => before = false ∧ r'.waiting = true ∧ ∃ t, r'.task = some t ∧ 1 ≤ t.next ∧ a = ⟨t.table, t.next.toNat, t.timeout⟩

theorem maybeSample_eq {t : SampTask} (ht : r.task = some t) : r.maybeSample =
    if t.next = 0 ∨ r.waiting ∨ maxQueuedResponses ≤ r.out.queue.length then (r, none)
    else ({ r with waiting := true }, some ⟨t.table, t.next.toNat, t.timeout⟩) := by
  unfold maybeSample; rw [ht]

/-- What `MaybeStartSampling` does. -/
theorem maybeSample_ok (h : RInv0 w reqs r) :
    ∃ r' a, r.maybeSample = (r', a) ∧ RInv w reqs r' ∧ AskOk r.waiting r' a ∧ r'.task = r.task ∧ r'.gone = r.gone ∧
      r'.cancelled = r.cancelled ∧ r'.got = r.got ∧ r'.finished = r.finished := by
  obtain ⟨o, ht⟩ : ∃ o, r.task = o := ⟨_, rfl⟩
  cases o with
  | none =>
    exact ⟨r, none, by unfold maybeSample; rw [ht], ⟨h, fun _ g => absurd (by intro t e; rw [ht] at e; cases e) g⟩, rfl, rfl, rfl, rfl, rfl, rfl⟩
  | some t =>
    rw [maybeSample_eq ht]
    by_cases hc : t.next = 0 ∨ r.waiting = true ∨ maxQueuedResponses ≤ r.out.queue.length
    · rw [if_pos hc]
      refine ⟨r, none, rfl, ⟨h, fun hf hi => ?_⟩, rfl, rfl, rfl, rfl, rfl, rfl⟩
      rcases hc with hc | hc | hc
      · exact absurd ((idle_iff ht).mpr hc) hi
      · exact .inl hc
      · refine .inr (.inl ((h.wr hf).mpr fun e => ?_))
        rw [e] at hc
        simp [maxQueuedResponses] at hc
    · rw [if_neg hc]
      have hn : t.next ≠ 0 := fun e => hc (.inl e)
      have hi : ¬ r.Idle := fun e => hn ((idle_iff ht).mp e)
      have hp := TaskOk.pos (h.task t ht)
      have hwf : r.waiting = false := by
        cases hx : r.waiting with
        | false => rfl
        | true => exact absurd (.inr (.inl hx)) hc
      refine ⟨_, _, rfl, ⟨⟨h.canc, h.wr, h.gone, fun g => ?_, h.task, fun g => absurd (h.read g).2.2 hi,
        fun g => absurd (h.res g).2 hi, fun _ => hi, fun g1 g2 => absurd (h.still g1 g2).2.2.2 hi, h.ok, h.rest, h.inv, h.sent, h.items⟩,
        fun _ _ => .inl rfl⟩, ⟨hwf, rfl, t, ht, by omega, rfl⟩, rfl, rfl, rfl, rfl, rfl⟩
      simp only at g
      rw [ht] at g
      cases g

/-- The sample reactor looks for more to do after a write. -/
theorem more_ok (h : RInv w reqs r) (ha : r.after ≠ 0) :
    ∃ r' a, ({ r with after := r.after - 1 } : SampReactor).maybeSample = (r', a) ∧ RInv w reqs r' ∧ AskOk r.waiting r' a ∧ r'.task = r.task ∧
      r'.gone = r.gone ∧ r'.cancelled = r.cancelled ∧ r'.got = r.got ∧ r'.finished = r.finished := by
  have hgf : ∀ {P : Prop}, r.gone = true → P := fun g => absurd (h.gone g).2.2.2.1 ha
  have hnn : ∀ {P : Prop}, r.task = none → P := fun g => absurd (h.noTask g).2.2.2.2.1 ha
  exact maybeSample_ok (r := { r with after := r.after - 1 }) ⟨h.canc, h.wr, fun g => hgf g, fun g => hnn g, h.task, h.read, h.res, h.wait,
    h.still, h.ok, h.rest, h.inv, h.sent, h.items⟩

/-- A good request. -/
theorem request_ok (h : RInv w reqs r) (hr : r.reading = true) (hf : r.finished = none) {q : SampleReq} (hv : q.valid = true) {d : Int}
    (hd : 1 ≤ d) :
    ∃ r' a, ({ r with reading := false, task := some ⟨q.asyncTimeout, q.table, q.batch d, 0, q.num⟩ } : SampReactor).maybeSample = (r', a) ∧
      RInv w (reqs ++ [q]) r' ∧ AskOk false r' a ∧ r'.gone = r.gone ∧ r'.cancelled = r.cancelled ∧ r'.got = r.got ∧ r'.finished = r.finished ∧
      r'.task = some ⟨q.asyncTimeout, q.table, q.batch d, 0, q.num⟩ ∧ (r.out.queue.length < maxQueuedResponses → r'.waiting = true) := by
  have hidle := h.read hr
  have hgf : ∀ {P : Prop}, r.gone = true → P := fun g => by have := (h.gone g).2.1; rw [hr] at this; cases this
  have hv' := hv
  simp only [SampleReq.valid, Bool.and_eq_true, Bool.or_eq_true, decide_eq_true_eq] at hv'
  have hb : 1 ≤ q.batch d := by unfold SampleReq.batch; split <;> omega
  have hs := served h.toRInv0 hidle.2.2 hf
  have hni : ¬ ({ r with reading := false, task := some ⟨q.asyncTimeout, q.table, q.batch d, 0, q.num⟩ } : SampReactor).Idle := by
    rw [idle_iff rfl]
    simp only [SampTask.next]
    omega
  have hst : r.stillReading = false → r.cancelled = false → False := fun g1 g2 => by
    have := (h.still g1 g2).1; rw [hr] at this; cases this
  have h0 : RInv0 w (reqs ++ [q]) { r with reading := false, task := some ⟨q.asyncTimeout, q.table, q.batch d, 0, q.num⟩ } := by
    refine ⟨h.canc, h.wr, fun g => hgf g, by simp, fun t ht => ?_, by simp, fun g => ?_, fun g => ?_, fun g1 g2 => (hst g1 g2).elim,
      fun g => ?_, fun _ _ g => absurd g hni, h.inv, h.sent, h.items⟩
    · simp only [Option.some.injEq] at ht
      subst ht
      exact ⟨reqs, q, [], by simp, fun _ => rfl, hv, rfl, rfl, rfl, hb, fun g => by simp [SampleReq.batch, autoSelect, g],
        reqs, r.got, [], rfl, by simp, hs, by simp, by simp only; omega, by simp⟩
    · simp only [hidle.2.1] at g
      cases g
    · simp only [hidle.1] at g
      cases g
    · simp only [hf] at g
      cases g
  obtain ⟨r', a, h1, h2, h3, h4, h5, h6, h7, h8⟩ := maybeSample_ok h0
  refine ⟨r', a, h1, h2, ?_, h5, h6, h7, h8, h4, fun hl => ?_⟩
  · simpa only [hidle.1] using h3
  · rw [maybeSample_eq rfl, if_neg] at h1
    · cases h1; rfl
    · simp only [hidle.1, SampTask.next]
      simp only [Bool.false_eq_true, false_or, Nat.not_le, not_or]
      omega

theorem sent_of_inv (hw : ∀ k, (w.content k).key = k) {o : Reactor} {got : List (String × Sampled)}
    (h : o.Inv (got.map fun x => x.2.sent w)) (hv : ∀ y ∈ got, Table.itemValid y.2.item = true) :
    clientSamples o.written.flatten <+: localSamples w got := by
  obtain ⟨_, gs, hgs, hent⟩ := h
  have hall := collect_groups hgs []
  have hs := hgs.samples fun s hs => by
    obtain ⟨y, hy, rfl⟩ := List.mem_map.mp hs
    exact Sampled.sent_valid hw (hv y hy)
  have := SyncSampler.clientSamples_prefix (a := o.written.flatten) ⟨_, hent⟩
  unfold clientSamples localSamples collectAll at *
  rw [hall] at this
  rw [List.nil_append, hs, List.map_map] at this
  exact this

/-- The samples of a batch. -/
theorem deliver_ok (hw : ∀ k, (w.content k).key = k) {got : List (String × Sampled)} (hq : r.finished = none → (r.writing = true ↔ r.out.queue ≠ []))
    (hi : r.finished = none → Reactor.Inv r.out (got.map fun x => x.2.sent w)) (hs : clientSamples r.out.written.flatten <+: localSamples w got)
    {samples : List Sampled} (name : String) (hv : ∀ y ∈ samples, Table.itemValid y.item = true) (hg : ∀ y ∈ got, Table.itemValid y.2.item = true) :
    ∃ out wr, deliverSamples w r samples = .ok { r with out := out, writing := wr } ∧ (r.finished = none → (wr = true ↔ out.queue ≠ [])) ∧
      (r.finished = none → Reactor.Inv out ((got ++ samples.map (name, ·)).map fun x => x.2.sent w)) ∧
      clientSamples out.written.flatten <+: localSamples w (got ++ samples.map (name, ·)) ∧ (r.finished ≠ none → wr = r.writing ∧ out.written = r.out.written) := by
  have hall : ∀ y ∈ got ++ samples.map (name, ·), Table.itemValid y.2.item = true := by
    intro y hy
    rcases List.mem_append.mp hy with hy | hy
    · exact hg y hy
    · obtain ⟨z, hz, rfl⟩ := List.mem_map.mp hy
      exact hv z hz
  have hch : ∀ s ∈ samples.map (Sampled.sent w), s.chunks ≠ [] := by
    intro s hs
    obtain ⟨y, hy, rfl⟩ := List.mem_map.mp hs
    exact (Sampled.sent_valid hw (hv y hy)).ne
  have hfold : ∀ b, samples.foldl (fun o s => o.processSample w.bytes w.max b (s.sent w)) r.out =
      (samples.map (Sampled.sent w)).foldl (Reactor.processSample w.bytes w.max b) r.out := fun b => by rw [List.foldl_map]
  unfold deliverSamples
  simp only [hfold]
  obtain ⟨gs, g1, g2, g3, g4⟩ := Reactor.samples_ok w.bytes w.max (!r.out.queue.isEmpty) (samples.map (Sampled.sent w)) r.out hch
  by_cases hf : r.finished = none
  · have hstep := Reactor.inv_step (bytes := w.bytes) (max := w.max) (hi hf) (.batch (samples.map (Sampled.sent w)))
      (by simpa [Reactor.samplesOf] using hch)
    have hgot : (got.map fun x => x.2.sent w) ++ Reactor.samplesOf [.batch (samples.map (Sampled.sent w))] =
        (got ++ samples.map (name, ·)).map fun x => x.2.sent w := by
      simp [Reactor.samplesOf, Function.comp_def]
    rw [hgot] at hstep
    simp only [Reactor.step, Reactor.sampled] at hstep
    generalize hR : (samples.map (Sampled.sent w)).foldl (Reactor.processSample w.bytes w.max (!r.out.queue.isEmpty)) r.out = R at *
    by_cases hq0 : r.out.queue = []
    · have hwr : r.writing = false := by
        cases hx : r.writing with
        | false => rfl
        | true => exact absurd hq0 ((hq hf).mp hx)
      simp only [hq0, List.isEmpty_nil, Bool.not_true, Bool.false_eq_true, if_false] at hR hstep ⊢
      unfold maybeSend
      simp only [hf, Option.isSome_none, Bool.false_eq_true, or_false, hwr, if_false]
      by_cases hR0 : R.queue = []
      · rw [if_pos hR0]
        have he : R.sendNext = R := by simp [Reactor.sendNext, hR0]
        rw [he] at hstep
        exact ⟨R, false, by rw [← hwr, ← hf], fun _ => by simp [hR0], fun _ => hstep, sent_of_inv hw hstep hall, fun e => absurd rfl e⟩
      · rw [if_neg hR0]
        have he : R.sendNext.queue = R.queue := by unfold Reactor.sendNext; split <;> simp_all
        exact ⟨R.sendNext, true, by rw [← hf], fun _ => by simp [he, hR0], fun _ => hstep, sent_of_inv hw hstep hall, fun e => absurd rfl e⟩
    · obtain ⟨a, l, hal⟩ := List.exists_cons_of_ne_nil hq0
      have hb : (!r.out.queue.isEmpty) = true := by simp [hal]
      simp only [hb, if_true] at hR hstep ⊢
      obtain ⟨l', hl'⟩ := g4 a l hal hb
      exact ⟨R, r.writing, rfl, fun _ => by rw [hl']; simp [(hq hf).mpr hq0], fun _ => hstep, sent_of_inv hw hstep hall, fun e => absurd hf e⟩
  · generalize hR : (samples.map (Sampled.sent w)).foldl (Reactor.processSample w.bytes w.max (!r.out.queue.isEmpty)) r.out = R at *
    have hsent : clientSamples R.written.flatten <+: localSamples w (got ++ samples.map (name, ·)) := by
      rw [g2]
      refine hs.trans ?_
      simp [localSamples]
    refine ⟨R, r.writing, ?_, fun e => absurd e hf, fun e => absurd e hf, hsent, fun _ => ⟨rfl, g2⟩⟩
    have hsome : r.finished.isSome = true := by cases h : r.finished <;> simp_all
    split
    · rfl
    · unfold maybeSend
      rw [if_pos (.inr hsome)]

/-- The callback. -/
theorem onAnswer_ok (hw : ∀ k, (w.content k).key = k) (h : RInv w reqs r) (hg : r.gone = false) (hwait : r.waiting = true) {t : SampTask}
    (ht : r.task = some t) {samples : List Sampled} {st : Worker.Status} (hlen : st = none → (samples.length : Int) = t.next)
    (hv : ∀ y ∈ samples, Table.itemValid y.item = true) :
    ∃ r' a, r.onAnswer w samples st = .ok (r', a) ∧ RInv w reqs r' ∧ AskOk false r' a ∧ r'.gone = r.gone ∧ r'.cancelled = r.cancelled ∧
      r'.got = (if st = none then r.got ++ samples.map (t.table, ·) else r.got) ∧
      (r'.finished = r.finished ∨ ∃ e, st = some e ∧ r'.finished = some (some e)) ∧ ∀ t', r'.task = some t' → t'.table = t.table := by
  have hgf : ∀ {P : Prop}, r.gone = true → P := fun g => by rw [hg] at g; cases g
  have hnn : ∀ {P : Prop}, r.task = none → P := fun g => by rw [ht] at g; cases g
  have hi := h.wait hwait
  have hni : t.next ≠ 0 := fun e => hi ((idle_iff ht).mpr e)
  have hread : r.reading = true → False := fun g => hi (h.read g).2.2
  have hres : r.resume = true → False := fun g => hi (h.res g).2
  have hst : r.stillReading = false → r.cancelled = false → False := fun g1 g2 => hi (h.still g1 g2).2.2.2
  have h0 : RInv0 w reqs { r with waiting := false } :=
    ⟨h.canc, h.wr, fun g => hgf g, fun g => hnn g, h.task, fun g => (hread g).elim, fun g => (hres g).elim, by simp,
      fun g1 g2 => (hst g1 g2).elim, h.ok, h.rest, h.inv, h.sent, h.items⟩
  unfold onAnswer
  simp only
  cases st with
  | some e =>
    simp only [reduceCtorEq, if_false]
    by_cases hf : r.finished.isSome = true
    · rw [if_pos hf]
      exact ⟨_, none, rfl, ⟨h0, fun g => by have g : r.finished = none := g; simp [g] at hf⟩, rfl, rfl, rfl, rfl, .inl rfl, fun t' ht' => by rw [show r.task = some t' from ht'] at ht; cases ht; rfl⟩
    · rw [if_neg hf]
      have hf' : r.finished = none := by simpa using hf
      obtain ⟨r', h1, h2, h8, h3, h4, h5, h6, h7, _⟩ := fail_ok h0 hf' e (.inl rfl)
      rw [h1]
      exact ⟨r', none, rfl, h2, h3, h5, h6, h7, .inr ⟨e, rfl, h8⟩, fun t' ht' => by rw [h4] at ht'; rw [show r.task = some t' from ht'] at ht; cases ht; rfl⟩
  | none =>
    have hp := TaskOk.pos (h.task t ht)
    have hl := hlen rfl
    have hle : t.next ≤ t.requested - t.fetched := by unfold SampTask.next; omega
    simp only [if_true]
    unfold onSamples
    rw [show ({ r with waiting := false } : SampReactor).task = some t from ht]
    simp only
    obtain ⟨out, wr, d1, d2, d3, d4, d5⟩ := deliver_ok (r := { r with
        waiting := false
        task := some { t with fetched := t.fetched + samples.length }
        got := r.got ++ samples.map (t.table, ·) }) hw (got := r.got) h.wr h.inv h.sent (samples := samples) t.table hv h.items
    rw [d1]
    simp only
    have hitems : ∀ y ∈ r.got ++ samples.map (t.table, ·), Table.itemValid y.2.item = true := by
      intro y hy
      rcases List.mem_append.mp hy with hy | hy
      · exact h.items y hy
      · obtain ⟨z, hz, rfl⟩ := List.mem_map.mp hy
        exact hv z hz
    have htask : TaskOk reqs r.finished (r.got ++ samples.map (t.table, ·)) { t with fetched := t.fetched + samples.length } := by
      obtain ⟨rs, req, more, k1, k2, k3, k4, k5, k6, k7, k8, k9⟩ := h.task t ht
      refine ⟨rs, req, more, k1, k2, k3, k4, k5, k6, k7, k8, ?_⟩
      rw [k5]
      exact k9.more samples (by omega)
    have hok : r.finished = some none → r.cancelled = true := by
      intro g
      cases hc : r.cancelled with
      | true => rfl
      | false => exact (hst (h.ok g hc).1 hc).elim
    have hbase : ∀ (res : Bool), (res = true ↔ ({ t with fetched := t.fetched + samples.length } : SampTask).next = 0) →
        RInv0 w reqs { r with
          waiting := false
          task := some { t with fetched := t.fetched + samples.length }
          got := r.got ++ samples.map (t.table, ·)
          out := out
          writing := wr
          resume := res } := by
      intro res hres
      refine ⟨h.canc, d2, fun g => hgf g, by simp, fun t' ht' => ?_, fun g => (hread g).elim, fun g => ⟨rfl, ?_⟩, by simp,
        fun g1 g2 => (hst g1 g2).elim, fun g1 g2 => ?_, fun g1 g2 g3 => .inr (.inl ?_), d3, d4, hitems⟩
      · simp only [Option.some.injEq] at ht'
        subst ht'
        exact htask
      · exact (idle_iff rfl).mpr (hres.mp g)
      · have g2 : r.cancelled = false := g2
        rw [hok g1] at g2
        cases g2
      · exact hres.mpr ((idle_iff rfl).mp g3)
    by_cases hz : ({ t with fetched := t.fetched + samples.length } : SampTask).next = 0
    · rw [if_neg (by simpa using hz)]
      refine ⟨_, none, rfl, ⟨hbase true (by simp [hz]), fun _ g => absurd ((idle_iff rfl).mpr hz) g⟩, rfl, rfl, rfl, rfl, .inl rfl, fun t' ht' => by cases ht'; rfl⟩
    · rw [if_pos hz]
      have hrf : r.resume = false := by
        cases hx : r.resume with
        | false => rfl
        | true => exact (hres hx).elim
      have hb := hbase r.resume (by simp [hrf, hz])
      obtain ⟨r', a, m1, m2, m3, m4, m5, m6, m7, m8⟩ := maybeSample_ok hb
      exact ⟨r', a, by rw [← m1], m2, m3, m5, m6, m7, .inl m8, fun t' ht' => by rw [m4] at ht'; cases ht'; rfl⟩

end SampReactor
end Verif
