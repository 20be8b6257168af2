import Verif.Spec.ClientSampler
/-
The invariant of the client sampler.
-/
namespace Verif

/-! ### Lists and maps -/

/-- A sum over a list of which one element is changed. -/
theorem sum_modify {α : Type} (f : α → Int) (g : α → α) {l : List α} {i : Nat} {a : α} (h : l[i]? = some a) :
    ((l.modify i g).map f).sum = (l.map f).sum - f a + f (g a) := by
  induction l generalizing i with
  | nil => simp at h
  | cons b l ih =>
    cases i with
    | zero =>
      simp only [List.getElem?_cons_zero, Option.some.injEq] at h
      subst h
      simp only [List.modify_zero_cons, List.map_cons, List.sum_cons]
      omega
    | succ i =>
      simp only [List.getElem?_cons_succ] at h
      simp only [List.modify_succ_cons, List.map_cons, List.sum_cons]
      rw [ih h]
      omega

/-- The elements of a list of which one is changed. -/
theorem mem_modify {α : Type} {g : α → α} {l : List α} {i : Nat} {a b : α} (h : l[i]? = some a) (hb : b ∈ l.modify i g) :
    b ∈ l ∨ b = g a := by
  obtain ⟨j, hj⟩ := List.mem_iff_getElem?.mp hb
  rw [List.getElem?_modify] at hj
  by_cases hij : i = j
  · subst hij
    rw [h] at hj
    simp at hj
    exact .inr hj.symm
  · simp only [hij, if_false, Option.map_eq_map] at hj
    left
    cases hx : l[j]? with
    | none => rw [hx] at hj; simp at hj
    | some y =>
      rw [hx] at hj
      simp at hj
      subst hj
      exact List.mem_of_getElem? hx

namespace AMap
variable {α : Type}

/-- The number of values with a property. -/
def count (m : AMap Nat α) (p : α → Bool) : Nat := m.entries.countP fun e => p e.2

theorem count_erase {m : AMap Nat α} {x : Nat} {a : α} (p : α → Bool) (h : m.get? x = some a) :
    m.count p = (m.erase x).count p + if p a then 1 else 0 := by
  obtain ⟨l, hl⟩ := m
  simp only [get?, count, erase] at h ⊢
  induction l with
  | nil => simp at h
  | cons e l ih =>
    obtain ⟨k, b⟩ := e
    simp only [List.map_cons, List.nodup_cons] at hl
    rw [List.lookup_cons] at h
    by_cases hk : x = k
    · subst hk
      simp only [beq_self_eq_true, Option.some.injEq] at h
      subst h
      have hf : l.filter (fun e => decide (e.1 ≠ x)) = l := by
        apply List.filter_eq_self.mpr
        intro e he
        simp only [ne_eq, decide_not, Bool.not_eq_true', decide_eq_false_iff_not]
        intro hc
        exact hl.1 (List.mem_map.mpr ⟨e, he, hc⟩)
      rw [List.filter_cons_of_neg (by simp), hf, List.countP_cons]
    · have hk' : (x == k) = false := by simpa using hk
      rw [hk'] at h
      have := ih hl.2 h
      rw [List.filter_cons_of_pos (by simp; exact fun h => hk h.symm), List.countP_cons, List.countP_cons]
      omega

theorem count_erase_none {m : AMap Nat α} {x : Nat} (p : α → Bool) (h : m.get? x = none) : (m.erase x).count p = m.count p := by
  obtain ⟨l, hl⟩ := m
  simp only [get?, count, erase] at h ⊢
  have hf : l.filter (fun e => decide (e.1 ≠ x)) = l := by
    apply List.filter_eq_self.mpr
    intro e he
    rw [List.lookup_eq_none_iff] at h
    have := h e he
    simp only [bne_iff_ne, ne_eq] at this
    simp only [ne_eq, decide_not, Bool.not_eq_true', decide_eq_false_iff_not]
    exact fun hc => this hc.symm
  rw [hf]

theorem count_insert {m : AMap Nat α} {x : Nat} {a b : α} (p : α → Bool) (h : m.get? x = some a) :
    (m.insert x b).count p + (if p a then 1 else 0) = m.count p + if p b then 1 else 0 := by
  have h1 := count_erase p h
  have h2 : (m.insert x b).count p = (m.erase x).count p + if p b then 1 else 0 := by
    show ((x, b) :: (m.erase x).entries).countP _ = _
    rw [List.countP_cons]
    rfl
  omega

theorem count_insert_same {m : AMap Nat α} {x : Nat} {a b : α} (p : α → Bool) (h : m.get? x = some a) (hp : p a = p b) :
    (m.insert x b).count p = m.count p := by
  have := count_insert (b := b) p h
  rw [hp] at this
  omega

theorem count_insert_new {m : AMap Nat α} {x : Nat} {a b : α} (p : α → Bool) (h : m.get? x = some a) (ha : p a = false) (hb : p b = true) :
    (m.insert x b).count p = m.count p + 1 := by
  have := count_insert (b := b) p h
  simp only [ha, hb, if_true, Bool.false_eq_true, if_false] at this
  omega

theorem count_erase_true {m : AMap Nat α} {x : Nat} {a : α} (p : α → Bool) (h : m.get? x = some a) (ha : p a = true) :
    m.count p = (m.erase x).count p + 1 := by
  have := count_erase p h
  simpa only [ha, if_true] using this

theorem count_erase_false {m : AMap Nat α} {x : Nat} {a : α} (p : α → Bool) (h : m.get? x = some a) (ha : p a = false) :
    m.count p = (m.erase x).count p := by
  have := count_erase p h
  simpa only [ha, Bool.false_eq_true, if_false, Nat.add_zero] using this

theorem count_insert_none {m : AMap Nat α} {x : Nat} {b : α} (p : α → Bool) (h : m.get? x = none) :
    (m.insert x b).count p = m.count p + if p b then 1 else 0 := by
  have h1 := count_erase_none p h
  have h2 : (m.insert x b).count p = (m.erase x).count p + if p b then 1 else 0 := by
    show ((x, b) :: (m.erase x).entries).countP _ = _
    rw [List.countP_cons]
    rfl
  omega

theorem count_pos {m : AMap Nat α} {x : Nat} {a : α} {p : α → Bool} (h : m.get? x = some a) (hp : p a = true) : 0 < m.count p := by
  have := count_erase p h
  simp only [hp, if_true] at this
  omega

theorem count_pos_iff {m : AMap Nat α} {p : α → Bool} : 0 < m.count p ↔ ∃ x a, m.get? x = some a ∧ p a = true := by
  constructor
  · intro h
    obtain ⟨⟨x, a⟩, he, hp⟩ := List.countP_pos_iff.mp h
    refine ⟨x, a, ?_, hp⟩
    obtain ⟨l, hl⟩ := m
    simp only [get?] at *
    clear h
    induction l with
    | nil => cases he
    | cons e l ih =>
      obtain ⟨k, b⟩ := e
      simp only [List.map_cons, List.nodup_cons] at hl
      rw [List.lookup_cons]
      rcases List.mem_cons.mp he with he' | he'
      · cases he'
        simp
      · have hne : (x == k) = false := by
          simp only [beq_eq_false_iff_ne, ne_eq]
          intro hc
          subst hc
          exact hl.1 (List.mem_map.mpr ⟨(x, a), he', rfl⟩)
        rw [hne]
        exact ih hl.2 he'
  · rintro ⟨x, a, h, hp⟩
    exact count_pos h hp

end AMap

/-! ### Samples -/

/-- A sample that has just been made is not at its end. -/
theorem Sample.new_fresh {info : SampleInfo} {cc : List (List Tensor)} {sq : List Bool} {s : Sample} (h : Sample.new info cc sq = .ok s) :
    s.isEndOfSample = false := by
  unfold Sample.new at h
  split at h
  · cases h
  · cases h
  · rename_i first rest hne
    obtain ⟨t, ts, rfl⟩ : ∃ t ts, first = t :: ts := by
      cases first with
      | nil => exact absurd rfl hne
      | cons t ts => exact ⟨t, ts, rfl⟩
    simp only at h
    split at h
    · cases h
    · cases h; simp [Sample.isEndOfSample]
    · split at h
      · cases h
      · cases h; simp [Sample.isEndOfSample]

theorem asSampleGrpc_fresh {es : List Entry} {s : Sample} (h : asSampleGrpc es = .ok s) : s.isEndOfSample = false := by
  unfold asSampleGrpc at h
  split at h
  · cases h
  · simp only at h
    split at h
    · cases h
    · cases h
    · exact Sample.new_fresh h

theorem asSampleLocal_fresh {x : SampledItem} {s : Sample} (h : asSampleLocal x = .ok s) : s.isEndOfSample = false := by
  unfold asSampleLocal at h
  split at h
  · cases h
  · cases h
  · exact Sample.new_fresh h

namespace ClientSampler

/-- How many samples a worker may still push before it reports. -/
def room : SWPhase → Int
  | .fetch n got _ => n - got
  | _ => 0

/-- How many samples a worker has taken from the total and not pushed. -/
def out : SWPhase → Int
  | .fetch n got _ => n - got
  | .report n got _ => n - got
  | _ => 0

/-- How many samples of the last request are to come. -/
def pend : SWPhase → Int
  | .fetch _ _ (.reading want sampled _) => want - sampled
  | .fetch _ _ (.pushing want sampled _ _) => want - sampled
  | _ => 0

/-- The sum over the workers. -/
def total (f : SWPhase → Int) (v : ClientSampler) : Int := (v.workers.map fun w => f w.phase).sum

/-- The sampler gets its samples from a server. -/
def _root_.Verif.SamplerCfg.isGrpc (c : SamplerCfg) : Bool :=
  match c.source with
  | .grpc _ _ _ => true
  | .here _ => false

/-- The workers are to stop, for good. -/
def Stop (c : SamplerCfg) (v : ClientSampler) : Prop := v.closed = true ∨ v.returned = c.max ∨ v.status ≠ none

/-- What a call to the server or the table looks like. -/
def FetchOk (c : SamplerCfg) (n got : Int) : Fetch → Prop
  | .opening => c.isGrpc = true ∧ got = 0
  | .asking => c.isGrpc = true
  | .reading want sampled _ => c.isGrpc = true ∧ 0 ≤ sampled ∧ sampled ≤ want ∧ want - sampled ≤ n - got
  | .pushing want sampled s rest => c.isGrpc = true ∧ 0 ≤ sampled ∧ sampled + 1 + (rest.filter Entry.last).length ≤ want ∧
      want - sampled ≤ n - got ∧ s.isEndOfSample = false
  | .checking _ _ => c.isGrpc = false
  | .sampling _ _ batch _ => c.isGrpc = false ∧ batch ≤ n - got
  | .pushingHere _ _ s rest => c.isGrpc = false ∧ got + 1 + rest.length ≤ n ∧ s.isEndOfSample = false

/-- What a worker looks like. -/
def PhaseOk (c : SamplerCfg) : SWPhase → Prop
  | .fetch n got f => 0 ≤ got ∧ got ≤ n ∧ FetchOk c n got f
  | .report n got _ => 0 ≤ got ∧ got ≤ n
  | _ => True

/-- A call that holds a sample. -/
def isHolding : CallPhase → Bool
  | .holding _ _ => true
  | _ => false

/-- A call of `GetNextTimestep`. -/
def isStep : CallPhase → Bool
  | .popping k _ => decide (k = .timestep)
  | .failed k => decide (k = .timestep)
  | .holding k _ => decide (k = .timestep)
  | .stepping => true

/-- All calls. -/
def isCall : CallPhase → Bool := fun _ => true

/-- The invariant. -/
structure SInv (c : SamplerCfg) (v : ClientSampler) : Prop where
  phase : ∀ w ∈ v.workers, PhaseOk c w.phase
  stopped : ∀ w ∈ v.workers, w.phase = .stopped → Stop c v
  room : (v.pushed.length : Int) + total room v ≤ c.max
  req : v.closed = false → v.requested = v.pushed.length + total out v
  reqle : v.closed = false → v.requested ≤ c.max
  sent : c.isGrpc = true → v.asked = v.pushed.length + total pend v + v.abandoned
  acc : ∃ lost : Nat, (v.pushed.length : Int) = v.queue.length + v.returned + v.calls.count isHolding +
    (if v.partlyRead then 1 else 0) + lost ∧ lost ≤ v.log.countP SampleOut.isError
  ret : v.returned = v.delivered
  fresh : ∀ s ∈ v.queue, s.isEndOfSample = false
  qc : v.queueClosed = true → Stop c v
  full : v.returned = c.max → v.queueClosed = true
  bad : v.status ≠ none → v.queueClosed = true
  failed : ∀ x k, v.calls.get? x = some (.failed k) → v.queueClosed = true
  excl : 0 < v.calls.count isStep → v.calls.count isCall = 1
  tpop : ∀ x t, v.calls.get? x = some (.popping .timestep t) → v.partlyRead = false
  tstep : ∀ x, v.calls.get? x = some .stepping → v.partlyRead = true
  hold : ∀ x k s, v.calls.get? x = some (.holding k s) → k ≠ .timestep ∧ s.isEndOfSample = false
  wclosed : ∀ w ∈ v.workers, w.closed = true → v.closed = true
  closing : v.closed = true ↔ v.closing ≠ .notCalled
  joining : v.closing = .joining ∨ v.closing = .done → v.queueClosed = true ∧ ∀ w ∈ v.workers, w.closed = true
  cancelled : ∀ i, v.closing = .cancelling i → ∀ j < i, ∀ w, v.workers[j]? = some w → w.closed = true
  done : v.closing = .done → ∀ w ∈ v.workers, w.phase = .stopped

/-- What the constructor makes sure of. -/
structure _root_.Verif.SamplerCfg.Valid (c : SamplerCfg) : Prop where
  max : 0 < c.max
  perStream : 0 < c.perStream
  cap : 0 < c.cap
  workers : 0 < c.workers
  request : ∀ t a b, c.source = .grpc t a b → 0 < a
  batch : ∀ b, c.source = .here b → 0 < b

theorem total_setPhase (f : SWPhase → Int) {v : ClientSampler} {i : Nat} {w : SWorker} (h : v.workers[i]? = some w) (p : SWPhase) :
    total f (v.setPhase i p) = total f v - f w.phase + f p :=
  sum_modify (fun w : SWorker => f w.phase) (fun w => { w with phase := p }) h

/-- The same for the changed list. -/
theorem total_mod (f : SWPhase → Int) {v : ClientSampler} {i : Nat} {w : SWorker} (h : v.workers[i]? = some w) (p : SWPhase) :
    ((v.workers.modify i fun w => { w with phase := p }).map fun w => f w.phase).sum = total f v - f w.phase + f p :=
  total_setPhase f h p

theorem total_le (v : ClientSampler) (h : ∀ w ∈ v.workers, PhaseOk c w.phase) : total pend v ≤ total room v := by
  unfold total
  generalize v.workers = l at h
  induction l with
  | nil => simp
  | cons w l ih =>
    simp only [List.map_cons, List.sum_cons]
    have h1 := ih fun x hx => h x (List.mem_cons_of_mem _ hx)
    have h2 := h w List.mem_cons_self
    have h3 : pend w.phase ≤ ClientSampler.room w.phase := by
      cases hp : w.phase with
      | fetch n got f =>
        rw [hp] at h2
        cases f <;> simp only [pend, ClientSampler.room, PhaseOk, FetchOk] at h2 ⊢ <;> omega
      | _ => simp [pend, ClientSampler.room]
    omega

theorem room_nonneg (v : ClientSampler) (h : ∀ w ∈ v.workers, PhaseOk c w.phase) : 0 ≤ total room v := by
  unfold total
  generalize v.workers = l at h
  induction l with
  | nil => simp
  | cons w l ih =>
    simp only [List.map_cons, List.sum_cons]
    have h1 := ih fun x hx => h x (List.mem_cons_of_mem _ hx)
    have h2 := h w List.mem_cons_self
    have h3 : 0 ≤ ClientSampler.room w.phase := by
      cases hp : w.phase with
      | fetch n got f =>
        rw [hp] at h2
        simp only [ClientSampler.room, PhaseOk] at h2 ⊢
        omega
      | _ => simp [ClientSampler.room]
    omega

/-- A step of a worker. -/
theorem SInv.worker {c : SamplerCfg} {v : ClientSampler} {i : Nat} {w : SWorker} (h : SInv c v) (hw : v.workers[i]? = some w)
    (hns : w.phase ≠ .stopped) (req : Int) (st : Option Code) (qc : Bool) (k : List (Nat × Sample)) (snt : List SampleReq) (a : Int)
    (p : SWPhase) (hp : PhaseOk c p) (hstop : p = .stopped → v.closed = true ∨ v.returned = c.max ∨ st ≠ none)
    (hst : v.status ≠ none → st ≠ none) (hqc : qc = true → v.queueClosed = true ∨ v.closed = true ∨ st ≠ none)
    (hqc2 : v.queueClosed = true → qc = true) (hbad : st ≠ none → qc = true)
    (hroom : (v.pushed.length : Int) + k.length + total ClientSampler.room v - ClientSampler.room w.phase + ClientSampler.room p ≤ c.max)
    (hreq : v.closed = false → req = v.requested + k.length + out p - out w.phase) (hreqle : v.closed = false → req ≤ c.max)
    (hsent : c.isGrpc = true → (snt.map SampleReq.num).sum = k.length + pend p - pend w.phase + a)
    (hfresh : ∀ x ∈ k, x.2.isEndOfSample = false) :
    SInv c ({ v with
      requested := req
      status := st
      queueClosed := qc
      queue := v.queue ++ k.map Prod.snd
      pushed := v.pushed ++ k
      sent := v.sent ++ snt
      abandoned := v.abandoned + a }.setPhase i p) := by
  have hsto : ∀ {v' : ClientSampler}, v'.closed = v.closed → v'.returned = v.returned → v'.status = st → Stop c v → Stop c v' := by
    intro v' e1 e2 e3 hs
    unfold Stop
    rw [e1, e2, e3]
    rcases hs with hs | hs | hs
    · exact .inl hs
    · exact .inr (.inl hs)
    · exact .inr (.inr (hst hs))
  have hwm : w ∈ v.workers := List.mem_of_getElem? hw
  constructor
  · intro w' hw'
    rcases mem_modify hw hw' with g | g
    · exact h.phase w' g
    · rw [g]; exact hp
  · intro w' hw' hs
    rcases mem_modify hw hw' with g | g
    · exact hsto rfl rfl rfl (h.stopped w' g hs)
    · rw [g] at hs
      exact hstop hs
  · show ((v.pushed ++ k).length : Int) + ((v.workers.modify i fun w => { w with phase := p }).map fun w => ClientSampler.room w.phase).sum ≤ _
    rw [total_mod _ hw, List.length_append]
    push_cast
    omega
  · intro hc
    show req = ((v.pushed ++ k).length : Int) + ((v.workers.modify i fun w => { w with phase := p }).map fun w => out w.phase).sum
    have hc : v.closed = false := hc
    rw [total_mod _ hw, List.length_append, hreq hc, h.req hc]
    push_cast
    omega
  · exact hreqle
  · intro hg
    show ((v.sent ++ snt).map SampleReq.num).sum = ((v.pushed ++ k).length : Int) +
      ((v.workers.modify i fun w => { w with phase := p }).map fun w => pend w.phase).sum + (v.abandoned + a)
    rw [total_mod _ hw]
    have h1 := h.sent hg
    have h2 := hsent hg
    unfold asked at h1
    rw [List.map_append, List.sum_append, h1, h2, List.length_append]
    push_cast
    omega
  · obtain ⟨lost, h1, h2⟩ := h.acc
    refine ⟨lost, ?_, h2⟩
    show ((v.pushed ++ k).length : Int) = ((v.queue ++ k.map Prod.snd).length : Int) + v.returned + v.calls.count isHolding +
      (if v.partlyRead then 1 else 0) + lost
    rw [List.length_append, List.length_append, List.length_map]
    push_cast
    omega
  · exact h.ret
  · intro s hs
    rcases List.mem_append.mp hs with g | g
    · exact h.fresh s g
    · obtain ⟨x, hx, rfl⟩ := List.mem_map.mp g
      exact hfresh x hx
  · intro hq
    rcases hqc hq with g | g | g
    · exact hsto rfl rfl rfl (h.qc g)
    · exact .inl g
    · exact .inr (.inr g)
  · exact fun g => hqc2 (h.full g)
  · exact hbad
  · exact fun x k g => hqc2 (h.failed x k g)
  · exact h.excl
  · exact h.tpop
  · exact h.tstep
  · exact h.hold
  · intro w' hw' hs
    rcases mem_modify hw hw' with g | g
    · exact h.wclosed w' g hs
    · rw [g] at hs
      exact h.wclosed w hwm hs
  · exact h.closing
  · intro g
    obtain ⟨h1, h2⟩ := h.joining g
    refine ⟨hqc2 h1, fun w' hw' => ?_⟩
    rcases mem_modify hw hw' with g | g
    · exact h2 w' g
    · rw [g]; exact h2 w hwm
  · intro j g m hm w' hw'
    have hw' : (v.workers.modify i fun w => { w with phase := p })[m]? = some w' := hw'
    rw [List.getElem?_modify] at hw'
    obtain ⟨u, hu, rfl⟩ := Option.map_eq_some_iff.mp hw'
    have := h.cancelled j g m hm u hu
    by_cases him : i = m
    · simp only [him, if_true]; exact this
    · simp only [him, if_false]; exact this
  · intro g
    exact absurd (h.done g w hwm) hns

/-- A step of a worker that changes its phase only. -/
theorem SInv.worker_phase {c : SamplerCfg} {v : ClientSampler} {i : Nat} {w : SWorker} (h : SInv c v) (hw : v.workers[i]? = some w)
    (hns : w.phase ≠ .stopped) (a : Int) (p : SWPhase) (hp : PhaseOk c p) (hstop : p = .stopped → Stop c v)
    (hroom : ClientSampler.room p ≤ ClientSampler.room w.phase) (hout : v.closed = false → out p = out w.phase)
    (hpend : c.isGrpc = true → pend p + a = pend w.phase) :
    SInv c ({ v with abandoned := v.abandoned + a }.setPhase i p) := by
  have := h.worker hw hns v.requested v.status v.queueClosed [] [] a p hp hstop id (fun g => .inl g) id h.bad
    (by have := h.room; simp only [List.length_nil]; push_cast; omega) (fun g => by rw [hout g]; simp)
    h.reqle (fun g => by have := hpend g; simp only [List.map_nil, List.sum_nil, List.length_nil]; push_cast; omega) (by simp)
  simpa using this

theorem eta_abandoned (v : ClientSampler) : { v with abandoned := v.abandoned + 0 } = v := by
  cases v
  simp

/-- A step of a worker that changes its phase only, and gives up no sample. -/
theorem SInv.worker_phase0 {c : SamplerCfg} {v : ClientSampler} {i : Nat} {w : SWorker} (h : SInv c v) (hw : v.workers[i]? = some w)
    (hns : w.phase ≠ .stopped) (p : SWPhase) (hp : PhaseOk c p) (hstop : p = .stopped → Stop c v)
    (hroom : ClientSampler.room p ≤ ClientSampler.room w.phase) (hout : v.closed = false → out p = out w.phase)
    (hpend : c.isGrpc = true → pend p = pend w.phase) : SInv c (v.setPhase i p) := by
  have := h.worker_phase hw hns 0 p hp hstop hroom hout (fun g => by have := hpend g; omega)
  rwa [eta_abandoned] at this

/-! ### The workers -/

theorem setPhase_setPhase (v : ClientSampler) (i : Nat) (p q : SWPhase) : (v.setPhase i p).setPhase i q = v.setPhase i q := by
  have : ((v.workers.modify i fun w => { w with phase := p }).modify i fun w => { w with phase := q }) =
      v.workers.modify i fun w => { w with phase := q } := by
    apply List.ext_getElem?
    intro j
    rw [List.getElem?_modify, List.getElem?_modify, List.getElem?_modify]
    by_cases h : i = j
    · subst h
      simp only [if_true]
      cases v.workers[i]? <;> rfl
    · simp only [h, if_false]
      cases v.workers[j]? <;> rfl
  unfold setPhase
  simp only [this]

theorem getElem_setPhase {v : ClientSampler} {i : Nat} {w : SWorker} (h : v.workers[i]? = some w) (p : SWPhase) :
    (v.setPhase i p).workers[i]? = some { w with phase := p } := by
  show (v.workers.modify i fun w => { w with phase := p })[i]? = _
  rw [List.getElem?_modify, h]
  simp

/-- What `entries` does does not depend on the phase of the worker, unless the process dies. -/
theorem entries_setPhase (v : ClientSampler) (i : Nat) (p : SWPhase) (n got want sampled : Int) (parts es : List Entry) :
    (entries v i n got want sampled parts es).dead = true ∨
      entries v i n got want sampled parts es = entries (v.setPhase i p) i n got want sampled parts es := by
  induction es generalizing parts with
  | nil =>
    unfold entries
    split
    · right; rw [setPhase_setPhase]
    · split <;> (right; rw [setPhase_setPhase])
  | cons e rest ih =>
    unfold entries
    split
    · split
      · exact .inl rfl
      · right
        exact (setPhase_setPhase { v with abandoned := v.abandoned + (want - sampled) } i p _).symm
      · right; rw [setPhase_setPhase]
    · exact ih _

theorem items_setPhase (v : ClientSampler) (i : Nat) (p : SWPhase) (n got : Int) (final : Duration) (base : Int) (l : List SampledItem) :
    (items v i n got final base l).dead = true ∨ items v i n got final base l = items (v.setPhase i p) i n got final base l := by
  unfold items
  split
  · right; rw [setPhase_setPhase]
  · split
    · exact .inl rfl
    · right; rw [setPhase_setPhase]
    · right; rw [setPhase_setPhase]

/-- The entries of a response. -/
theorem SInv.entries {c : SamplerCfg} {v : ClientSampler} {i : Nat} {cl : Bool} {n got want sampled : Int} {parts0 parts : List Entry}
    (h : SInv c v) (hw : v.workers[i]? = some ⟨cl, .fetch n got (.reading want sampled parts0)⟩) (es : List Entry)
    (hes : ((es.filter Entry.last).length : Int) ≤ want - sampled) :
    (entries v i n got want sampled parts es).dead = true ∨ SInv c (entries v i n got want sampled parts es) := by
  have hok := h.phase _ (List.mem_of_getElem? hw)
  obtain ⟨h1, h2, hg, h3, h4, h5⟩ := hok
  induction es generalizing parts with
  | nil =>
    right
    unfold ClientSampler.entries
    split
    · exact h.worker_phase0 hw (by simp) _ ⟨h1, h2, hg, h3, h4, h5⟩ (by simp) (Int.le_refl _) (fun _ => rfl) (fun _ => rfl)
    · split
      · exact h.worker_phase0 hw (by simp) _ ⟨h1, h2⟩ (by simp) (by simp only [ClientSampler.room]; omega) (fun _ => rfl)
          (fun _ => by simp only [pend]; omega)
      · exact h.worker_phase0 hw (by simp) _ ⟨h1, h2, hg⟩ (by simp) (Int.le_refl _) (fun _ => rfl)
          (fun _ => by simp only [pend]; omega)
  | cons e rest ih =>
    unfold ClientSampler.entries
    split
    · rename_i hl
      rw [List.filter_cons_of_pos hl, List.length_cons] at hes
      split
      · exact .inl rfl
      · right
        exact h.worker_phase hw (by simp) (want - sampled) _ ⟨h1, h2⟩ (by simp) (by simp only [ClientSampler.room]; omega)
          (fun _ => rfl) (fun _ => by simp only [pend]; omega)
      · right
        rename_i hs
        refine h.worker_phase0 hw (by simp) _ ⟨h1, h2, hg, h3, ?_, h5, asSampleGrpc_fresh hs⟩ (by simp) (Int.le_refl _)
          (fun _ => rfl) (fun _ => rfl)
        push_cast at hes
        omega
    · rename_i hl
      rw [List.filter_cons_of_neg hl] at hes
      exact ih hes

/-- The items of a batch. -/
theorem SInv.items {c : SamplerCfg} {v : ClientSampler} {i : Nat} {cl : Bool} {n got : Int} {f : Fetch}
    (h : SInv c v) (hw : v.workers[i]? = some ⟨cl, .fetch n got f⟩) (hg : c.isGrpc = false) (final : Duration) (base : Int)
    (l : List SampledItem) (hl : (l.length : Int) ≤ n - got) :
    (items v i n got final base l).dead = true ∨ SInv c (items v i n got final base l) := by
  have hok := h.phase _ (List.mem_of_getElem? hw)
  obtain ⟨h1, h2, _⟩ := hok
  have hng : ∀ {P : Prop}, c.isGrpc = true → P := fun g => by rw [hg] at g; cases g
  unfold ClientSampler.items
  split
  · right
    exact h.worker_phase0 hw (by simp) _ ⟨h1, h2, hg⟩ (by simp) (Int.le_refl _) (fun _ => rfl) hng
  · split
    · exact .inl rfl
    · right
      exact h.worker_phase0 hw (by simp) _ ⟨h1, h2⟩ (by simp) (by simp only [ClientSampler.room]; omega) (fun _ => rfl) hng
    · right
      rename_i hs
      refine h.worker_phase0 hw (by simp) _ ⟨h1, h2, hg, ?_, asSampleLocal_fresh hs⟩ (by simp) (Int.le_refl _)
        (fun _ => rfl) hng
      simp only [List.length_cons] at hl
      push_cast at hl
      omega

/-- What `Push` does. -/
theorem push_cases {c : SamplerCfg} {v : ClientSampler} {i : Nat} {s : Sample} {r : ClientSampler × Bool} (h : push c v i s = some r) :
    (v.queueClosed = true ∧ r = (v, false)) ∨ (v.queueClosed = false ∧ v.queue.length < c.cap ∧ r = ({ v with
      queue := v.queue ++ [s]
      pushed := v.pushed ++ [(i, s)] }, true)) := by
  unfold push at h
  split at h
  · rename_i hq
    cases h
    exact .inl ⟨hq, rfl⟩
  · rename_i hq
    split at h
    · rename_i hl
      cases h
      exact .inr ⟨by simpa using hq, hl, rfl⟩
    · cases h

/-- After `Push` the worker has one sample more. -/
theorem SInv.pushed {c : SamplerCfg} {v : ClientSampler} {i : Nat} {cl : Bool} {n got : Int} {f : Fetch} (h : SInv c v)
    (hw : v.workers[i]? = some ⟨cl, .fetch n got f⟩) {s : Sample} (hs : s.isEndOfSample = false) (f' : Fetch)
    (hgot : got < n) (hf : FetchOk c n (got + 1) f')
    (hpend : c.isGrpc = true → pend (.fetch n (got + 1) f') + 1 = pend (.fetch n got f)) :
    SInv c ({ v with
      queue := v.queue ++ [s]
      pushed := v.pushed ++ [(i, s)] }.setPhase i (.fetch n (got + 1) f')) := by
  have hok := h.phase _ (List.mem_of_getElem? hw)
  have := h.worker hw (by simp) v.requested v.status v.queueClosed [(i, s)] [] 0 (.fetch n (got + 1) f')
    ⟨by have := hok.1; omega, by omega, hf⟩ (by simp) id (fun g => .inl g) id h.bad
    (by have := h.room; simp only [List.length_cons, List.length_nil, ClientSampler.room]; push_cast; omega)
    (fun g => by simp only [List.length_cons, List.length_nil, out]; push_cast; omega) h.reqle
    (fun g => by have := hpend g; simp only [List.map_nil, List.sum_nil, List.length_cons, List.length_nil]; push_cast; omega)
    (by simp [hs])
  simpa using this

/-- The end of a loop. -/
theorem SInv.loopDone {c : SamplerCfg} {v : ClientSampler} {i : Nat} {cl : Bool} {n got : Int} {f : Fetch} (h : SInv c v)
    (hw : v.workers[i]? = some ⟨cl, .fetch n got f⟩) (hp : pend (.fetch n got f) = 0) : SInv c (v.loopDone i n got) := by
  have hok := h.phase _ (List.mem_of_getElem? hw)
  obtain ⟨h1, h2, _⟩ := hok
  unfold ClientSampler.loopDone
  exact h.worker_phase0 hw (by simp) _ ⟨h1, h2⟩ (by simp) (by simp only [ClientSampler.room]; omega) (fun _ => rfl)
    (fun _ => hp.symm)

/-- A step of a worker. -/
theorem SInv.work {c : SamplerCfg} (hc : c.Valid) {v v' : ClientSampler} {i : Nat} (h : SInv c v) (hs : v.work c i = some v') :
    v'.dead = true ∨ SInv c v' := by
  unfold ClientSampler.work at hs
  split at hs
  · cases hs
  · rename_i w hw
    obtain ⟨cl, ph⟩ := w
    have hok := h.phase _ (List.mem_of_getElem? hw)
    simp only at hs hok
    cases ph with
    | idle =>
      simp only at hs
      unfold take at hs
      split at hs
      · rename_i hst
        cases hs
        right
        refine h.worker_phase0 hw (by simp) _ trivial (fun _ => ?_) (Int.le_refl _) (fun _ => rfl) (fun _ => rfl)
        simp only [shouldStop, Bool.or_eq_true, decide_eq_true_eq] at hst
        rcases hst with (g | g) | g
        · exact .inl g
        · exact .inr (.inl g)
        · exact .inr (.inr (fun e => by rw [e] at g; cases g))
      · rename_i hst
        split at hs
        · rename_i hlt
          cases hs
          right
          have hcl : v.closed = false := by
            cases hx : v.closed with
            | false => rfl
            | true => exact absurd (by simp [shouldStop, hx]) hst
          have hmin : min c.perStream (c.max - v.requested) ≤ c.max - v.requested := Int.min_le_right _ _
          have hpos : 0 < min c.perStream (c.max - v.requested) := by
            have := hc.perStream
            omega
          have hph : ∀ f : Fetch, FetchOk c (min c.perStream (c.max - v.requested)) 0 f →
              pend (.fetch (min c.perStream (c.max - v.requested)) 0 f) = 0 →
              SInv c ({ v with requested := v.requested + min c.perStream (c.max - v.requested) }.setPhase i
                (.fetch (min c.perStream (c.max - v.requested)) 0 f)) := by
            intro f hf hpd
            have hrq := h.req hcl
            have hle : total ClientSampler.room v ≤ total out v := by
              clear hrq hpd hf
              unfold total
              have hall := h.phase
              generalize v.workers = l at hall
              induction l with
              | nil => simp
              | cons w l ih =>
                simp only [List.map_cons, List.sum_cons]
                have g1 := ih fun x hx => hall x (List.mem_cons_of_mem _ hx)
                have g2 := hall w List.mem_cons_self
                have g3 : ClientSampler.room w.phase ≤ out w.phase := by
                  cases hp : w.phase with
                  | report n got st =>
                    rw [hp] at g2
                    simp only [ClientSampler.room, out, PhaseOk] at g2 ⊢
                    omega
                  | _ => simp [ClientSampler.room, out]
                omega
            have := h.worker hw (by simp) (v.requested + min c.perStream (c.max - v.requested)) v.status v.queueClosed [] [] 0
              (.fetch (min c.perStream (c.max - v.requested)) 0 f) ⟨Int.le_refl _, by omega, hf⟩ (by simp) id (fun g => .inl g) id
              h.bad (by simp only [List.length_nil, ClientSampler.room]; push_cast; omega)
              (fun _ => by simp only [List.length_nil, out]; push_cast; omega) (fun _ => by omega)
              (fun _ => by simp only [List.map_nil, List.sum_nil, List.length_nil]; rw [hpd]; simp [pend]) (by simp)
            simpa using this
          cases hsrc : c.source with
          | grpc t a b => exact hph .opening ⟨by simp [SamplerCfg.isGrpc, hsrc], rfl⟩ rfl
          | here b => exact hph (.checking _ _) (by simp [FetchOk, SamplerCfg.isGrpc, hsrc]) rfl
        · cases hs
    | stopped => cases hs
    | report n got st =>
      simp only at hs
      cases hs
      right
      obtain ⟨h1, h2⟩ := hok
      unfold reported
      simp only
      split
      · rename_i hst
        have := h.worker hw (by simp) (v.requested - (n - got)) st true [] [] 0 .stopped trivial (fun _ => .inr (.inr hst.2.1))
          (fun _ => hst.2.1) (fun _ => .inr (.inr hst.2.1)) (fun _ => rfl) (fun _ => rfl)
          (by have := h.room; simp only [List.length_nil, ClientSampler.room]; push_cast; omega)
          (fun _ => by simp only [List.length_nil, out]; push_cast; omega) (fun g => by have := h.reqle g; omega)
          (fun _ => by simp [pend]) (by simp)
        simpa using this
      · have := h.worker hw (by simp) (v.requested - (n - got)) v.status v.queueClosed [] [] 0 .idle trivial (by simp)
          id (fun g => .inl g) id h.bad
          (by have := h.room; simp only [List.length_nil, ClientSampler.room]; push_cast; omega)
          (fun _ => by simp only [List.length_nil, out]; push_cast; omega) (fun g => by have := h.reqle g; omega)
          (fun _ => by simp [pend]) (by simp)
        simpa using this
    | fetch n got f =>
      obtain ⟨h1, h2, hf⟩ := hok
      have hcl : cl = true → v.closed = true := fun g => h.wclosed _ (List.mem_of_getElem? hw) g
      have hout : ∀ g : Int, v.closed = true → (v.closed = false → out (.report n g (some Code.cancelled)) = out (.fetch n got f)) :=
        fun g a b => by rw [a] at b; cases b
      cases f with
      | opening =>
        obtain ⟨hg, hz⟩ := hf
        simp only at hs
        split at hs
        · rename_i hcc
          cases hs
          right
          exact h.worker_phase0 hw (by simp) _ ⟨Int.le_refl _, by omega⟩ (by simp) (by simp only [ClientSampler.room]; omega)
            (hout 0 (hcl hcc)) (fun _ => rfl)
        · cases hs
          right
          exact h.worker_phase0 hw (by simp) _ ⟨h1, h2, hg⟩ (by simp) (Int.le_refl _) (fun _ => rfl) (fun _ => rfl)
      | asking =>
        simp only at hs
        split at hs
        · cases hs
        · cases hs
          exact .inr (h.loopDone hw rfl)
      | reading want sampled parts => cases hs
      | pushing want sampled s rest =>
        obtain ⟨hg, h3, h4, h5, h6⟩ := hf
        simp only at hs
        cases hpu : push c v i s with
        | none => rw [hpu] at hs; cases hs
        | some r =>
          rw [hpu] at hs
          rcases push_cases hpu with ⟨hq, rfl⟩ | ⟨hq, hlen, rfl⟩
          · simp only at hs
            cases hs
            right
            exact h.worker_phase hw (by simp) (want - sampled) _ ⟨h1, h2⟩ (by simp) (by simp only [ClientSampler.room]; omega)
              (fun _ => rfl) (fun _ => by simp only [pend]; omega)
          · simp only at hs
            cases hs
            have hp := h.pushed hw h6 (.reading want (sampled + 1) []) (by omega) ⟨hg, by omega, by omega, by omega⟩
              (fun _ => by simp only [pend]; omega)
            have hw' := getElem_setPhase (v := { v with
              queue := v.queue ++ [s]
              pushed := v.pushed ++ [(i, s)] }) hw (.fetch n (got + 1) (.reading want (sampled + 1) []))
            rcases entries_setPhase { v with
              queue := v.queue ++ [s]
              pushed := v.pushed ++ [(i, s)] } i (.fetch n (got + 1) (.reading want (sampled + 1) [])) n (got + 1) want (sampled + 1)
              [] rest with g | g
            · exact .inl g
            · rw [g]
              exact hp.entries hw' rest (by omega)
      | checking final base =>
        have hg : c.isGrpc = false := hf
        simp only at hs
        split at hs
        · split at hs
          · rename_i hcc
            cases hs
            right
            exact h.worker_phase0 hw (by simp) _ ⟨Int.le_refl _, by omega⟩ (by simp) (by simp only [ClientSampler.room]; omega)
              (hout 0 (hcl hcc)) (fun _ => rfl)
          · split at hs
            · cases hs
            · cases hs
              right
              exact h.worker_phase0 hw (by simp) _ ⟨h1, h2, hg, Int.min_le_right _ _⟩ (by simp) (Int.le_refl _) (fun _ => rfl)
                (fun _ => rfl)
        · cases hs
          exact .inr (h.loopDone hw rfl)
      | sampling final base batch dl => cases hs
      | pushingHere final base s rest =>
        obtain ⟨hg, h3, h4⟩ := hf
        have hng : ∀ {P : Prop}, c.isGrpc = true → P := fun g => by rw [hg] at g; cases g
        simp only at hs
        cases hpu : push c v i s with
        | none => rw [hpu] at hs; cases hs
        | some r =>
          rw [hpu] at hs
          rcases push_cases hpu with ⟨hq, rfl⟩ | ⟨hq, hlen, rfl⟩
          · simp only at hs
            cases hs
            right
            exact h.worker_phase0 hw (by simp) _ ⟨h1, h2⟩ (by simp) (by simp only [ClientSampler.room]; omega) (fun _ => rfl) hng
          · simp only at hs
            cases hs
            have hp := h.pushed hw h4 (.checking final base) (by omega) hg hng
            have hw' := getElem_setPhase (v := { v with
              queue := v.queue ++ [s]
              pushed := v.pushed ++ [(i, s)] }) hw (.fetch n (got + 1) (.checking final base))
            rcases items_setPhase { v with
              queue := v.queue ++ [s]
              pushed := v.pushed ++ [(i, s)] } i (.fetch n (got + 1) (.checking final base)) n (got + 1) final base rest with g | g
            · exact .inl g
            · rw [g]
              exact hp.items hw' hg final base rest (by omega)

/-! ### The server and the table -/

theorem SInv.write {c : SamplerCfg} {v v' : ClientSampler} {i : Nat} {r : Option (Option Code)} (hc : c.Valid)
    (h : SInv c v) (hs : v.write c i r = some v') : SInv c v' := by
  unfold ClientSampler.write at hs
  split at hs
  · rename_i cl n got hw
    obtain ⟨h1, h2, hg⟩ := h.phase _ (List.mem_of_getElem? hw)
    split at hs
    · cases hs
    · rename_i table perRequest flexible hsrc
      split at hs
      · rename_i hlt
        have hpr := hc.request _ _ _ hsrc
        simp only at hs
        split at hs
        · cases hs
          have := h.worker hw (by simp) v.requested v.status v.queueClosed [] [clientRequest table (min perRequest (n - got)) c.timeout flexible]
            0 (.fetch n got (.reading (min perRequest (n - got)) 0 [])) ⟨h1, h2, hg, Int.le_refl _, by omega, by omega⟩
            (by simp) id (fun g => .inl g) id h.bad
            (by have := h.room; simp only [List.length_nil, ClientSampler.room]; push_cast; omega)
            (fun _ => by simp only [List.length_nil, out]; push_cast; omega) h.reqle
            (fun _ => by simp [pend, clientRequest]) (by simp)
          simpa using this
        · cases hs
          exact h.worker_phase0 hw (by simp) _ ⟨h1, h2⟩ (by simp) (by simp only [ClientSampler.room]; omega) (fun _ => rfl) (fun _ => rfl)
      · cases hs
  · cases hs

theorem SInv.response {c : SamplerCfg} {v v' : ClientSampler} {i : Nat} {es : List Entry} (h : SInv c v)
    (hf : Faithful v (.response i es)) (hs : v.response i es = some v') : v'.dead = true ∨ SInv c v' := by
  unfold ClientSampler.response at hs
  split at hs
  · rename_i cl n got want sampled parts hw
    cases hs
    exact h.entries hw es (hf _ _ _ _ _ _ hw)
  · cases hs

theorem SInv.streamEnd {c : SamplerCfg} {v v' : ClientSampler} {i : Nat} {st : Option Code} {lim : Bool} (h : SInv c v)
    (hs : v.streamEnd i st lim = some v') : SInv c v' := by
  unfold ClientSampler.streamEnd at hs
  split at hs
  · rename_i cl n got want sampled parts hw
    obtain ⟨h1, h2, hg, _⟩ := h.phase _ (List.mem_of_getElem? hw)
    cases hs
    exact h.worker_phase hw (by simp) (want - sampled) _ ⟨h1, h2⟩ (by simp) (by simp only [ClientSampler.room]; omega) (fun _ => rfl)
      (fun _ => by simp only [pend]; omega)
  · cases hs

theorem SInv.answer {c : SamplerCfg} {v v' : ClientSampler} {i : Nat} {r : Res (List SampledItem)} (h : SInv c v)
    (hf : Faithful v (.answer i r)) (hs : v.answer c i r = some v') : v'.dead = true ∨ SInv c v' := by
  unfold ClientSampler.answer at hs
  split at hs
  · rename_i cl n got final base batch dl hw
    obtain ⟨h1, h2, hg, h3⟩ := h.phase _ (List.mem_of_getElem? hw)
    have hng : ∀ {P : Prop}, c.isGrpc = true → P := fun g => by rw [hg] at g; cases g
    split at hs
    · cases hs
    · cases hs
      have := hf _ _ _ _ _ _ _ hw
      exact h.items hw hg _ _ _ (by omega)
    · right
      split at hs
      · split at hs
        · cases hs
        · split at hs
          · cases hs
            exact h.worker_phase0 hw (by simp) _ ⟨h1, h2, hg⟩ (by simp) (Int.le_refl _) (fun _ => rfl) hng
          · split at hs
            · cases hs
              exact h.worker_phase0 hw (by simp) _ ⟨h1, h2, hg⟩ (by simp) (Int.le_refl _) (fun _ => rfl) hng
            · cases hs
              exact h.worker_phase0 hw (by simp) _ ⟨h1, h2⟩ (by simp) (by simp only [ClientSampler.room]; omega) (fun _ => rfl) hng
      · cases hs
        exact h.worker_phase0 hw (by simp) _ ⟨h1, h2⟩ (by simp) (by simp only [ClientSampler.room]; omega) (fun _ => rfl) hng
  · cases hs

/-! ### The callers -/

theorem inTimestep_iff (v : ClientSampler) : v.inTimestep = true ↔ 0 < v.calls.count isStep := by
  unfold inTimestep AMap.count
  rw [List.any_eq_true, List.countP_pos_iff]
  constructor
  · rintro ⟨e, h1, h2⟩
    refine ⟨e, h1, ?_⟩
    obtain ⟨x, p⟩ := e
    cases p <;> exact h2
  · rintro ⟨e, h1, h2⟩
    refine ⟨e, h1, ?_⟩
    obtain ⟨x, p⟩ := e
    cases p <;> exact h2

theorem size_eq (v : ClientSampler) : v.calls.size = v.calls.count isCall := by
  unfold AMap.size AMap.count isCall
  rw [List.countP_eq_length.mpr (by simp)]

/-- No more samples than the limit are returned. -/
theorem SInv.bound {c : SamplerCfg} {v : ClientSampler} (h : SInv c v) :
    (v.queue.length : Int) + v.returned + v.calls.count isHolding + (if v.partlyRead then 1 else 0) ≤ c.max := by
  obtain ⟨lost, h1, _⟩ := h.acc
  have h2 := h.room
  have h3 := room_nonneg v h.phase
  omega

/-- A step of a caller. -/
theorem SInv.caller {c : SamplerCfg} {v : ClientSampler} (h : SInv c v) (q : List Sample) (act : Option Sample) (m : AMap Nat CallPhase)
    (r : Int) (qc : Bool) (lg : List SampleOut)
    (hacc : ∀ lost : Nat, (v.pushed.length : Int) = v.queue.length + v.returned + v.calls.count isHolding +
      (if v.partlyRead then 1 else 0) + lost → lost ≤ v.log.countP SampleOut.isError →
      ∃ lost : Nat, (v.pushed.length : Int) = q.length + r + m.count isHolding +
      (if act.any (fun s => !s.isEndOfSample) then 1 else 0) + lost ∧ lost ≤ lg.countP SampleOut.isError)
    (hret : r = lg.countP SampleOut.complete) (hq : ∀ s ∈ q, s ∈ v.queue) (hqc : qc = true → v.queueClosed = true ∨ r = c.max)
    (hqc2 : v.queueClosed = true → qc = true) (hr : v.returned = c.max → r = c.max) (hfull : r = c.max → qc = true)
    (hfailed : ∀ x k, m.get? x = some (.failed k) → qc = true)
    (hexcl : 0 < m.count isStep → m.count isCall = 1)
    (htpop : ∀ x t, m.get? x = some (.popping .timestep t) → act.any (fun s => !s.isEndOfSample) = false)
    (htstep : ∀ x, m.get? x = some .stepping → act.any (fun s => !s.isEndOfSample) = true)
    (hhold : ∀ x k s, m.get? x = some (.holding k s) → k ≠ .timestep ∧ s.isEndOfSample = false) :
    SInv c { v with
      queue := q
      active := act
      calls := m
      returned := r
      queueClosed := qc
      log := lg } := by
  have hsto : ∀ {v' : ClientSampler}, v'.closed = v.closed → v'.returned = r → v'.status = v.status → Stop c v → Stop c v' := by
    intro v' e1 e2 e3 hs
    unfold Stop
    rw [e1, e2, e3]
    rcases hs with hs | hs | hs
    · exact .inl hs
    · exact .inr (.inl (hr hs))
    · exact .inr (.inr hs)
  constructor
  · exact h.phase
  · exact fun w hw hs => hsto rfl rfl rfl (h.stopped w hw hs)
  · exact h.room
  · exact h.req
  · exact h.reqle
  · exact h.sent
  · obtain ⟨lost, h1, h2⟩ := h.acc
    exact hacc lost h1 h2
  · exact hret
  · exact fun s hs => h.fresh s (hq s hs)
  · intro g
    rcases hqc g with g | g
    · exact hsto rfl rfl rfl (h.qc g)
    · exact .inr (.inl g)
  · exact hfull
  · exact fun g => hqc2 (h.bad g)
  · exact hfailed
  · exact hexcl
  · exact htpop
  · exact htstep
  · exact hhold
  · exact h.wclosed
  · exact h.closing
  · exact fun g => ⟨hqc2 (h.joining g).1, (h.joining g).2⟩
  · exact h.cancelled
  · exact h.done

theorem get_insert {m : AMap Nat CallPhase} {x y : Nat} {p q : CallPhase} (h : (m.insert x p).get? y = some q) :
    (y = x ∧ q = p) ∨ (y ≠ x ∧ m.get? y = some q) := by
  rw [AMap.get?_insert] at h
  split at h
  · rename_i e
    cases h
    exact .inl ⟨e, rfl⟩
  · rename_i e
    exact .inr ⟨e, h⟩

theorem get_erase {m : AMap Nat CallPhase} {x y : Nat} {q : CallPhase} (h : (m.erase x).get? y = some q) :
    y ≠ x ∧ m.get? y = some q := by
  rw [AMap.get?_erase] at h
  split at h
  · cases h
  · rename_i e
    exact ⟨e, h⟩

theorem SInv.call {c : SamplerCfg} {v v' : ClientSampler} {x : Nat} {k : SampleCall} (h : SInv c v) (hs : v.call x k = some v') :
    SInv c v' := by
  unfold ClientSampler.call at hs
  split at hs
  · cases hs
  · rename_i hn
    rw [not_or, not_or] at hn
    obtain ⟨hx, ht, hk⟩ := hn
    have hx : v.calls.get? x = none := by
      cases hy : v.calls.get? x with
      | none => rfl
      | some _ => exact absurd (by simp [AMap.contains, hy]) hx
    have ht : v.calls.count isStep = 0 := by
      have := mt (inTimestep_iff v).mpr ht
      omega
    have hk : k = .timestep → v.calls.count isCall = 0 := by
      intro g
      rw [size_eq] at hk
      exact Classical.byContradiction fun e => hk ⟨g, e⟩
    cases hs
    have hgen : ∀ p : CallPhase, isHolding p = false → (isStep p = true → k = .timestep) → (∀ k', p ≠ .failed k') →
        (∀ t, p = .popping .timestep t → v.partlyRead = false) → (p = .stepping → v.partlyRead = true) → SInv c { v with
          calls := v.calls.insert x p } := by
      intro p p1 p2 p3 p4 p5
      refine h.caller v.queue v.active (v.calls.insert x p) v.returned v.queueClosed v.log (fun lost g1 g2 => ⟨lost, ?_, g2⟩) h.ret
        (fun s hs => hs) (fun g => .inl g) id id h.full ?_ ?_ ?_ ?_ ?_
      · have e : (v.calls.insert x p).count isHolding = v.calls.count isHolding := by
          rw [AMap.count_insert_none isHolding hx, p1]
          simp
        rw [e]
        exact g1
      · intro y k' hy
        rcases get_insert hy with ⟨_, e⟩ | ⟨_, e⟩
        · exact absurd e.symm (p3 k')
        · exact h.failed y k' e
      · intro g
        rw [AMap.count_insert_none isStep hx, ht] at g
        have hp : isStep p = true := by
          cases hb : isStep p with
          | true => rfl
          | false => rw [hb] at g; simp at g
        rw [AMap.count_insert_none isCall hx, hk (p2 hp)]
        simp [isCall]
      · intro y t hy
        rcases get_insert hy with ⟨_, e⟩ | ⟨_, e⟩
        · exact p4 t e.symm
        · exact h.tpop y t e
      · intro y hy
        rcases get_insert hy with ⟨_, e⟩ | ⟨_, e⟩
        · exact p5 e.symm
        · exact h.tstep y e
      · intro y k' s hy
        rcases get_insert hy with ⟨_, e⟩ | ⟨_, e⟩
        · rw [← e] at p1; cases p1
        · exact h.hold y k' s e
    by_cases hc : k = .timestep ∧ v.active.any (fun s => !s.isEndOfSample) = true
    · rw [if_pos hc]
      exact hgen .stepping rfl (fun _ => hc.1) (by simp) (by simp) (fun _ => hc.2)
    · rw [if_neg hc]
      refine hgen (.popping k v.clock) rfl (fun g => by simpa [isStep] using g) (by simp) (fun t g => ?_) (by simp)
      simp only [CallPhase.popping.injEq] at g
      cases hb : v.partlyRead with
      | false => rfl
      | true => exact absurd ⟨g.1, hb⟩ hc

theorem SInv.pop {c : SamplerCfg} {v v' : ClientSampler} {x : Nat} (h : SInv c v) (hs : v.pop x = some v') : SInv c v' := by
  unfold ClientSampler.pop at hs
  split at hs
  · rename_i k since hx
    split at hs
    · rename_i hqc
      cases hs
      refine h.caller v.queue v.active (v.calls.insert x (.failed k)) v.returned v.queueClosed v.log (fun lost g1 g2 => ⟨lost, ?_, g2⟩)
        h.ret (fun s hs => hs) (fun g => .inl g) id id h.full ?_ ?_ ?_ ?_ ?_
      · rw [AMap.count_insert_same (b := .failed k) isHolding hx rfl]
        exact g1
      · exact fun _ _ _ => hqc
      · rw [AMap.count_insert_same (b := .failed k) isStep hx rfl, AMap.count_insert_same (b := .failed k) isCall hx rfl]
        exact h.excl
      · intro y t hy
        rcases get_insert hy with ⟨_, e⟩ | ⟨_, e⟩
        · cases e
        · exact h.tpop y t e
      · intro y hy
        rcases get_insert hy with ⟨_, e⟩ | ⟨_, e⟩
        · cases e
        · exact h.tstep y e
      · intro y k' s hy
        rcases get_insert hy with ⟨_, e⟩ | ⟨_, e⟩
        · cases e
        · exact h.hold y k' s e
    · rename_i hqc
      split at hs
      · cases hs
      · rename_i s q hq
        have hfs : s.isEndOfSample = false := h.fresh s (by rw [hq]; exact List.mem_cons_self)
        have hsub : ∀ s ∈ q, s ∈ v.queue := fun s hs => by rw [hq]; exact List.mem_cons_of_mem _ hs
        have hlen : (v.queue.length : Int) = q.length + 1 := by rw [hq]; simp
        split at hs
        · cases hs
          have hpr := h.tpop x since hx
          have hone : v.calls.count isCall = 1 := h.excl (AMap.count_pos hx (by simp [isStep]))
          refine h.caller q (some s) (v.calls.insert x .stepping) v.returned v.queueClosed v.log (fun lost g1 g2 => ⟨lost, ?_, g2⟩)
            h.ret hsub (fun g => .inl g) id id h.full ?_ ?_ ?_ ?_ ?_
          · rw [AMap.count_insert_same (b := .stepping) isHolding hx rfl]
            rw [hpr] at g1
            simp only [Option.any_some, hfs, Bool.not_false, if_true]
            simp only [Bool.false_eq_true, if_false] at g1
            show (v.pushed.length : Int) = _
            omega
          · intro y k' hy
            rcases get_insert hy with ⟨_, e⟩ | ⟨_, e⟩
            · cases e
            · exact h.failed y k' e
          · intro _
            rw [AMap.count_insert_same (b := .stepping) isCall hx rfl]
            exact hone
          · intro y t hy
            rcases get_insert hy with ⟨_, e⟩ | ⟨hne, e⟩
            · cases e
            · exfalso
              have h1 := AMap.count_erase_true isCall hx rfl
              have h2 : (v.calls.erase x).get? y = some (.popping .timestep t) := by rw [AMap.get?_erase, if_neg hne]; exact e
              have h3 := AMap.count_pos (p := isCall) h2 rfl
              omega
          · intro y _
            simp [hfs]
          · intro y k' s' hy
            rcases get_insert hy with ⟨_, e⟩ | ⟨_, e⟩
            · cases e
            · exact h.hold y k' s' e
        · rename_i hkt
          cases hs
          refine h.caller q v.active (v.calls.insert x (.holding k s)) v.returned v.queueClosed v.log (fun lost g1 g2 => ⟨lost, ?_, g2⟩)
            h.ret hsub (fun g => .inl g) id id h.full ?_ ?_ ?_ ?_ ?_
          · rw [AMap.count_insert_new (b := .holding k s) isHolding hx rfl rfl]
            show (v.pushed.length : Int) = q.length + v.returned + ((v.calls.count isHolding + 1 : Nat) : Int) +
              (if v.partlyRead then 1 else 0) + lost
            push_cast
            omega
          · intro y k' hy
            rcases get_insert hy with ⟨_, e⟩ | ⟨_, e⟩
            · cases e
            · exact h.failed y k' e
          · rw [AMap.count_insert_same (b := .holding k s) isStep hx rfl, AMap.count_insert_same (b := .holding k s) isCall hx rfl]
            exact h.excl
          · intro y t hy
            rcases get_insert hy with ⟨_, e⟩ | ⟨_, e⟩
            · cases e
            · exact h.tpop y t e
          · intro y hy
            rcases get_insert hy with ⟨_, e⟩ | ⟨_, e⟩
            · cases e
            · exact h.tstep y e
          · intro y k' s' hy
            rcases get_insert hy with ⟨_, e⟩ | ⟨_, e⟩
            · cases e
              exact ⟨hkt, hfs⟩
            · exact h.hold y k' s' e
  · cases hs

/-- A call returns. -/
theorem SInv.ret' {c : SamplerCfg} {v : ClientSampler} {x : Nat} {p : CallPhase} (h : SInv c v) (hx : v.calls.get? x = some p)
    (act : Option Sample) (pr : Bool) (hpr : pr = act.any fun s => !s.isEndOfSample) (r : Int) (qc : Bool) (o : SampleOut) (d : Nat)
    (hbal : v.returned + (if isHolding p then 1 else 0) + (if v.partlyRead then 1 else 0) = r + (if pr then 1 else 0) + d)
    (hd : d ≤ if o.isError then 1 else 0) (hr : r = v.returned + if o.complete then 1 else 0)
    (hqc : qc = true → v.queueClosed = true ∨ r = c.max) (hqc2 : v.queueClosed = true → qc = true)
    (hrm : v.returned = c.max → r = c.max) (hfull : r = c.max → qc = true)
    (hact : act = v.active ∨ isStep p = true) : SInv c { v with
      active := act
      calls := v.calls.erase x
      returned := r
      queueClosed := qc
      log := v.log ++ [o] } := by
  have hone : isStep p = true → ∀ y q, (v.calls.erase x).get? y = some q → False := by
    intro g y q hy
    have h1 := h.excl (AMap.count_pos hx g)
    have h2 := AMap.count_erase_true isCall hx rfl
    have h3 := AMap.count_pos (p := isCall) hy rfl
    omega
  refine h.caller v.queue act (v.calls.erase x) r qc (v.log ++ [o]) (fun lost g1 g2 => ⟨lost + d, ?_, ?_⟩) ?_ (fun s hs => hs) hqc hqc2
    hrm hfull ?_ ?_ ?_ ?_ ?_
  · rw [← hpr]
    have h1 := AMap.count_erase isHolding hx
    have h2 : (v.calls.count isHolding : Int) = (v.calls.erase x).count isHolding + if isHolding p then 1 else 0 := by
      rw [h1]
      split <;> simp
    push_cast
    omega
  · rw [List.countP_append, List.countP_singleton]
    omega
  · rw [hr, h.ret, List.countP_append, List.countP_singleton]
    unfold delivered
    split <;> simp
  · intro y k hy
    exact hqc2 (h.failed y k (get_erase hy).2)
  · intro g
    obtain ⟨y, q, hy, hq⟩ := AMap.count_pos_iff.mp g
    have h1 := h.excl (AMap.count_pos (get_erase hy).2 hq)
    have h2 := AMap.count_erase_true isCall hx rfl
    have h3 := AMap.count_pos (p := isCall) hy rfl
    omega
  · intro y t hy
    rcases hact with rfl | g
    · exact h.tpop y t (get_erase hy).2
    · exact (hone g _ _ hy).elim
  · intro y hy
    rcases hact with rfl | g
    · exact h.tstep y (get_erase hy).2
    · exact (hone g _ _ hy).elim
  · exact fun y k s hy => h.hold y k s (get_erase hy).2

/-- The mark `end_of_sequence` says whether the sample is at its end. -/
theorem deliver_last {s s' : Sample} {rows : List Tensor} {last : Bool} (h : s.deliver = .ok (rows, last, s')) :
    last = s'.isEndOfSample := by
  unfold Sample.deliver at h
  split at h
  · cases h
  · cases h
  · split at h
    · cases h; rfl
    · cases h
    · cases h

/-- A sample is counted. -/
theorem finished_eq (c : SamplerCfg) (v : ClientSampler) : v.finished c = { v with
    returned := v.returned + 1
    queueClosed := v.queueClosed || decide (v.returned + 1 = c.max) } := by
  unfold finished
  simp only
  split
  · rename_i h
    simp [h]
  · rename_i h
    simp [h]

theorem SInv.finish {c : SamplerCfg} {v v' : ClientSampler} {x : Nat} (h : SInv c v) (hs : v.finish c x = some v') :
    v'.dead = true ∨ SInv c v' := by
  have hb := h.bound
  unfold ClientSampler.finish at hs
  split at hs
  · rename_i k hx
    split at hs
    · rename_i e he
      cases hs
      right
      exact h.ret' hx v.active v.partlyRead rfl v.returned v.queueClosed (.error e) 0 (by simp [isHolding]) (by simp)
        (by simp [SampleOut.complete]) (fun g => .inl g) id id h.full (.inl rfl)
    · cases hs
      exact .inl rfl
  · rename_i k s hx
    cases hs
    have hpos := AMap.count_pos (p := isHolding) hx rfl
    have herr : ∀ e : Code, SInv c (v.ret x (.error e)) := fun e =>
      h.ret' hx v.active v.partlyRead rfl v.returned v.queueClosed (.error e) 1 (by simp only [isHolding, if_true]; push_cast; omega)
        (by simp [SampleOut.isError]) (by simp [SampleOut.complete]) (fun g => .inl g) id id h.full (.inl rfl)
    have hok : ∀ o : SampleOut, o.complete = true → SInv c ((v.finished c).ret x o) := by
      intro o ho
      rw [finished_eq]
      refine h.ret' hx v.active v.partlyRead rfl (v.returned + 1) (v.queueClosed || decide (v.returned + 1 = c.max)) o 0
        (by simp only [isHolding, if_true]; push_cast; omega) (by simp) (by simp [ho]) (fun g => ?_) (fun g => by simp [g]) (fun g => ?_)
        (fun g => by simp [g]) (.inl rfl)
      · simpa using g
      · split at hb <;> omega
    unfold finishSample
    split
    · exact .inr h
    · split
      · exact .inl rfl
      · exact .inr (herr _)
      · split
        · exact .inr (herr _)
        · exact .inr (hok _ rfl)
    · split
      · exact .inl rfl
      · exact .inr (herr _)
      · split
        · exact .inr (herr _)
        · exact .inr (hok _ rfl)
  · rename_i hx
    have hpr := h.tstep x hx
    rw [hpr] at hb
    simp only [if_true] at hb
    split at hs
    · cases hs
      exact .inl rfl
    · rename_i s hact
      cases hs
      unfold finishTimestep
      split
      · exact .inl rfl
      · rename_i e he
        right
        exact h.ret' hx v.active v.partlyRead rfl v.returned v.queueClosed (.error e) 0 (by simp [isHolding]) (by simp)
          (by simp [SampleOut.complete]) (fun g => .inl g) id id h.full (.inl rfl)
      · rename_i rows last s' hd
        have hl := deliver_last hd
        right
        simp only
        split
        · rename_i e he
          exact h.ret' hx (some s') (!s'.isEndOfSample) rfl v.returned v.queueClosed (.error e) (if s'.isEndOfSample then 1 else 0)
            (by rw [hpr]; cases s'.isEndOfSample <;> simp [isHolding]) (by simp only [SampleOut.isError]; split <;> simp)
            (by simp [SampleOut.complete]) (fun g => .inl g) id id h.full (.inr rfl)
        · cases last with
          | true =>
            rw [if_pos rfl, finished_eq]
            refine h.ret' hx (some s') (!s'.isEndOfSample) rfl (v.returned + 1)
              (v.queueClosed || decide (v.returned + 1 = c.max)) (.timestep rows true) 0
              (by rw [hpr, ← hl]; simp [isHolding]) (by simp) (by simp [SampleOut.complete]) (fun g => ?_)
              (fun g => by simp [g]) (fun g => ?_) (fun g => by simp [g]) (.inr rfl)
            · simpa using g
            · omega
          | false =>
            rw [if_neg (by simp)]
            exact h.ret' hx (some s') (!s'.isEndOfSample) rfl v.returned v.queueClosed (.timestep rows false) 0
              (by rw [hpr, ← hl]; simp [isHolding]) (by simp) (by simp [SampleOut.complete]) (fun g => .inl g) id id h.full
              (.inr rfl)
  · cases hs

/-! ### Closing -/

theorem SInv.close {c : SamplerCfg} {v v' : ClientSampler} (h : SInv c v) (hs : v.close = some v') : SInv c v' := by
  unfold ClientSampler.close at hs
  split at hs
  · cases hs
    exact h
  · rename_i hc
    cases hs
    have hsto : ∀ {P : Prop}, (v.closed = true → P) → v.closed = true → P := fun f g => f g
    constructor
    · exact h.phase
    · exact fun _ _ _ => .inl rfl
    · exact h.room
    · exact fun g => by cases g
    · exact fun g => by cases g
    · exact h.sent
    · exact h.acc
    · exact h.ret
    · exact h.fresh
    · exact fun _ => .inl rfl
    · exact h.full
    · exact h.bad
    · exact h.failed
    · exact h.excl
    · exact h.tpop
    · exact h.tstep
    · exact h.hold
    · exact fun _ _ _ => rfl
    · exact ⟨fun _ => by simp, fun _ => rfl⟩
    · exact fun g => by rcases g with g | g <;> cases g
    · intro i g j hj
      cases g
      omega
    · exact fun g => by cases g

theorem total_same (f : SWPhase → Int) (l : List SWorker) (i : Nat) :
    ((l.modify i fun w => { w with closed := true }).map fun w => f w.phase) = l.map fun w => f w.phase := by
  apply List.ext_getElem?
  intro j
  rw [List.getElem?_map, List.getElem?_map, List.getElem?_modify]
  by_cases h : i = j
  · simp only [h, if_true]
    cases l[j]? <;> rfl
  · simp only [h, if_false]
    cases l[j]? <;> rfl

theorem SInv.closeStep {c : SamplerCfg} {v v' : ClientSampler} (h : SInv c v) (hs : v.closeStep = some v') : SInv c v' := by
  unfold ClientSampler.closeStep at hs
  split at hs
  · cases hs
  · rename_i i hcl
    have hc : v.closed = true := h.closing.mpr (by rw [hcl]; simp)
    have hncl : ∀ {P : Prop}, v.closed = false → P := fun g => by rw [hc] at g; cases g
    split at hs
    · rename_i hlt
      cases hs
      obtain ⟨w0, hw0⟩ : ∃ w, v.workers[i]? = some w := ⟨v.workers[i], List.getElem?_eq_getElem hlt⟩
      have hmem : ∀ w' ∈ v.workers.modify i (fun w => { w with closed := true }), ∃ w ∈ v.workers, w'.phase = w.phase := by
        intro w' hw'
        rcases mem_modify hw0 hw' with g | g
        · exact ⟨w', g, rfl⟩
        · exact ⟨w0, List.mem_of_getElem? hw0, by rw [g]⟩
      constructor
      · intro w' hw'
        obtain ⟨w, hw, e⟩ := hmem w' hw'
        rw [e]
        exact h.phase w hw
      · intro w' hw' hs
        exact .inl hc
      · show _ + ((v.workers.modify i _).map fun w => ClientSampler.room w.phase).sum ≤ _
        rw [total_same]
        exact h.room
      · exact hncl
      · exact hncl
      · intro g
        show _ = _ + ((v.workers.modify i _).map fun w => pend w.phase).sum + _
        rw [total_same]
        exact h.sent g
      · exact h.acc
      · exact h.ret
      · exact h.fresh
      · exact h.qc
      · exact h.full
      · exact h.bad
      · exact h.failed
      · exact h.excl
      · exact h.tpop
      · exact h.tstep
      · exact h.hold
      · exact fun _ _ _ => hc
      · exact ⟨fun _ => by simp, fun _ => hc⟩
      · exact fun g => by rcases g with g | g <;> cases g
      · intro i' g j hj w' hw'
        cases g
        have hw' : (v.workers.modify i fun w => { w with closed := true })[j]? = some w' := hw'
        rw [List.getElem?_modify] at hw'
        obtain ⟨u, hu, rfl⟩ := Option.map_eq_some_iff.mp hw'
        by_cases hij : i = j
        · simp [hij]
        · simp only [hij, if_false]
          exact h.cancelled i hcl j (by omega) u hu
      · exact fun g => by cases g
    · rename_i hge
      cases hs
      constructor
      · exact h.phase
      · exact fun _ _ _ => .inl hc
      · exact h.room
      · exact hncl
      · exact hncl
      · exact h.sent
      · exact h.acc
      · exact h.ret
      · exact h.fresh
      · exact fun _ => .inl hc
      · exact fun _ => rfl
      · exact fun _ => rfl
      · exact fun _ _ _ => rfl
      · exact h.excl
      · exact h.tpop
      · exact h.tstep
      · exact h.hold
      · exact fun _ _ _ => hc
      · exact ⟨fun _ => by simp, fun _ => hc⟩
      · refine fun _ => ⟨rfl, fun w hw => ?_⟩
        obtain ⟨j, hj⟩ := List.mem_iff_getElem?.mp hw
        have hlt : j < v.workers.length := (List.getElem?_eq_some_iff.mp hj).1
        exact h.cancelled i hcl j (by omega) w hj
      · exact fun _ g => by cases g
      · exact fun g => by cases g
  · rename_i hcl
    have hc : v.closed = true := h.closing.mpr (by rw [hcl]; simp)
    split at hs
    · rename_i hall
      cases hs
      constructor
      · exact h.phase
      · exact h.stopped
      · exact h.room
      · exact h.req
      · exact h.reqle
      · exact h.sent
      · exact h.acc
      · exact h.ret
      · exact h.fresh
      · exact h.qc
      · exact h.full
      · exact h.bad
      · exact h.failed
      · exact h.excl
      · exact h.tpop
      · exact h.tstep
      · exact h.hold
      · exact h.wclosed
      · exact ⟨fun _ => by simp, fun _ => hc⟩
      · exact fun _ => h.joining (.inl hcl)
      · exact fun _ g => by cases g
      · intro _ w hw
        have := List.all_eq_true.mp hall w hw
        unfold SWorker.isStopped at this
        split at this
        · rename_i e
          exact e
        · cases this
    · cases hs
  · cases hs

/-! ### Schedules -/

theorem SInv.tick {c : SamplerCfg} {v : ClientSampler} (h : SInv c v) (t : Int) : SInv c { v with clock := t } :=
  ⟨h.phase, h.stopped, h.room, h.req, h.reqle, h.sent, h.acc, h.ret, h.fresh, h.qc, h.full, h.bad, h.failed, h.excl, h.tpop, h.tstep,
    h.hold, h.wclosed, h.closing, h.joining, h.cancelled, h.done⟩

/-- A step keeps the invariant, or the process dies. -/
theorem SInv.step {c : SamplerCfg} (hc : c.Valid) {v v' : ClientSampler} {e : Event} (h : SInv c v) (hf : Faithful v e)
    (hs : step c v e = some v') : v'.dead = true ∨ SInv c v' := by
  unfold ClientSampler.step at hs
  split at hs
  · cases hs
  · cases e with
    | tick d =>
      cases hs
      exact .inr (h.tick _)
    | call x k => exact .inr (h.call hs)
    | pop x => exact .inr (h.pop hs)
    | finish x => exact h.finish hs
    | close => exact .inr (h.close hs)
    | closeStep => exact .inr (h.closeStep hs)
    | work i => exact h.work hc hs
    | write i r => exact .inr (h.write hc hs)
    | response i es => exact h.response hf hs
    | streamEnd i st lim => exact .inr (h.streamEnd hs)
    | answer i r => exact h.answer hf hs

theorem total_init (f : SWPhase → Int) (hf : f .idle = 0) (c : SamplerCfg) (now : Int) : total f (ClientSampler.init c now) = 0 := by
  show ((List.replicate c.workers (SWorker.mk false .idle)).map fun w => f w.phase).sum = 0
  rw [List.map_replicate, hf]
  generalize c.workers = n
  induction n with
  | zero => rfl
  | succ n ih => simp [List.replicate_succ, ih]

theorem SInv.init {c : SamplerCfg} (hc : c.Valid) (now : Int) : SInv c (ClientSampler.init c now) := by
  have hw : ∀ w ∈ (ClientSampler.init c now).workers, w = ⟨false, .idle⟩ := fun w hw => List.eq_of_mem_replicate hw
  have hm := hc.max
  constructor
  · intro w h
    rw [hw w h]
    trivial
  · intro w h g
    rw [hw w h] at g
    cases g
  · rw [total_init _ rfl]
    simp [ClientSampler.init]
    omega
  · intro _
    rw [total_init _ rfl]
    rfl
  · intro _
    show (0 : Int) ≤ _
    omega
  · intro _
    rw [total_init _ rfl]
    rfl
  · exact ⟨0, by simp [ClientSampler.init, partlyRead, AMap.count, AMap.empty], by simp⟩
  · rfl
  · exact fun s g => by cases g
  · exact fun g => by cases g
  · intro g
    have : (0 : Int) = c.max := g
    omega
  · exact fun g => (g rfl).elim
  · exact fun x k g => by cases g
  · intro g
    cases g
  · exact fun x k g => by cases g
  · exact fun x g => by cases g
  · exact fun x k s g => by cases g
  · intro w h g
    rw [hw w h] at g
    cases g
  · exact ⟨fun g => (by cases g), fun g => (g rfl).elim⟩
  · exact fun g => by rcases g with g | g <;> cases g
  · exact fun _ g => by cases g
  · exact fun g => by cases g

/-- The invariant holds as long as the process lives. -/
theorem SInv.reach {c : SamplerCfg} (hc : c.Valid) {now : Int} {P : ClientSampler → Event → Prop} (hP : ∀ v e, P v e → Faithful v e)
    {evs : List Event} {v : ClientSampler} (h : Reach c now P evs v) : v.dead = true ∨ SInv c v := by
  induction h with
  | init => exact .inr (SInv.init hc now)
  | step _ hp hs ih =>
    rcases ih with g | g
    · unfold ClientSampler.step at hs
      rw [if_pos g] at hs
      cases hs
    · exact g.step hc (hP _ _ hp) hs

end ClientSampler
end Verif
