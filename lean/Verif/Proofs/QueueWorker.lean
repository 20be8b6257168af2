import Verif.Spec.QueueWorker
import Verif.Proofs.QueueService
import Verif.Proofs.WorkerProgress
import Verif.Props.C25_C29_Worker
import Verif.Proofs.SampleAsync
/-
C112: the worker of a queue.
-/
namespace Verif.Worker
open Table (Op)
open Spec (Buf Discipline)

/-- Samples of a list of requests. -/
def sampledFor (l : List Req) : List (Nat × Sampled) := l.flatMap fun r => r.samples.map (r.id, ·)

theorem sampledFor_append (a b : List Req) : sampledFor (a ++ b) = sampledFor a ++ sampledFor b := by simp [sampledFor]

theorem sampledFor_none {l : List Req} (h : ∀ r ∈ l, r.samples = []) : sampledFor l = [] := by
  simp only [sampledFor, List.flatMap_eq_nil_iff]
  intro r hr
  rw [h r hr]; rfl

theorem taken_eq (w : W) : taken w = sampledFor ((answers w.out).map Prod.fst) ++ sampledFor w.terminate ++ sampledFor (live w.sampling) := by
  unfold taken W.served
  rw [← sampledFor_append, ← sampledFor_append]; rfl

/-- Only the first request has samples. -/
structure Line (w : W) : Prop where
  first : ∀ r ∈ (live w.sampling).drop 1, r.samples = []
  pend : ∀ r ∈ live w.pendingSampling, r.samples = []

theorem filter_first {p : Req → Bool} : ∀ {l : List Req}, (∀ r ∈ l.drop 1, r.samples = []) →
    sampledFor (l.filter p) ++ sampledFor (l.filter fun r => !p r) = sampledFor l ∧ ∀ r ∈ (l.filter fun r => !p r).drop 1, r.samples = []
  | [], _ => ⟨rfl, by simp⟩
  | r :: l, h => by
    have h0 : ∀ x ∈ l, x.samples = [] := h
    have e : sampledFor (r :: l) = r.samples.map (r.id, ·) := by
      rw [← List.singleton_append, sampledFor_append, sampledFor_none h0, List.append_nil]; simp [sampledFor]
    have e1 : ∀ q : Req → Bool, sampledFor (l.filter q) = [] := fun q => sampledFor_none fun x hx => h0 x (List.mem_filter.mp hx).1
    have e2 : ∀ q : Req → Bool, sampledFor (r :: l.filter q) = r.samples.map (r.id, ·) := fun q => by
      rw [← List.singleton_append, sampledFor_append, e1, List.append_nil]; simp [sampledFor]
    by_cases hp : p r = true
    · simp only [List.filter_cons, hp, if_true, Bool.not_true, Bool.false_eq_true, if_false]
      refine ⟨by rw [e2, e1, e, List.append_nil], fun x hx => h0 x ?_⟩
      exact (List.mem_filter.mp (List.mem_of_mem_drop hx)).1
    · simp only [Bool.not_eq_true] at hp
      simp only [List.filter_cons, hp, if_true, Bool.not_false, Bool.false_eq_true, if_false]
      refine ⟨by rw [e2, e1, e, List.nil_append], fun x hx => h0 x ?_⟩
      exact (List.mem_filter.mp hx).1

/-- The books of a queue with a worker. -/
structure Booked (m : Discipline) (cap : Nat) (w : W) (b : Buf) : Prop where
  ledger : Ledger m cap w.table b ((applied w.trace).map fun i => (0, i.key)) (taken w)
  line : Line w

/-- What is known of the items. -/
structure NewItems (w : W) : Prop where
  keys : (w.accepted.map Item.key).Nodup
  new : ∀ i ∈ w.accepted, i.timesSampled = 0

theorem NewItems.prefix {w w' : W} (h : NewItems w') (hp : w.accepted <+: w'.accepted) : NewItems w :=
  ⟨h.keys.sublist (hp.sublist.map _), fun i hi => h.new i (hp.subset hi)⟩

theorem Booked.same {m : Discipline} {cap : Nat} {w w' : W} {b : Buf} (h : Booked m cap w b) (h1 : w'.table = w.table) (h2 : applied w'.trace = applied w.trace)
    (h3 : taken w' = taken w) (h4 : Line w') : Booked m cap w' b := ⟨by rw [h1, h2, h3]; exact h.ledger, h4⟩

theorem Booked.looked {m : Discipline} {cap : Nat} {w : W} {b : Buf} (h : Booked m cap w b) (ht : w.terminate = []) (now : Int) :
    Booked m cap (looked w now) b := by
  obtain ⟨f1, f2⟩ := filter_first (p := expired w.table.limiter.cancelled now) h.line.first
  refine h.same rfl rfl ?_ ⟨?_, ?_⟩
  · rw [taken_eq, taken_eq, ht]
    simp only [Worker.looked, ht, live_keep, takeExpired_eq, List.nil_append, sampledFor_append]
    have : sampledFor ((live w.pendingSampling).filter (expired w.table.limiter.cancelled now)) = [] :=
      sampledFor_none fun r hr => h.line.pend r (List.mem_filter.mp hr).1
    rw [this, List.append_nil, List.append_assoc, f1, show sampledFor [] = [] from rfl, List.append_nil]
  · simp only [Worker.looked, live_keep]
    exact f2
  · simp only [Worker.looked, live_keep]
    exact fun r hr => h.line.pend r (List.mem_filter.mp hr).1

theorem answers_one (r : Req) (s : Status) : answers [Out.answer r s] = [(r, s)] := rfl

theorem Booked.step {m : Discipline} {cap : Nat} {hcap : 0 < cap} {w w' : W} {a : Act} {b : Buf} (h : Booked m cap w b) (hS : Sound (m.config cap hcap) w)
    (hq : a.AsQueue) (hn : NewItems w) (hs : Worker.step w a = some w') : ∃ b', Booked m cap w' b' := by
  obtain ⟨hd, ht⟩ := tr_of_step hs
  have hre := hS.fine.reachable hS.seq
  have hadm : ∀ p, (m.config cap hcap).admits p := fun p => by
    cases m <;> exact ⟨rfl, rfl⟩
  -- a section of another thread
  have hsec : ∀ {op : Op}, a.op = some op → ∃ b', Ledger m cap (w.table.step op).1 b' ((applied (w.trace ++ [op])).map fun i => (0, i.key)) (taken w) ∧
      (w.table.step op).2 = .ok .done := by
    intro op ho
    obtain ⟨us, rfl⟩ : ∃ us, op = .mutate us [] := by
      cases a <;> simp only [Act.op, reduceCtorEq, Option.some.injEq] at ho <;> simp only [Act.AsQueue] at hq
      subst ho; subst hq; exact ⟨_, rfl⟩
    obtain ⟨b', h1, h2⟩ := h.ledger.call hcap (.inr ⟨us, rfl⟩)
    refine ⟨b', ?_, h2⟩
    rw [applied_snoc]
    simpa [applied] using h1
  -- an insertion
  have hins : ∀ {i rest now d}, w.inserts = i :: rest → w.table.limiter.canInsert 1 = true → (w.table.step (.workerInsert i now d)).2 = .ok .done ∧
      ∃ b', Ledger m cap (w.table.step (.workerInsert i now d)).1 b' ((applied (w.trace ++ [.workerInsert i now d])).map fun i => (0, i.key)) (taken w) := by
    intro i rest now d hi hc
    have hok := workerInsert_ok hre (hadm i.priority) now d hc
    have hsub := hS.order.sub
    rw [hi] at hsub
    have hia : i ∈ w.accepted := hsub.subset (by simp)
    have hfresh : i.key ∉ ((applied w.trace).map fun i => ((0 : Nat), i.key)).map Prod.snd := by
      have := hn.keys.sublist (hsub.map Item.key)
      simp only [List.map_append, List.map_cons] at this
      have := (List.nodup_append.mp (List.nodup_append.mp this).1).2.2
      intro hk
      simp only [List.map_map, List.mem_map, Function.comp] at hk
      obtain ⟨j, hj, e⟩ := hk
      exact this j.key (List.mem_map_of_mem hj) i.key List.mem_cons_self e
    refine ⟨hok, ?_⟩
    rcases h.ledger.insert hcap (op := .workerInsert i now d) (i := i) (now := now) rfl (hn.new i hia) 0 hfresh with ⟨_, b', hb⟩ | ⟨hx, _⟩
    · refine ⟨b', ?_⟩
      rw [applied_snoc]
      simpa [applied] using hb
    · rw [hok] at hx
      rcases hx with hx | ⟨c, hx⟩ <;> cases hx
  -- a sample
  have hsmp : ∀ {d} (q : Nat) , w.table.limiter.canSample 1 = true → ∃ l, (w.table.step (.workerSample w.rateLimited d)).2 = .ok (.samples l) ∧
      ∃ b', Ledger m cap (w.table.step (.workerSample w.rateLimited d)).1 b' ((applied (w.trace ++ [.workerSample w.rateLimited d])).map fun i => (0, i.key))
        (taken w ++ l.map (q, ·)) := by
    intro d q hc
    obtain ⟨y, hy⟩ := workerSample_ok hre w.rateLimited d hc
    rcases h.ledger.sample hcap (op := .workerSample w.rateLimited d) (.inr ⟨_, _, rfl⟩) q with ⟨l, h1, b', h2⟩ | ⟨hx, _⟩
    · refine ⟨l, h1, b', ?_⟩
      rw [applied_snoc]
      simpa [applied] using h2
    · rw [hy] at hx
      rcases hx with hx | ⟨c, hx⟩ <;> cases hx
  have hterm : w.pc ≠ .finish → w.terminate = [] := fun hp => Classical.byContradiction fun g => hp (hS.served.term g)
  cases ht
  case insertOk => exact ⟨b, h.same rfl rfl rfl ⟨h.line.first, h.line.pend⟩⟩
  case insertFull => exact ⟨b, h.same rfl rfl rfl ⟨h.line.first, h.line.pend⟩⟩
  case insertBad => exact ⟨b, h⟩
  case request => exact ⟨b, h.same rfl rfl rfl ⟨h.line.first, by
    intro r hr
    simp only [live_append, List.mem_append, live_some, live_nil, List.mem_singleton] at hr
    rcases hr with hr | rfl
    · exact h.line.pend r hr
    · rfl⟩⟩
  case sectionOk op r hl e ho =>
    obtain ⟨b', h1, _⟩ := hsec ho
    exact ⟨b', h1, ⟨h.line.first, h.line.pend⟩⟩
  case sectionErr op r hl e ho =>
    obtain ⟨b', _, h2⟩ := hsec ho
    rw [h2] at e; cases e
  case sectionDied op hl e ho =>
    obtain ⟨b', _, h2⟩ := hsec ho
    rw [h2] at e; cases e
  case signal => exact ⟨b, h.same rfl rfl rfl ⟨h.line.first, h.line.pend⟩⟩
  case stop => exact ⟨b, h.same rfl rfl rfl ⟨h.line.first, h.line.pend⟩⟩
  case wake => exact ⟨b, h.same rfl rfl rfl ⟨h.line.first, h.line.pend⟩⟩
  case top => exact ⟨b, h.same rfl rfl (by simp only [taken, W.served, answers_append, answers_notify, List.append_nil]) ⟨h.line.first, h.line.pend⟩⟩
  case insNone => exact ⟨b, h.same rfl rfl rfl ⟨h.line.first, h.line.pend⟩⟩
  case insOk i rest r hpc hi hc e =>
    obtain ⟨_, b', h1⟩ := hins hi hc
    exact ⟨b', h1, ⟨h.line.first, h.line.pend⟩⟩
  case insErr i rest r hpc hi hc e =>
    obtain ⟨h1, _⟩ := hins hi hc
    rw [h1] at e; cases e
  case insDied i rest hpc hi hc e =>
    obtain ⟨h1, _⟩ := hins hi hc
    rw [h1] at e; cases e
  case smpNone hpc hnull => exact ⟨b, h.same rfl rfl (by simp only [taken, W.served, live_nulls hnull]; rfl) ⟨by simp, h.line.pend⟩⟩
  case smpBlocked nulls r rest hpc hn' hnull hc =>
    have hl : live w.sampling = r :: live rest := by rw [hn', live_append, live_nulls hnull]; rfl
    exact ⟨b, h.same rfl rfl (by simp only [taken, W.served, hl]; rfl) ⟨by have := h.line.first; rw [hl] at this; exact this, h.line.pend⟩⟩
  case smpFull nulls r rest l hpc hn' hnull hc e hfull =>
    have hl : live w.sampling = r :: live rest := by rw [hn', live_append, live_nulls hnull]; rfl
    have hf := h.line.first
    rw [hl] at hf
    replace hf : ∀ x ∈ live rest, x.samples = [] := hf
    obtain ⟨l', e', b', h1⟩ := hsmp r.id hc
    rw [e] at e'
    cases e'
    refine ⟨b', ?_, ⟨fun x hx => hf x (List.mem_of_mem_drop hx), h.line.pend⟩⟩
    have ht := hterm (by rw [hpc]; simp)
    have : taken w ++ l.map (r.id, ·) = sampledFor ((answers (w.out ++ [Out.answer { r with samples := r.samples ++ l } none])).map Prod.fst) ++ sampledFor w.terminate
        ++ sampledFor (live rest) := by
      rw [taken_eq, ht, hl, ← List.singleton_append (l := live rest), sampledFor_append, sampledFor_none hf, answers_append, answers_one, List.map_append, sampledFor_append]
      simp [sampledFor]
    rw [this] at h1
    refine (?_ : Ledger m cap _ b' _ _)
    rw [taken_eq]
    exact h1
  case smpMore nulls r rest l hpc hn' hnull hc e hfull =>
    have hl : live w.sampling = r :: live rest := by rw [hn', live_append, live_nulls hnull]; rfl
    have hf := h.line.first
    rw [hl] at hf
    replace hf : ∀ x ∈ live rest, x.samples = [] := hf
    obtain ⟨l', e', b', h1⟩ := hsmp r.id hc
    rw [e] at e'
    cases e'
    refine ⟨b', ?_, ⟨hf, h.line.pend⟩⟩
    have : taken w ++ l.map (r.id, ·) = sampledFor ((answers w.out).map Prod.fst) ++ sampledFor w.terminate
        ++ sampledFor (live (some { r with samples := r.samples ++ l } :: rest)) := by
      rw [taken_eq, hl, live_some, ← List.singleton_append (l := live rest), ← List.singleton_append (l := live rest), sampledFor_append, sampledFor_append,
        sampledFor_none hf]
      simp [sampledFor]
    rw [this] at h1
    refine (?_ : Ledger m cap _ b' _ _)
    rw [taken_eq]
    exact h1
  case smpErr nulls r rest e' hpc hn' hnull hc e =>
    obtain ⟨l', e', _⟩ := hsmp r.id hc
    rw [e] at e'; cases e'
  case smpDied nulls r rest hpc hn' hnull hc e =>
    obtain ⟨l', e', _⟩ := hsmp r.id hc
    rcases e with e | ⟨x, hx, e⟩
    · rw [e] at e'; cases e'
    · rw [e] at e'; cases e'; exact absurd rfl (hx _)
  case moreWork => exact ⟨b, h.same rfl rfl rfl ⟨h.line.first, h.line.pend⟩⟩
  case swapI => exact ⟨b, h.same rfl rfl rfl ⟨h.line.first, h.line.pend⟩⟩
  case swapS hpc hi hs' hp =>
    refine ⟨b, h.same rfl rfl ?_ ⟨fun x hx => h.line.pend x (List.mem_of_mem_drop hx), by simp⟩⟩
    rw [taken_eq, taken_eq, hs']
    simp only [sampledFor_none h.line.pend]
    rfl
  case swapB hpc hi hp' hs' hp =>
    refine ⟨b, h.same rfl rfl ?_ ⟨fun x hx => h.line.pend x (List.mem_of_mem_drop hx), by simp⟩⟩
    rw [taken_eq, taken_eq, hs']
    simp only [sampledFor_none h.line.pend]
    rfl
  case idleStop hpc _ _ _ _ _ _ =>
    have := h.looked (hterm (by rw [hpc]; simp))
    exact ⟨b, (this _).same rfl rfl rfl ⟨(this _).line.first, (this _).line.pend⟩⟩
  case idleWait hpc _ _ _ _ _ _ =>
    have := h.looked (hterm (by rw [hpc]; simp))
    exact ⟨b, (this _).same rfl rfl rfl ⟨(this _).line.first, (this _).line.pend⟩⟩
  case idleFinish hpc _ _ _ _ =>
    have := h.looked (hterm (by rw [hpc]; simp))
    exact ⟨b, (this _).same rfl rfl rfl ⟨(this _).line.first, (this _).line.pend⟩⟩
  case finish hpc =>
    refine ⟨b, h.same rfl rfl ?_ ⟨h.line.first, h.line.pend⟩⟩
    simp only [taken, W.served, answers_append, answers_answer, List.map_append, List.map_map, List.append_nil, Function.comp_def, List.map_id']

/-- The books are kept. -/
theorem booked {m : Discipline} {cap : Nat} {hcap : 0 < cap} {as : List Act} {w : W} (hr : Worker.run (Worker.init (m.config cap hcap).init) as = some w)
    (hq : ∀ a ∈ as, a.AsQueue) (hn : NewItems w) : ∃ b, Booked m cap w b := by
  have hadm : ∀ p, (m.config cap hcap).admits p := fun p => by cases m <;> exact ⟨rfl, rfl⟩
  have hok : ∀ a : Act, a.Ok (m.config cap hcap) := fun a => by cases a <;> simp [Act.Ok, hadm]
  refine (run_ind (fun as w => (∀ a ∈ as, a.AsQueue) → NewItems w → Sound (m.config cap hcap) w ∧ ∃ b, Booked m cap w b) ?_ ?_ as w hr hq hn).2
  · intro _ _
    exact ⟨.init _, ⟨[], false⟩, Ledger.make m hcap, by simp [Worker.init], by simp [Worker.init]⟩
  · intro as w a w' ih hs hq hn
    have hn' : NewItems w := hn.prefix (accepted_prefix (as := [a]) (by simp [Worker.run, hs]))
    obtain ⟨h1, b, h2⟩ := ih (fun x hx => hq x (List.mem_append_left _ hx)) hn'
    exact ⟨h1.step (hok a) hs, h2.step h1 (hq a (by simp)) hn' hs⟩

/-- Without `Close` no item is dropped. -/
theorem not_cancelled {c : Config} {as : List Act} {w : W} (hr : Worker.run (Worker.init c.init) as = some w) (hok : ∀ a ∈ as, a.Ok c) (hc : Act.close ∉ as) :
    applied w.trace ++ w.queued = w.accepted := by
  have hS := Sound.run hok hr
  rw [W.queued, ← List.append_assoc]
  refine hS.order.all ?_
  cases h : w.cancelSeen with
  | false => rfl
  | true => exact absurd (close_run hr (hS.seq.seen h)) hc

end Verif.Worker
