import Verif.Proofs.ClientSampler
/-
When the client sampler goes on, and when it waits forever.
-/
namespace Verif
namespace ClientSampler

/-- A schedule from some state. -/
def run (c : SamplerCfg) (v : ClientSampler) : List Event → Option ClientSampler
  | [] => some v
  | e :: es => (step c v e).bind fun v' => run c v' es

theorem Reach.run {c : SamplerCfg} {now : Int} {P : ClientSampler → Event → Prop} {evs : List Event} {v : ClientSampler}
    (h : Reach c now P evs v) : run c (ClientSampler.init c now) evs = some v := by
  suffices ∀ es v0 v1, ClientSampler.run c v0 es = some v1 → ∀ e v2, ClientSampler.step c v1 e = some v2 →
      ClientSampler.run c v0 (es ++ [e]) = some v2 by
    induction h with
    | init => rfl
    | step _ _ hs ih => exact this _ _ _ ih _ _ hs
  intro es
  induction es with
  | nil =>
    intro v0 v1 h e v2 hs
    cases h
    simp [ClientSampler.run, hs]
  | cons a es ih =>
    intro v0 v1 h e v2 hs
    simp only [ClientSampler.run, List.cons_append] at h ⊢
    cases ha : ClientSampler.step c v0 a with
    | none => rw [ha] at h; cases h
    | some va =>
      rw [ha] at h
      exact ih _ _ h _ _ hs

/-- A call whose `Pop` has failed gets an error. -/
theorem SInv.popStatus {c : SamplerCfg} {v : ClientSampler} (h : SInv c v) (hq : v.queueClosed = true) : v.popStatus c ≠ none := by
  unfold ClientSampler.popStatus
  split
  · simp
  · rename_i h1
    split
    · simp
    · rename_i h2
      rcases h.qc hq with g | g | g
      · exact absurd g h2
      · exact absurd g h1
      · exact g

/-- As long as nothing has gone wrong, a call that waits is not forgotten. -/
theorem SInv.progress {c : SamplerCfg} (hc : c.Valid) {v : ClientSampler} (h : SInv c v) (hd : v.dead = false)
    (hnw : v.workers.length = c.workers) {x : Nat} (hx : Waits v x)
    (hst : v.status = none) (hcl : v.closed = false) (hlog : ∀ o ∈ v.log, SampleOut.isError o = false)
    (hpart : v.calls.count isHolding = 0 → v.partlyRead = false) (hdel : (v.delivered : Int) < c.max) :
    (∃ (e : Event) (v' : ClientSampler), e.isOwn = true ∧ ClientSampler.step c v e = some v') ∨ ∃ i, WaitsOutside v i := by
  have hns : ¬ Stop c v := by
    rintro (g | g | g)
    · rw [hcl] at g; cases g
    · rw [h.ret] at g; omega
    · exact g hst
  have hqc : v.queueClosed = false := by
    cases hb : v.queueClosed with
    | false => rfl
    | true => exact absurd (h.qc hb) hns
  have hstep : ∀ e : Event, ClientSampler.step c v e = match e with
      | .tick d => some { v with clock := v.clock + d }
      | .call x k => v.call x k
      | .pop x => v.pop x
      | .finish x => v.finish c x
      | .close => v.close
      | .closeStep => v.closeStep
      | .work i => v.work c i
      | .write i result => v.write c i result
      | .response i es => v.response i es
      | .streamEnd i st limiter => v.streamEnd i st limiter
      | .answer i r => v.answer c i r := by
    intro e
    unfold ClientSampler.step
    rw [if_neg (by simp [hd])]
    cases e <;> rfl
  obtain ⟨k, since, hx⟩ := hx
  cases hq : v.queue with
  | cons s q =>
    left
    obtain ⟨v', hv'⟩ : ∃ v', v.pop x = some v' := by
      unfold ClientSampler.pop
      rw [hx]
      simp only [hqc, Bool.false_eq_true, if_false, hq]
      cases k <;> exact ⟨_, rfl⟩
    exact ⟨.pop x, v', rfl, by rw [hstep]; exact hv'⟩
  | nil =>
    by_cases hh : v.calls.count isHolding = 0
    · -- all samples have been returned or are outside
      have hpr := hpart hh
      have herr : v.log.countP SampleOut.isError = 0 := by
        rw [List.countP_eq_zero]
        intro o ho
        rw [hlog o ho]
        simp
      obtain ⟨lost, ha, hl⟩ := h.acc
      rw [hh, hpr, hq, h.ret] at ha
      simp only [List.length_nil, Bool.false_eq_true, if_false] at ha
      by_cases hex : ∃ w ∈ v.workers, w.phase ≠ .idle
      · obtain ⟨w, hw, hne⟩ := hex
        obtain ⟨i, hi⟩ := List.mem_iff_getElem?.mp hw
        obtain ⟨cl, ph⟩ := w
        have hown : (∃ v', v.work c i = some v') → (∃ (e : Event) (v' : ClientSampler), e.isOwn = true ∧ ClientSampler.step c v e = some v') ∨ ∃ i, WaitsOutside v i :=
          fun ⟨v', hv'⟩ => .inl ⟨.work i, v', rfl, by rw [hstep]; exact hv'⟩
        have hpush : ∀ s, ∃ v', push c v i s = some (v', true) := by
          intro s
          unfold push
          rw [if_neg (by simp [hqc]), if_pos (by rw [hq]; exact hc.cap)]
          exact ⟨_, rfl⟩
        cases ph with
        | idle => exact absurd rfl hne
        | stopped => exact absurd (h.stopped _ hw rfl) hns
        | report n got st =>
          apply hown
          unfold ClientSampler.work
          rw [hi]
          exact ⟨_, rfl⟩
        | fetch n got f =>
          cases f with
          | opening =>
            cases cl with
            | true =>
              apply hown
              unfold ClientSampler.work
              rw [hi]
              exact ⟨_, rfl⟩
            | false =>
              apply hown
              unfold ClientSampler.work
              rw [hi]
              exact ⟨_, rfl⟩
          | asking =>
            by_cases hlt : got < n
            · exact .inr ⟨i, cl, n, got, _, hi, .inl ⟨rfl, hlt⟩⟩
            · apply hown
              unfold ClientSampler.work
              rw [hi]
              simp only [if_neg hlt]
              exact ⟨_, rfl⟩
          | reading want sampled parts => exact .inr ⟨i, cl, n, got, _, hi, .inr (.inl ⟨_, _, _, rfl⟩)⟩
          | pushing want sampled s rest =>
            obtain ⟨v', hv'⟩ := hpush s
            apply hown
            unfold ClientSampler.work
            rw [hi]
            simp only [hv']
            exact ⟨_, rfl⟩
          | checking final base =>
            by_cases hlt : got < n
            · cases cl with
              | true =>
                apply hown
                unfold ClientSampler.work
                rw [hi]
                simp only [if_pos hlt, if_true]
                exact ⟨_, rfl⟩
              | false =>
                have hg : c.isGrpc = false := (h.phase _ hw).2.2
                cases hsrc : c.source with
                | grpc t a b => simp [SamplerCfg.isGrpc, hsrc] at hg
                | here b =>
                  apply hown
                  unfold ClientSampler.work
                  rw [hi]
                  simp only [if_pos hlt, Bool.false_eq_true, if_false, hsrc]
                  exact ⟨_, rfl⟩
            · apply hown
              unfold ClientSampler.work
              rw [hi]
              simp only [if_neg hlt]
              exact ⟨_, rfl⟩
          | sampling final base batch dl => exact .inr ⟨i, cl, n, got, _, hi, .inr (.inr ⟨_, _, _, _, rfl⟩)⟩
          | pushingHere final base s rest =>
            obtain ⟨v', hv'⟩ := hpush s
            apply hown
            unfold ClientSampler.work
            rw [hi]
            simp only [hv']
            exact ⟨_, rfl⟩
      · have hidle : ∀ w ∈ v.workers, w.phase = .idle := fun w hw => Classical.byContradiction fun g => hex ⟨w, hw, g⟩
        have htot : total out v = 0 := by
          unfold total
          clear hnw
          generalize v.workers = l at hidle
          induction l with
          | nil => rfl
          | cons w l ih =>
            simp only [List.map_cons, List.sum_cons]
            rw [ih fun x hx => hidle x (List.mem_cons_of_mem _ hx), hidle w List.mem_cons_self]
            rfl
        have hreq := h.req hcl
        rw [htot] at hreq
        have hlt : v.requested < c.max := by omega
        have hlen : 0 < v.workers.length := by have := hc.workers; omega
        obtain ⟨w, hw⟩ : ∃ w, v.workers[0]? = some w := ⟨v.workers[0], List.getElem?_eq_getElem hlen⟩
        have hph := hidle w (List.mem_of_getElem? hw)
        left
        refine ⟨.work 0, ?_⟩
        have hss : v.shouldStop c = false := by
          cases hb : v.shouldStop c with
          | false => rfl
          | true =>
            exfalso
            apply hns
            simp only [shouldStop, Bool.or_eq_true, decide_eq_true_eq] at hb
            rcases hb with (g | g) | g
            · exact .inl g
            · exact .inr (.inl g)
            · exact .inr (.inr (fun e => by rw [e] at g; cases g))
        have : ∃ v', v.work c 0 = some v' := by
          unfold ClientSampler.work
          rw [hw]
          simp only [hph]
          unfold take
          rw [if_neg (by simp [hss]), if_pos hlt]
          exact ⟨_, rfl⟩
        obtain ⟨v', hv'⟩ := this
        exact ⟨v', rfl, by rw [hstep]; exact hv'⟩
    · obtain ⟨y, p, hy, hp⟩ := AMap.count_pos_iff.mp (Nat.pos_of_ne_zero hh)
      cases p with
      | holding k' s =>
        left
        refine ⟨.finish y, v.finishSample c y k' s, rfl, ?_⟩
        rw [hstep]
        show v.finish c y = _
        unfold ClientSampler.finish
        rw [hy]
      | popping _ _ => cases hp
      | failed _ => cases hp
      | stepping => cases hp

/-- A state in which all callers wait for a sample that nobody is going to fetch. -/
structure Stuck (c : SamplerCfg) (v : ClientSampler) (x : Nat) : Prop where
  waits : Waits v x
  all : ∀ y p, v.calls.get? y = some p → ∃ k t, p = .popping k t
  empty : v.queue = []
  open_ : v.queueClosed = false
  notClosed : v.closed = false
  notCalled : v.closing = .notCalled
  status : v.status = none
  returned : v.returned ≠ c.max
  requested : v.requested = c.max
  idle : ∀ w ∈ v.workers, w.phase = .idle

theorem Stuck.step {c : SamplerCfg} {v v' : ClientSampler} {x : Nat} {e : Event} (h : Stuck c v x) (he : e ≠ .close)
    (hs : ClientSampler.step c v e = some v') : Stuck c v' x := by
  have hwk : ∀ (i : Nat) (w : SWorker), v.workers[i]? = some w → w.phase = .idle := fun i w hw => h.idle w (List.mem_of_getElem? hw)
  unfold ClientSampler.step at hs
  split at hs
  · cases hs
  · cases e with
    | tick d =>
      cases hs
      exact ⟨h.waits, h.all, h.empty, h.open_, h.notClosed, h.notCalled, h.status, h.returned, h.requested, h.idle⟩
    | call y k =>
      simp only [ClientSampler.call] at hs
      split at hs
      · cases hs
      · rename_i hn
        rw [not_or, not_or] at hn
        obtain ⟨hy, _, hk⟩ := hn
        have hk : k ≠ .timestep := by
          intro g
          apply hk
          refine ⟨g, ?_⟩
          obtain ⟨k', t', hx⟩ := h.waits
          rw [size_eq]
          have := AMap.count_pos (p := isCall) hx rfl
          omega
        rw [if_neg (fun g => hk g.1)] at hs
        cases hs
        have hyx : x ≠ y := by
          intro g
          subst g
          obtain ⟨k', t', hx⟩ := h.waits
          exact hy (by simp [AMap.contains, hx])
        refine ⟨?_, ?_, h.empty, h.open_, h.notClosed, h.notCalled, h.status, h.returned, h.requested, h.idle⟩
        · obtain ⟨k', t', hx⟩ := h.waits
          exact ⟨k', t', by show (v.calls.insert y _).get? x = _; rw [AMap.get?_insert, if_neg hyx]; exact hx⟩
        · intro z p hz
          rcases get_insert hz with ⟨_, e⟩ | ⟨_, e⟩
          · exact ⟨k, v.clock, e⟩
          · exact h.all z p e
    | pop y =>
      simp only [ClientSampler.pop] at hs
      split at hs
      · rw [if_neg (by simp [h.open_])] at hs
        rw [h.empty] at hs
        cases hs
      · cases hs
    | finish y =>
      exfalso
      simp only [ClientSampler.finish] at hs
      split at hs
      · rename_i k hy
        obtain ⟨k', t, g⟩ := h.all _ _ hy
        cases g
      · rename_i k s hy
        obtain ⟨k', t, g⟩ := h.all _ _ hy
        cases g
      · rename_i hy
        obtain ⟨k', t, g⟩ := h.all _ _ hy
        cases g
      · cases hs
    | close => exact absurd rfl he
    | closeStep =>
      simp only [ClientSampler.closeStep, h.notCalled] at hs
      cases hs
    | work i =>
      exfalso
      simp only [ClientSampler.work] at hs
      split at hs
      · cases hs
      · rename_i w hw
        rw [hwk i w hw] at hs
        simp only [take] at hs
        rw [if_neg (by simp [shouldStop, h.notClosed, h.returned, h.status]), if_neg (by rw [h.requested]; omega)] at hs
        cases hs
    | write i r =>
      exfalso
      simp only [ClientSampler.write] at hs
      split at hs
      · rename_i hw
        cases hwk i _ hw
      · cases hs
    | response i es =>
      exfalso
      simp only [ClientSampler.response] at hs
      split at hs
      · rename_i hw
        cases hwk i _ hw
      · cases hs
    | streamEnd i st lim =>
      exfalso
      simp only [ClientSampler.streamEnd] at hs
      split at hs
      · rename_i hw
        cases hwk i _ hw
      · cases hs
    | answer i r =>
      exfalso
      simp only [ClientSampler.answer] at hs
      split at hs
      · rename_i hw
        cases hwk i _ hw
      · cases hs

/-- It stays like that until `Close` is called. -/
theorem Stuck.run {c : SamplerCfg} {v : ClientSampler} {x : Nat} (h : Stuck c v x) (evs : List Event) (he : Event.close ∉ evs)
    {v' : ClientSampler} (hr : ClientSampler.run c v evs = some v') : Stuck c v' x := by
  induction evs generalizing v with
  | nil => cases hr; exact h
  | cons e es ih =>
    simp only [ClientSampler.run] at hr
    cases hs : ClientSampler.step c v e with
    | none => rw [hs] at hr; cases hr
    | some v1 =>
      rw [hs] at hr
      exact ih (h.step (fun g => he (g ▸ List.mem_cons_self)) hs) (fun g => he (List.mem_cons_of_mem _ g)) hr

/-- The number of workers does not change. -/
theorem workers_length {c : SamplerCfg} {now : Int} {P : ClientSampler → Event → Prop} {evs : List Event} {v : ClientSampler}
    (h : Reach c now P evs v) : v.workers.length = c.workers := by
  have hent : ∀ (v : ClientSampler) i n got want sampled parts es,
      (entries v i n got want sampled parts es).workers.length = v.workers.length := by
    intro v i n got want sampled parts es
    induction es generalizing parts with
    | nil =>
      unfold entries
      split
      · simp [setPhase]
      · split <;> simp [setPhase]
    | cons e es ih =>
      unfold entries
      split
      · split <;> simp [setPhase]
      · exact ih _
  have hit : ∀ (v : ClientSampler) i n got final base l, (items v i n got final base l).workers.length = v.workers.length := by
    intro v i n got final base l
    unfold items
    split
    · simp [setPhase]
    · split <;> simp [setPhase]
  have hret : ∀ (v : ClientSampler) x o, (v.ret x o).workers = v.workers := fun _ _ _ => rfl
  have hfin : ∀ (v : ClientSampler), (v.finished c).workers = v.workers := fun v => by rw [finished_eq]
  induction h with
  | init => simp [ClientSampler.init]
  | @step evs e v v' _ _ hs ih =>
    rw [← ih]
    unfold ClientSampler.step at hs
    split at hs
    · cases hs
    · cases e with
      | tick d => cases hs; rfl
      | call x k =>
        simp only [ClientSampler.call] at hs
        split at hs <;> cases hs
        rfl
      | pop x =>
        simp only [ClientSampler.pop] at hs
        split at hs
        · split at hs
          · cases hs; rfl
          · split at hs
            · cases hs
            · split at hs <;> (cases hs; rfl)
        · cases hs
      | finish x =>
        simp only [ClientSampler.finish] at hs
        split at hs
        · split at hs <;> (cases hs; rfl)
        · cases hs
          unfold finishSample
          split
          · rfl
          · split
            · rfl
            · rfl
            · split
              · rfl
              · rw [hret, hfin]
          · split
            · rfl
            · rfl
            · split
              · rfl
              · rw [hret, hfin]
        · split at hs
          · cases hs; rfl
          · cases hs
            unfold finishTimestep
            split
            · rfl
            · rfl
            · simp only
              split
              · rfl
              · rw [hret]
                split
                · rw [hfin]
                · rfl
        · cases hs
      | close =>
        simp only [ClientSampler.close] at hs
        split at hs <;> (cases hs; rfl)
      | closeStep =>
        simp only [ClientSampler.closeStep] at hs
        split at hs
        · cases hs
        · split at hs <;> (cases hs; simp)
        · split at hs <;> cases hs
          rfl
        · cases hs
      | work i =>
        simp only [ClientSampler.work] at hs
        split at hs
        · cases hs
        · split at hs
          · simp only [take] at hs
            split at hs
            · cases hs; simp [setPhase]
            · split at hs <;> cases hs
              simp [setPhase]
          · cases hs
            unfold reported
            simp only
            split <;> simp [setPhase]
          · cases hs
          · split at hs
            · split at hs <;> (cases hs; simp [setPhase])
            · split at hs <;> cases hs
              simp [loopDone, setPhase]
            · cases hs
            · split at hs
              · cases hs
              · rename_i hp
                rcases push_cases hp with ⟨_, g⟩ | ⟨_, _, g⟩
                · cases g
                · cases g
                  cases hs
                  rw [hent]
              · rename_i hp
                rcases push_cases hp with ⟨_, g⟩ | ⟨_, _, g⟩
                · cases g
                  cases hs
                  simp [setPhase]
                · cases g
            · split at hs
              · split at hs
                · cases hs; simp [setPhase]
                · split at hs <;> cases hs
                  simp [setPhase]
              · cases hs; simp [loopDone, setPhase]
            · cases hs
            · split at hs
              · cases hs
              · rename_i hp
                rcases push_cases hp with ⟨_, g⟩ | ⟨_, _, g⟩
                · cases g
                · cases g
                  cases hs
                  rw [hit]
              · rename_i hp
                rcases push_cases hp with ⟨_, g⟩ | ⟨_, _, g⟩
                · cases g
                  cases hs
                  simp [setPhase]
                · cases g
      | write i r =>
        simp only [ClientSampler.write] at hs
        split at hs
        · split at hs
          · cases hs
          · split at hs
            · split at hs <;> (cases hs; simp [setPhase])
            · cases hs
        · cases hs
      | response i es =>
        simp only [ClientSampler.response] at hs
        split at hs <;> cases hs
        rw [hent]
      | streamEnd i st lim =>
        simp only [ClientSampler.streamEnd] at hs
        split at hs <;> cases hs
        simp [setPhase]
      | answer i r =>
        simp only [ClientSampler.answer] at hs
        split at hs
        · split at hs
          · cases hs
          · cases hs; rw [hit]
          · split at hs
            · split at hs
              · cases hs
              · split at hs
                · cases hs; simp [setPhase]
                · split at hs <;> (cases hs; simp [setPhase])
            · cases hs; simp [setPhase]
        · cases hs

end ClientSampler
end Verif
