import Verif.Proofs.ClientSamplerLog
/-
Concrete schedules of the client sampler.
-/
namespace Verif
namespace ClientSampler

/-- Is the event what an honest server or table does? -/
def faithfulB (v : ClientSampler) : Event → Bool
  | .response i es =>
    match v.workers[i]? with
    | some ⟨_, .fetch _ _ (.reading want sampled _)⟩ => decide (((es.filter Entry.last).length : Int) ≤ want - sampled)
    | _ => true
  | .answer i (.ok l) =>
    match v.workers[i]? with
    | some ⟨_, .fetch _ _ (.sampling _ _ batch _)⟩ => decide ((l.length : Int) ≤ batch)
    | _ => true
  | _ => true

theorem faithful_of {v : ClientSampler} {e : Event} (h : faithfulB v e = true) : Faithful v e := by
  unfold Faithful
  split
  · intro cl n got want sampled parts hw
    unfold faithfulB at h
    simp only [hw, decide_eq_true_eq] at h
    exact h
  · intro cl n got final base batch deadline hw
    unfold faithfulB at h
    simp only [hw, decide_eq_true_eq] at h
    exact h
  · trivial

/-- The state after a schedule, if all of it is possible and honest and the property holds at the end. -/
def after (c : SamplerCfg) (v : ClientSampler) (P : ClientSampler → Bool) : List Event → Bool
  | [] => P v
  | e :: es => faithfulB v e &&
    match step c v e with
    | some v' => after c v' P es
    | none => false

theorem after_reach {c : SamplerCfg} {now : Int} {P : ClientSampler → Bool} {evs0 evs : List Event} {v : ClientSampler}
    (h0 : Reach c now Faithful evs0 v) (h : after c v P evs = true) : ∃ v', Reach c now Faithful (evs0 ++ evs) v' ∧ P v' = true := by
  induction evs generalizing evs0 v with
  | nil => exact ⟨v, by simpa using h0, h⟩
  | cons e es ih =>
    simp only [after, Bool.and_eq_true] at h
    obtain ⟨h1, h2⟩ := h
    split at h2
    · rename_i v' hs
      obtain ⟨v'', g1, g2⟩ := ih (h0.step (faithful_of h1) hs) h2
      exact ⟨v'', by simpa using g1, g2⟩
    · cases h2

theorem after_init {c : SamplerCfg} {now : Int} {P : ClientSampler → Bool} {evs : List Event}
    (h : after c (ClientSampler.init c now) P evs = true) : ∃ v, Reach c now Faithful evs v ∧ P v = true := by
  simpa using after_reach .init h

/-- The same for schedules with another property. -/
def afterB (c : SamplerCfg) (Q : ClientSampler → Event → Bool) (v : ClientSampler) (P : ClientSampler → Bool) : List Event → Bool
  | [] => P v
  | e :: es => Q v e &&
    match step c v e with
    | some v' => afterB c Q v' P es
    | none => false

theorem afterB_reach {c : SamplerCfg} {Q : ClientSampler → Event → Bool} {R : ClientSampler → Event → Prop}
    (hQ : ∀ v e, Q v e = true → R v e) {now : Int} {P : ClientSampler → Bool} {evs0 evs : List Event} {v : ClientSampler}
    (h0 : Reach c now R evs0 v) (h : afterB c Q v P evs = true) : ∃ v', Reach c now R (evs0 ++ evs) v' ∧ P v' = true := by
  induction evs generalizing evs0 v with
  | nil => exact ⟨v, by simpa using h0, h⟩
  | cons e es ih =>
    simp only [afterB, Bool.and_eq_true] at h
    obtain ⟨h1, h2⟩ := h
    split at h2
    · rename_i v' hs
      obtain ⟨v'', g1, g2⟩ := ih (h0.step (hQ _ _ h1) hs) h2
      exact ⟨v'', by simpa using g1, g2⟩
    · cases h2

/-- A call in `Pop`. -/
def isPopping : CallPhase → Bool
  | .popping _ _ => true
  | _ => false

/-- A worker that waits for work. -/
def isIdle (w : SWorker) : Bool :=
  match w.phase with
  | .idle => true
  | _ => false

/-- A check of `Stuck`. -/
def stuckB (c : SamplerCfg) (x : Nat) (v : ClientSampler) : Bool :=
  (v.calls.get? x).any isPopping && decide (v.calls.count (fun p => !isPopping p) = 0) && v.queue.isEmpty && !v.queueClosed && !v.closed &&
    decide (v.closing = .notCalled) && decide (v.status = none) && decide (v.returned ≠ c.max) && decide (v.requested = c.max) &&
    v.workers.all isIdle

theorem stuck_of {c : SamplerCfg} {x : Nat} {v : ClientSampler} (h : stuckB c x v = true) : Stuck c v x := by
  simp only [stuckB, Bool.and_eq_true, decide_eq_true_eq, Bool.not_eq_true', List.all_eq_true, Option.any_eq_true] at h
  obtain ⟨⟨⟨⟨⟨⟨⟨⟨⟨⟨p, h1, h1'⟩, h2⟩, h3⟩, h4⟩, h5⟩, h6⟩, h7⟩, h8⟩, h9⟩, h10⟩ := h
  have hpop : ∀ p, isPopping p = true → ∃ k t, p = .popping k t := by
    intro p hp
    cases p with
    | popping k t => exact ⟨k, t, rfl⟩
    | failed _ => cases hp
    | holding _ _ => cases hp
    | stepping => cases hp
  refine ⟨?_, ?_, by simpa using h3, h4, h5, h6, h7, h8, h9, ?_⟩
  · obtain ⟨k, t, e⟩ := hpop p h1'
    exact ⟨k, t, by rw [h1, e]⟩
  · intro y q hy
    cases hq : isPopping q with
    | true => exact hpop q hq
    | false =>
      have := AMap.count_pos (p := fun p => !isPopping p) hy (by simp [hq])
      omega
  · intro w hw
    have := h10 w hw
    unfold isIdle at this
    split at this
    · assumption
    · cases this

end ClientSampler
end Verif
