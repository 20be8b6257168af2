import Verif.Props.C69_SampleOrder
import Verif.Proofs.DatasetInv
/-
What a closed queue does to a client sampler.
-/
namespace Verif
namespace ClientSampler

/-- One step of the queue: it never holds more than its capacity. -/
theorem step_cap {c : SamplerCfg} {v v' : ClientSampler} {e : Event} (hs : step c v e = some v') (h : v.queue.length ≤ c.cap) :
    v'.queue.length ≤ c.cap := by
  unfold ClientSampler.step at hs
  split at hs
  · cases hs
  · cases e with
    | tick d => cases hs; exact h
    | call x k =>
      simp only [ClientSampler.call] at hs
      split at hs <;> cases hs
      exact h
    | pop x =>
      simp only [ClientSampler.pop] at hs
      split at hs
      · split at hs
        · cases hs; exact h
        · split at hs
          · cases hs
          · rename_i s q hq
            have hl : q.length ≤ c.cap := by
              rw [hq] at h
              simp only [List.length_cons] at h
              omega
            split at hs <;> cases hs <;> exact hl
      · cases hs
    | finish x =>
      simp only [ClientSampler.finish] at hs
      split at hs
      · split at hs <;> cases hs <;> exact h
      · cases hs
        unfold finishSample
        have hf := (finished_quiet c v).queue
        split
        · exact h
        · split
          · exact h
          · exact h
          · split
            · exact h
            · show (v.finished c).queue.length ≤ _
              rw [hf]; exact h
        · split
          · exact h
          · exact h
          · split
            · exact h
            · show (v.finished c).queue.length ≤ _
              rw [hf]; exact h
      · split at hs
        · cases hs; exact h
        · rename_i s _
          cases hs
          unfold finishTimestep
          split
          · exact h
          · exact h
          · rename_i rows last s' _
            simp only
            split
            · exact h
            · show (if last then ({ v with active := some s' } : ClientSampler).finished c else { v with active := some s' }).queue.length ≤ _
              split
              · rw [(finished_quiet c _).queue]; exact h
              · exact h
      · cases hs
    | close =>
      simp only [ClientSampler.close] at hs
      split at hs <;> cases hs <;> exact h
    | closeStep =>
      simp only [ClientSampler.closeStep] at hs
      split at hs
      · cases hs
      · split at hs <;> cases hs <;> exact h
      · split at hs <;> cases hs <;> exact h
      · cases hs
    | work i =>
      simp only [ClientSampler.work] at hs
      split at hs
      · cases hs
      · split at hs
        · unfold take at hs
          split at hs
          · cases hs; exact h
          · split at hs <;> cases hs
            exact h
        · cases hs
          unfold reported
          simp only
          split <;> exact h
        · cases hs
        · split at hs
          · split at hs <;> cases hs <;> exact h
          · split at hs <;> cases hs
            exact h
          · cases hs
          · split at hs
            · cases hs
            · rename_i r hp
              cases hs
              rw [(entries_quiet _ _ _ _ _ _ _ _).queue]
              rcases push_cases hp with ⟨_, g⟩ | ⟨_, g1, g⟩
              · cases g
              · cases g
                simp only [List.length_append, List.length_cons, List.length_nil]
                omega
            · rename_i r hp
              cases hs
              rcases push_cases hp with ⟨_, g⟩ | ⟨_, g1, g⟩
              · cases g
                exact h
              · cases g
          · split at hs
            · split at hs
              · cases hs; exact h
              · split at hs <;> cases hs
                exact h
            · cases hs; exact h
          · cases hs
          · split at hs
            · cases hs
            · rename_i r hp
              cases hs
              rw [(items_quiet _ _ _ _ _ _ _).queue]
              rcases push_cases hp with ⟨_, g⟩ | ⟨_, g1, g⟩
              · cases g
              · cases g
                simp only [List.length_append, List.length_cons, List.length_nil]
                omega
            · rename_i r hp
              cases hs
              rcases push_cases hp with ⟨_, g⟩ | ⟨_, g1, g⟩
              · cases g
                exact h
              · cases g
    | write i r =>
      simp only [ClientSampler.write] at hs
      split at hs
      · split at hs
        · cases hs
        · split at hs
          · split at hs <;> cases hs <;> exact h
          · cases hs
      · cases hs
    | response i es =>
      simp only [ClientSampler.response] at hs
      split at hs
      · cases hs
        rw [(entries_quiet _ _ _ _ _ _ _ _).queue]
        exact h
      · cases hs
    | streamEnd i st l =>
      simp only [ClientSampler.streamEnd] at hs
      split at hs <;> cases hs
      exact h
    | answer i r =>
      simp only [ClientSampler.answer] at hs
      split at hs
      · split at hs
        · cases hs
        · cases hs
          rw [(items_quiet _ _ _ _ _ _ _).queue]
          exact h
        · split at hs
          · split at hs
            · cases hs
            · split at hs
              · cases hs; exact h
              · split at hs <;> cases hs <;> exact h
          · cases hs; exact h
      · cases hs

theorem Reach.cap {c : SamplerCfg} {now : Int} {P : ClientSampler → Event → Prop} {evs : List Event} {v : ClientSampler}
    (h : Reach c now P evs v) : v.queue.length ≤ c.cap := by
  induction h with
  | init => exact Nat.zero_le _
  | step _ _ hs ih => exact step_cap hs ih

/-- A call that can only return an error. -/
def NoSample : CallPhase → Prop
  | .popping _ _ => True
  | .failed _ => True
  | _ => False

/-- The queue is closed, and no sample has been taken that is still to be returned. -/
structure Dry (v : ClientSampler) : Prop where
  closed : v.queueClosed = true
  calls : ∀ x p, v.calls.get? x = some p → NoSample p
  active : v.partlyRead = false

/-- With a closed queue nothing arrives and nothing is taken. -/
theorem closed_step {c : SamplerCfg} {v v' : ClientSampler} {e : Event} (hs : step c v e = some v')
    (hk : ∀ x s, v.calls.get? x ≠ some (.holding .timestep s)) (hq : v.queueClosed = true) :
    v'.queueClosed = true ∧ v'.queue = v.queue ∧ v'.pushed = v.pushed := by
  refine ⟨(Eff.step hs).queueClosed hq, ?_⟩
  rcases Flow.step hs hk with q | ⟨_, _, _, _, _, _, _, g⟩ | ⟨_, _, _, _, _, _, g1, g2, _⟩ | ⟨_, _, _, _, _, _, g1, g2, _⟩ | ⟨_, _, _, _, _, _, g, _⟩ |
    ⟨_, _, _, _, _, g1, g2, _⟩ | ⟨_, _, _, _, _, _, _, g1, g2, _⟩ | ⟨_, _, _, _, _, _, _, _, g1, g2, _⟩
  · exact ⟨q.queue, q.pushed⟩
  · rw [hq] at g; cases g
  · exact ⟨g2, g1⟩
  · exact ⟨g2, g1⟩
  · rw [hq] at g; cases g
  · exact ⟨g2, g1⟩
  · exact ⟨g2, g1⟩
  · exact ⟨g2, g1⟩

/-- Then calls return nothing but errors. -/
theorem dry_step {c : SamplerCfg} {v v' : ClientSampler} {e : Event} (hs : step c v e = some v')
    (hk : ∀ x s, v.calls.get? x ≠ some (.holding .timestep s)) (h : Dry v) :
    Dry v' ∧ (v'.log = v.log ∨ ∃ st, v'.log = v.log ++ [.error st]) := by
  have hc := (Eff.step hs).queueClosed h.closed
  rcases Flow.step hs hk with q | ⟨_, _, _, _, _, _, _, g⟩ | ⟨x, k, _, _, _, _, _, _, g, gl, ga⟩ | ⟨x, k, _, _, _, _, _, _, g, gl, ga, _⟩ |
    ⟨_, _, _, _, _, _, g, _⟩ | ⟨x, k, st, _, _, _, _, g, gl, ga⟩ | ⟨x, k, s, _, _, g, _⟩ | ⟨x, s, _, _, _, g, _⟩
  · exact ⟨⟨hc, by rw [q.calls]; exact h.calls, by unfold partlyRead; rw [q.active]; exact h.active⟩, .inl q.log⟩
  · rw [h.closed] at g; cases g
  · refine ⟨⟨hc, ?_, by unfold partlyRead; rw [ga]; exact h.active⟩, .inl gl⟩
    intro y p hy
    rw [g] at hy
    rcases get_insert hy with ⟨_, e⟩ | ⟨_, e⟩
    · have ha := h.active
      unfold partlyRead at ha
      rw [if_neg (by rw [ha]; simp)] at e
      rw [e]
      trivial
    · exact h.calls y p e
  · refine ⟨⟨hc, ?_, by unfold partlyRead; rw [ga]; exact h.active⟩, .inl gl⟩
    intro y p hy
    rw [g] at hy
    rcases get_insert hy with ⟨_, e⟩ | ⟨_, e⟩
    · rw [e]
      trivial
    · exact h.calls y p e
  · rw [h.closed] at g; cases g
  · refine ⟨⟨hc, ?_, by unfold partlyRead; rw [ga]; exact h.active⟩, .inr ⟨st, gl⟩⟩
    intro y p hy
    rw [g] at hy
    exact h.calls y p (get_erase hy).2
  · exact absurd (h.calls _ _ g) id
  · exact absurd (h.calls _ _ g) id

end ClientSampler
end Verif
