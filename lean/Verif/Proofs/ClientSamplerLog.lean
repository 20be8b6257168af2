import Verif.Proofs.ClientSamplerLive
/-
What one step of the client sampler changes of the history.
-/
namespace Verif

/-- The data of what a call returned, and how it was checked. -/
def SampleOut.data? : SampleOut → Option (SampleCall × List Tensor)
  | .timestep rows _ => some (.timestep, rows)
  | .batched _ cols => some (.batched, cols)
  | .trajectory cols => some (.trajectory, cols)
  | .error _ => none

namespace ClientSampler

/-- What a call that returns has to do with the sampler. -/
def Returns (c : SamplerCfg) (v : ClientSampler) (x : Nat) (o : SampleOut) : Prop :=
  (∃ k e, v.calls.get? x = some (.failed k) ∧ v.popStatus c = some e ∧ o = .error e) ∨
  (∃ s, v.calls.get? x = some (.holding .batched s) ∧
    ((∃ e, s.asBatchedTimesteps = .err e ∧ o = .error e) ∨
      ∃ n cols, s.asBatchedTimesteps = .ok (n, cols) ∧
        ((∃ e, SampleCall.batched.validate c.spec cols = some e ∧ o = .error e) ∨
          SampleCall.batched.validate c.spec cols = none ∧ o = .batched n cols))) ∨
  (∃ s, v.calls.get? x = some (.holding .trajectory s) ∧
    ((∃ e, s.asTrajectory = .err e ∧ o = .error e) ∨
      ∃ cols, s.asTrajectory = .ok cols ∧
        ((∃ e, SampleCall.trajectory.validate c.spec cols = some e ∧ o = .error e) ∨
          SampleCall.trajectory.validate c.spec cols = none ∧ o = .trajectory cols))) ∨
  (∃ s, v.calls.get? x = some .stepping ∧ v.active = some s ∧
    ((∃ e, s.deliver = .err e ∧ o = .error e) ∨
      ∃ rows last s', s.deliver = .ok (rows, last, s') ∧
        ((∃ e, SampleCall.timestep.validate c.spec rows = some e ∧ o = .error e) ∨
          SampleCall.timestep.validate c.spec rows = none ∧ o = .timestep rows last)))

/-- What one step changes. -/
structure Eff (c : SamplerCfg) (v : ClientSampler) (e : Event) (v' : ClientSampler) : Prop where
  status : v.status ≠ none → v'.status = v.status
  closed : v.closed = true → v'.closed = true
  queueClosed : v.queueClosed = true → v'.queueClosed = true
  clock : v'.clock = match e with
    | .tick d => v.clock + d
    | _ => v.clock
  log : v'.log = v.log ∨ ∃ x o, e = .finish x ∧ v'.log = v.log ++ [o] ∧ v'.dead = false ∧ Returns c v x o ∧ v'.calls = v.calls.erase x
  sent : v'.sent = v.sent ∨ ∃ i n got t p f, e = .write i none ∧ c.source = .grpc t p f ∧ got < n ∧ v'.dead = false ∧
    v'.sent = v.sent ++ [clientRequest t (min p (n - got)) c.timeout f]
  dead : v'.dead = true → v'.abandoned = v.abandoned
  kept : e ≠ .close → v'.closed = v.closed

theorem Eff.of {c : SamplerCfg} {v v' : ClientSampler} {e : Event} (hst : v'.status = v.status) (hcl : v'.closed = v.closed)
    (hqc : v'.queueClosed = v.queueClosed) (hck : v'.clock = v.clock) (hnt : ∀ d, e ≠ .tick d) (hlog : v'.log = v.log)
    (hs : v'.sent = v.sent) (hd : v'.dead = true → v'.abandoned = v.abandoned) : Eff c v e v' := by
  refine ⟨fun _ => hst, fun g => hcl.trans g, fun g => hqc.trans g, ?_, .inl hlog, .inl hs, hd, fun _ => hcl⟩
  cases e with
  | tick d => exact absurd rfl (hnt d)
  | _ => exact hck

theorem Eff.entries {c : SamplerCfg} {v v0 : ClientSampler} {e : Event} (i : Nat) (n got want sampled : Int) (parts es : List Entry)
    (hst : v0.status = v.status) (hcl : v0.closed = v.closed) (hqc : v0.queueClosed = v.queueClosed) (hck : v0.clock = v.clock)
    (hnt : ∀ d, e ≠ .tick d) (hlog : v0.log = v.log) (hs : v0.sent = v.sent) (hab : v0.abandoned = v.abandoned)
    (hd : v0.dead = false) : Eff c v e (entries v0 i n got want sampled parts es) := by
  induction es generalizing parts with
  | nil =>
    unfold ClientSampler.entries
    split
    · exact Eff.of hst hcl hqc hck hnt hlog hs (fun g => hab)
    · split
      · exact Eff.of hst hcl hqc hck hnt hlog hs (fun g => hab)
      · exact Eff.of hst hcl hqc hck hnt hlog hs (fun g => hab)
  | cons a es ih =>
    unfold ClientSampler.entries
    split
    · split
      · exact Eff.of hst hcl hqc hck hnt hlog hs (fun g => hab)
      · exact Eff.of hst hcl hqc hck hnt hlog hs (fun g => by
          have g : v0.dead = true := g
          rw [hd] at g; cases g)
      · exact Eff.of hst hcl hqc hck hnt hlog hs (fun g => hab)
    · exact ih _

theorem Eff.items {c : SamplerCfg} {v v0 : ClientSampler} {e : Event} (i : Nat) (n got : Int) (final : Duration) (base : Int)
    (l : List SampledItem)
    (hst : v0.status = v.status) (hcl : v0.closed = v.closed) (hqc : v0.queueClosed = v.queueClosed) (hck : v0.clock = v.clock)
    (hnt : ∀ d, e ≠ .tick d) (hlog : v0.log = v.log) (hs : v0.sent = v.sent) (hab : v0.abandoned = v.abandoned) :
    Eff c v e (items v0 i n got final base l) := by
  unfold ClientSampler.items
  split
  · exact Eff.of hst hcl hqc hck hnt hlog hs (fun g => hab)
  · split
    · exact Eff.of hst hcl hqc hck hnt hlog hs (fun g => hab)
    · exact Eff.of hst hcl hqc hck hnt hlog hs (fun g => hab)
    · exact Eff.of hst hcl hqc hck hnt hlog hs (fun g => hab)

/-- A call that returns. -/
theorem Eff.ret {c : SamplerCfg} {v v0 : ClientSampler} {x : Nat} {o : SampleOut} (hst : v0.status = v.status) (hcl : v0.closed = v.closed)
    (hqc : v.queueClosed = true → v0.queueClosed = true) (hck : v0.clock = v.clock) (hlog : v0.log = v.log)
    (hs : v0.sent = v.sent) (hd : v0.dead = false) (hc : v0.calls = v.calls) (hr : Returns c v x o) :
    Eff c v (.finish x) (v0.ret x o) := by
  refine ⟨fun _ => hst, fun g => hcl.trans g, hqc, hck, .inr ⟨x, o, rfl, ?_, hd, hr, ?_⟩, .inl hs, ?_, fun _ => hcl⟩
  · show v0.log ++ [o] = _
    rw [hlog]
  · show v0.calls.erase x = _
    rw [hc]
  · intro g
    have g : v0.dead = true := g
    rw [hd] at g; cases g

theorem finished_keeps (c : SamplerCfg) (v : ClientSampler) : (v.finished c).status = v.status ∧ (v.finished c).closed = v.closed ∧
    (v.queueClosed = true → (v.finished c).queueClosed = true) ∧ (v.finished c).clock = v.clock ∧ (v.finished c).log = v.log ∧
    (v.finished c).sent = v.sent ∧ (v.finished c).dead = v.dead ∧ (v.finished c).calls = v.calls := by
  unfold finished
  simp only
  split
  · exact ⟨rfl, rfl, fun _ => rfl, rfl, rfl, rfl, rfl, rfl⟩
  · exact ⟨rfl, rfl, id, rfl, rfl, rfl, rfl, rfl⟩

theorem Eff.step {c : SamplerCfg} {v v' : ClientSampler} {e : Event} (hs : step c v e = some v') : Eff c v e v' := by
  unfold ClientSampler.step at hs
  split at hs
  · cases hs
  · rename_i hd
    have hd : v.dead = false := by simpa using hd
    cases e with
    | tick d =>
      cases hs
      exact ⟨fun _ => rfl, id, id, rfl, .inl rfl, .inl rfl, fun _ => rfl, fun _ => rfl⟩
    | call x k =>
      simp only [ClientSampler.call] at hs
      split at hs <;> cases hs
      exact Eff.of rfl rfl rfl rfl (by simp) rfl rfl (fun _ => rfl)
    | pop x =>
      simp only [ClientSampler.pop] at hs
      split at hs
      · split at hs
        · cases hs
          exact Eff.of rfl rfl rfl rfl (by simp) rfl rfl (fun _ => rfl)
        · split at hs
          · cases hs
          · split at hs
            · cases hs
              exact Eff.of rfl rfl rfl rfl (by simp) rfl rfl (fun _ => rfl)
            · cases hs
              exact Eff.of rfl rfl rfl rfl (by simp) rfl rfl (fun _ => rfl)
      · cases hs
    | finish x =>
      obtain ⟨f1, f2, f3, f4, f5, f6, f7, f8⟩ := finished_keeps c v
      simp only [ClientSampler.finish] at hs
      split at hs
      · rename_i k hx
        split at hs
        · rename_i e he
          cases hs
          exact Eff.ret rfl rfl id rfl rfl rfl hd rfl (.inl ⟨k, e, hx, he, rfl⟩)
        · cases hs
          exact Eff.of rfl rfl rfl rfl (by simp) rfl rfl (fun _ => rfl)
      · rename_i k s hx
        cases hs
        unfold finishSample
        split
        · exact Eff.of rfl rfl rfl rfl (by simp) rfl rfl (fun _ => rfl)
        · split
          · exact Eff.of rfl rfl rfl rfl (by simp) rfl rfl (fun _ => rfl)
          · rename_i e he
            exact Eff.ret rfl rfl id rfl rfl rfl hd rfl (.inr (.inl ⟨s, hx, .inl ⟨e, he, rfl⟩⟩))
          · rename_i n cols he
            split
            · rename_i e' he'
              exact Eff.ret rfl rfl id rfl rfl rfl hd rfl (.inr (.inl ⟨s, hx, .inr ⟨n, cols, he, .inl ⟨e', he', rfl⟩⟩⟩))
            · rename_i he'
              exact Eff.ret f1 f2 f3 f4 f5 f6 (f7.trans hd) f8 (.inr (.inl ⟨s, hx, .inr ⟨n, cols, he, .inr ⟨he', rfl⟩⟩⟩))
        · split
          · exact Eff.of rfl rfl rfl rfl (by simp) rfl rfl (fun _ => rfl)
          · rename_i e he
            exact Eff.ret rfl rfl id rfl rfl rfl hd rfl (.inr (.inr (.inl ⟨s, hx, .inl ⟨e, he, rfl⟩⟩)))
          · rename_i cols he
            split
            · rename_i e' he'
              exact Eff.ret rfl rfl id rfl rfl rfl hd rfl (.inr (.inr (.inl ⟨s, hx, .inr ⟨cols, he, .inl ⟨e', he', rfl⟩⟩⟩)))
            · rename_i he'
              exact Eff.ret f1 f2 f3 f4 f5 f6 (f7.trans hd) f8 (.inr (.inr (.inl ⟨s, hx, .inr ⟨cols, he, .inr ⟨he', rfl⟩⟩⟩)))
      · rename_i hx
        split at hs
        · cases hs
          exact Eff.of rfl rfl rfl rfl (by simp) rfl rfl (fun _ => rfl)
        · rename_i s hact
          cases hs
          unfold finishTimestep
          split
          · exact Eff.of rfl rfl rfl rfl (by simp) rfl rfl (fun _ => rfl)
          · rename_i e he
            exact Eff.ret rfl rfl id rfl rfl rfl hd rfl (.inr (.inr (.inr ⟨s, hx, hact, .inl ⟨e, he, rfl⟩⟩)))
          · rename_i rows last s' he
            simp only
            split
            · rename_i e' he'
              exact Eff.ret rfl rfl id rfl rfl rfl hd rfl (.inr (.inr (.inr ⟨s, hx, hact, .inr ⟨rows, last, s', he, .inl ⟨e', he', rfl⟩⟩⟩)))
            · rename_i he'
              obtain ⟨f1, f2, f3, f4, f5, f6, f7, f8⟩ := finished_keeps c { v with active := some s' }
              have hr : Returns c v x (.timestep rows last) := .inr (.inr (.inr ⟨s, hx, hact, .inr ⟨rows, last, s', he, .inr ⟨he', rfl⟩⟩⟩))
              split
              · exact Eff.ret f1 f2 f3 f4 f5 f6 (f7.trans hd) f8 hr
              · exact Eff.ret rfl rfl id rfl rfl rfl hd rfl hr
      · cases hs
    | close =>
      simp only [ClientSampler.close] at hs
      split at hs
      · cases hs
        exact Eff.of rfl rfl rfl rfl (by simp) rfl rfl (fun _ => rfl)
      · cases hs
        exact ⟨fun _ => rfl, fun _ => rfl, id, rfl, .inl rfl, .inl rfl, fun _ => rfl, fun g => absurd rfl g⟩
    | closeStep =>
      simp only [ClientSampler.closeStep] at hs
      split at hs
      · cases hs
      · split at hs
        · cases hs
          exact Eff.of rfl rfl rfl rfl (by simp) rfl rfl (fun _ => rfl)
        · cases hs
          exact ⟨fun _ => rfl, id, fun _ => rfl, rfl, .inl rfl, .inl rfl, fun _ => rfl, fun _ => rfl⟩
      · split at hs <;> cases hs
        exact Eff.of rfl rfl rfl rfl (by simp) rfl rfl (fun _ => rfl)
      · cases hs
    | work i =>
      simp only [ClientSampler.work] at hs
      split at hs
      · cases hs
      · split at hs
        · simp only [take] at hs
          split at hs
          · cases hs
            exact Eff.of rfl rfl rfl rfl (by simp) rfl rfl (fun _ => rfl)
          · split at hs <;> cases hs
            exact Eff.of rfl rfl rfl rfl (by simp) rfl rfl (fun _ => rfl)
        · cases hs
          unfold reported
          simp only
          split
          · rename_i h
            exact ⟨fun g => absurd h.1 g, id, fun _ => rfl, rfl, .inl rfl, .inl rfl, fun _ => rfl, fun _ => rfl⟩
          · exact Eff.of rfl rfl rfl rfl (by simp) rfl rfl (fun _ => rfl)
        · cases hs
        · split at hs
          · split at hs <;> cases hs
            · exact Eff.of rfl rfl rfl rfl (by simp) rfl rfl (fun _ => rfl)
            · exact Eff.of rfl rfl rfl rfl (by simp) rfl rfl (fun _ => rfl)
          · split at hs <;> cases hs
            exact Eff.of rfl rfl rfl rfl (by simp) rfl rfl (fun _ => rfl)
          · cases hs
          · split at hs
            · cases hs
            · rename_i hp
              rcases push_cases hp with ⟨_, g⟩ | ⟨_, _, g⟩
              · cases g
              · cases g
                cases hs
                exact Eff.entries _ _ _ _ _ _ _ rfl rfl rfl rfl (by simp) rfl rfl rfl hd
            · rename_i hp
              rcases push_cases hp with ⟨_, g⟩ | ⟨_, _, g⟩
              · cases g
                cases hs
                exact Eff.of rfl rfl rfl rfl (by simp) rfl rfl (fun g => by
                  have g : v.dead = true := g
                  rw [hd] at g; cases g)
              · cases g
          · split at hs
            · split at hs
              · cases hs
                exact Eff.of rfl rfl rfl rfl (by simp) rfl rfl (fun _ => rfl)
              · split at hs <;> cases hs
                exact Eff.of rfl rfl rfl rfl (by simp) rfl rfl (fun _ => rfl)
            · cases hs
              exact Eff.of rfl rfl rfl rfl (by simp) rfl rfl (fun _ => rfl)
          · cases hs
          · split at hs
            · cases hs
            · rename_i hp
              rcases push_cases hp with ⟨_, g⟩ | ⟨_, _, g⟩
              · cases g
              · cases g
                cases hs
                exact Eff.items _ _ _ _ _ _ rfl rfl rfl rfl (by simp) rfl rfl rfl
            · rename_i hp
              rcases push_cases hp with ⟨_, g⟩ | ⟨_, _, g⟩
              · cases g
                cases hs
                exact Eff.of rfl rfl rfl rfl (by simp) rfl rfl (fun _ => rfl)
              · cases g
    | write i r =>
      simp only [ClientSampler.write] at hs
      split at hs
      · split at hs
        · cases hs
        · rename_i n got _ t p f hsrc
          split at hs
          · rename_i hlt
            split at hs
            · cases hs
              exact ⟨fun _ => rfl, id, id, rfl, .inl rfl, .inr ⟨i, _, _, t, p, f, rfl, hsrc, hlt, hd, rfl⟩, fun _ => rfl, fun _ => rfl⟩
            · cases hs
              exact Eff.of rfl rfl rfl rfl (by simp) rfl rfl (fun _ => rfl)
          · cases hs
      · cases hs
    | response i es =>
      simp only [ClientSampler.response] at hs
      split at hs <;> cases hs
      exact Eff.entries _ _ _ _ _ _ _ rfl rfl rfl rfl (by simp) rfl rfl rfl hd
    | streamEnd i st lim =>
      simp only [ClientSampler.streamEnd] at hs
      split at hs <;> cases hs
      exact Eff.of rfl rfl rfl rfl (by simp) rfl rfl (fun g => by
        have g : v.dead = true := g
        rw [hd] at g; cases g)
    | answer i r =>
      simp only [ClientSampler.answer] at hs
      split at hs
      · split at hs
        · cases hs
        · cases hs
          exact Eff.items _ _ _ _ _ _ rfl rfl rfl rfl (by simp) rfl rfl rfl
        · split at hs
          · split at hs
            · cases hs
            · split at hs
              · cases hs
                exact Eff.of rfl rfl rfl rfl (by simp) rfl rfl (fun _ => rfl)
              · split at hs <;> cases hs
                · exact Eff.of rfl rfl rfl rfl (by simp) rfl rfl (fun _ => rfl)
                · exact Eff.of rfl rfl rfl rfl (by simp) rfl rfl (fun _ => rfl)
          · cases hs
            exact Eff.of rfl rfl rfl rfl (by simp) rfl rfl (fun _ => rfl)
      · cases hs

end ClientSampler
end Verif
