import Verif.Proofs.ClientSamplerLog
/-
Where the samples of a client sampler are.
-/
namespace Verif

/-- What `GetNextSample` or `GetNextTrajectory` returns for a sample. -/
def SampleCall.outcome (c : SamplerCfg) (s : Sample) : SampleCall → Res SampleOut
  | .timestep => .died
  | .batched =>
    match s.asBatchedTimesteps with
    | .died => .died
    | .err e => .ok (.error e)
    | .ok (n, cols) =>
      match SampleCall.batched.validate c.spec cols with
      | some e => .ok (.error e)
      | none => .ok (.batched n cols)
  | .trajectory =>
    match s.asTrajectory with
    | .died => .died
    | .err e => .ok (.error e)
    | .ok cols =>
      match SampleCall.trajectory.validate c.spec cols with
      | some e => .ok (.error e)
      | none => .ok (.trajectory cols)

/-- What `GetNextTimestep` returns for the active sample. -/
def Sample.stepOutcome (c : SamplerCfg) (s : Sample) : Res (SampleOut × Sample) :=
  match s.deliver with
  | .died => .died
  | .err e => .ok (.error e, s)
  | .ok (rows, last, s') =>
    match SampleCall.timestep.validate c.spec rows with
    | some e => .ok (.error e, s')
    | none => .ok (.timestep rows last, s')

namespace ClientSampler

/-- Nothing that calls see changes. -/
structure Quiet (v v' : ClientSampler) : Prop where
  pushed : v'.pushed = v.pushed
  queue : v'.queue = v.queue
  calls : v'.calls = v.calls
  log : v'.log = v.log
  active : v'.active = v.active

/-- Where samples go in one step. -/
inductive Flow (c : SamplerCfg) (v : ClientSampler) (e : Event) (v' : ClientSampler) : Prop
  | quiet : Quiet v v' → Flow c v e v'
  | push (i : Nat) (s : Sample) : v'.pushed = v.pushed ++ [(i, s)] → v'.queue = v.queue ++ [s] → v'.calls = v.calls → v'.log = v.log →
      v'.active = v.active → v.queueClosed = false → Flow c v e v'
  | call (x : Nat) (k : SampleCall) : e = .call x k → v.calls.get? x = none → v.inTimestep = false → (k = .timestep → v.calls.size = 0) →
      v'.pushed = v.pushed → v'.queue = v.queue →
      v'.calls = v.calls.insert x (if k = .timestep ∧ v.active.any (fun s => !s.isEndOfSample) then .stepping else .popping k v.clock) →
      v'.log = v.log → v'.active = v.active → Flow c v e v'
  | failed (x : Nat) (k : SampleCall) (t : Int) : e = .pop x → v.calls.get? x = some (.popping k t) → v.queueClosed = true →
      v'.pushed = v.pushed → v'.queue = v.queue → v'.calls = v.calls.insert x (.failed k) → v'.log = v.log → v'.active = v.active →
      v'.queueClosed = true → Flow c v e v'
  | pop (x : Nat) (k : SampleCall) (t : Int) (s : Sample) : e = .pop x → v.calls.get? x = some (.popping k t) → v.queueClosed = false →
      v.queue = s :: v'.queue → v'.pushed = v.pushed →
      v'.calls = v.calls.insert x (if k = .timestep then .stepping else .holding k s) → v'.log = v.log →
      v'.active = (if k = .timestep then some s else v.active) → Flow c v e v'
  | fail (x : Nat) (k : SampleCall) (st : Code) : e = .finish x → v.calls.get? x = some (.failed k) → v'.pushed = v.pushed →
      v'.queue = v.queue → v'.calls = v.calls.erase x → v'.log = v.log ++ [.error st] → v'.active = v.active → Flow c v e v'
  | sample (x : Nat) (k : SampleCall) (s : Sample) (o : SampleOut) : e = .finish x → v.calls.get? x = some (.holding k s) →
      k.outcome c s = .ok o → v'.pushed = v.pushed → v'.queue = v.queue → v'.calls = v.calls.erase x → v'.log = v.log ++ [o] →
      v'.active = v.active → Flow c v e v'
  | timestep (x : Nat) (s s' : Sample) (o : SampleOut) : e = .finish x → v.calls.get? x = some .stepping → v.active = some s →
      s.stepOutcome c = .ok (o, s') → v'.pushed = v.pushed → v'.queue = v.queue → v'.calls = v.calls.erase x → v'.log = v.log ++ [o] →
      v'.active = some s' → Flow c v e v'

theorem Quiet.refl (v : ClientSampler) : Quiet v v := ⟨rfl, rfl, rfl, rfl, rfl⟩

theorem entries_quiet (v : ClientSampler) (i : Nat) (n got want sampled : Int) (parts es : List Entry) :
    Quiet v (entries v i n got want sampled parts es) := by
  induction es generalizing parts with
  | nil =>
    unfold entries
    split
    · exact ⟨rfl, rfl, rfl, rfl, rfl⟩
    · split <;> exact ⟨rfl, rfl, rfl, rfl, rfl⟩
  | cons e es ih =>
    unfold entries
    split
    · split <;> exact ⟨rfl, rfl, rfl, rfl, rfl⟩
    · exact ih _

theorem items_quiet (v : ClientSampler) (i : Nat) (n got : Int) (final : Duration) (base : Int) (l : List SampledItem) :
    Quiet v (items v i n got final base l) := by
  unfold items
  split
  · exact ⟨rfl, rfl, rfl, rfl, rfl⟩
  · split <;> exact ⟨rfl, rfl, rfl, rfl, rfl⟩

theorem finished_quiet (c : SamplerCfg) (v : ClientSampler) : Quiet v (v.finished c) := by
  unfold finished
  simp only
  split <;> exact ⟨rfl, rfl, rfl, rfl, rfl⟩

theorem Flow.step {c : SamplerCfg} {v v' : ClientSampler} {e : Event} (hs : step c v e = some v')
    (hk : ∀ x s, v.calls.get? x ≠ some (.holding .timestep s)) : Flow c v e v' := by
  unfold ClientSampler.step at hs
  split at hs
  · cases hs
  · cases e with
    | tick d => cases hs; exact .quiet ⟨rfl, rfl, rfl, rfl, rfl⟩
    | call x k =>
      simp only [ClientSampler.call] at hs
      split at hs
      · cases hs
      · rename_i hne
        cases hs
        simp only [not_or, not_and, Decidable.not_not] at hne
        refine .call x k rfl ?_ ?_ hne.2.2 rfl rfl rfl rfl rfl
        · have := hne.1
          unfold AMap.contains at this
          simpa using this
        · simpa using hne.2.1
    | pop x =>
      simp only [ClientSampler.pop] at hs
      split at hs
      · rename_i k t hx
        split at hs
        · rename_i hq
          cases hs
          exact .failed x k t rfl hx hq rfl rfl rfl rfl rfl hq
        · rename_i hq
          split at hs
          · cases hs
          · rename_i s q hqq
            cases k with
            | timestep => cases hs; exact .pop x .timestep t s rfl hx (by simpa using hq) hqq rfl rfl rfl rfl
            | batched => cases hs; exact .pop x .batched t s rfl hx (by simpa using hq) hqq rfl rfl rfl rfl
            | trajectory => cases hs; exact .pop x .trajectory t s rfl hx (by simpa using hq) hqq rfl rfl rfl rfl
      · cases hs
    | finish x =>
      obtain ⟨f1, f2, f3, f4, f5⟩ := finished_quiet c v
      simp only [ClientSampler.finish] at hs
      split at hs
      · rename_i k hx
        split at hs <;> cases hs
        · exact .fail x k _ rfl hx rfl rfl rfl rfl rfl
        · exact .quiet ⟨rfl, rfl, rfl, rfl, rfl⟩
      · rename_i k s hx
        cases hs
        unfold finishSample
        split
        · exact absurd hx (hk x s)
        · split
          · exact .quiet ⟨rfl, rfl, rfl, rfl, rfl⟩
          · rename_i st hst
            exact .sample x .batched s (.error st) rfl hx (by simp only [SampleCall.outcome, hst]) rfl rfl rfl rfl rfl
          · rename_i n cols hst
            split
            · rename_i st hv
              exact .sample x .batched s (.error st) rfl hx (by simp only [SampleCall.outcome, hst, hv]) rfl rfl rfl rfl rfl
            · rename_i hv
              refine .sample x .batched s (.batched n cols) rfl hx (by simp only [SampleCall.outcome, hst, hv]) f1 f2 ?_ ?_ f5
              · show (v.finished c).calls.erase x = _
                rw [f3]
              · show (v.finished c).log ++ _ = _
                rw [f4]
        · split
          · exact .quiet ⟨rfl, rfl, rfl, rfl, rfl⟩
          · rename_i st hst
            exact .sample x .trajectory s (.error st) rfl hx (by simp only [SampleCall.outcome, hst]) rfl rfl rfl rfl rfl
          · rename_i cols hst
            split
            · rename_i st hv
              exact .sample x .trajectory s (.error st) rfl hx (by simp only [SampleCall.outcome, hst, hv]) rfl rfl rfl rfl rfl
            · rename_i hv
              refine .sample x .trajectory s (.trajectory cols) rfl hx (by simp only [SampleCall.outcome, hst, hv]) f1 f2 ?_ ?_ f5
              · show (v.finished c).calls.erase x = _
                rw [f3]
              · show (v.finished c).log ++ _ = _
                rw [f4]
      · rename_i hx
        split at hs
        · cases hs; exact .quiet ⟨rfl, rfl, rfl, rfl, rfl⟩
        · rename_i s hact
          cases hs
          unfold finishTimestep
          split
          · exact .quiet ⟨rfl, rfl, rfl, rfl, rfl⟩
          · rename_i st hst
            exact .timestep x s s (.error st) rfl hx hact (by simp only [Sample.stepOutcome, hst]) rfl rfl rfl rfl hact
          · rename_i rows last s' hst
            simp only
            split
            · rename_i st hv
              exact .timestep x s s' (.error st) rfl hx hact (by simp only [Sample.stepOutcome, hst, hv]) rfl rfl rfl rfl rfl
            · rename_i hv
              have ho : s.stepOutcome c = .ok (.timestep rows last, s') := by simp only [Sample.stepOutcome, hst, hv]
              split
              · obtain ⟨f1, f2, f3, f4, f5⟩ := finished_quiet c { v with active := some s' }
                refine .timestep x s s' (.timestep rows last) rfl hx hact ho f1 f2 ?_ ?_ f5
                · show (({ v with active := some s' } : ClientSampler).finished c).calls.erase x = _
                  rw [f3]
                · show (({ v with active := some s' } : ClientSampler).finished c).log ++ _ = _
                  rw [f4]
              · exact .timestep x s s' (.timestep rows last) rfl hx hact ho rfl rfl rfl rfl rfl
      · cases hs
    | close =>
      simp only [ClientSampler.close] at hs
      split at hs <;> (cases hs; exact .quiet ⟨rfl, rfl, rfl, rfl, rfl⟩)
    | closeStep =>
      simp only [ClientSampler.closeStep] at hs
      split at hs
      · cases hs
      · split at hs <;> (cases hs; exact .quiet ⟨rfl, rfl, rfl, rfl, rfl⟩)
      · split at hs <;> cases hs
        exact .quiet ⟨rfl, rfl, rfl, rfl, rfl⟩
      · cases hs
    | work i =>
      simp only [ClientSampler.work] at hs
      split at hs
      · cases hs
      · split at hs
        · simp only [take] at hs
          split at hs
          · cases hs; exact .quiet ⟨rfl, rfl, rfl, rfl, rfl⟩
          · split at hs <;> cases hs
            exact .quiet ⟨rfl, rfl, rfl, rfl, rfl⟩
        · cases hs
          unfold reported
          simp only
          split <;> exact .quiet ⟨rfl, rfl, rfl, rfl, rfl⟩
        · cases hs
        · split at hs
          · split at hs <;> (cases hs; exact .quiet ⟨rfl, rfl, rfl, rfl, rfl⟩)
          · split at hs <;> cases hs
            exact .quiet ⟨rfl, rfl, rfl, rfl, rfl⟩
          · cases hs
          · split at hs
            · cases hs
            · rename_i hp
              rcases push_cases hp with ⟨_, g⟩ | ⟨hq, _, g⟩
              · cases g
              · cases g
                cases hs
                obtain ⟨f1, f2, f3, f4, f5⟩ := entries_quiet _ i _ _ _ _ _ _
                exact .push i _ f1 f2 f3 f4 f5 hq
            · rename_i hp
              rcases push_cases hp with ⟨_, g⟩ | ⟨_, _, g⟩
              · cases g
                cases hs
                exact .quiet ⟨rfl, rfl, rfl, rfl, rfl⟩
              · cases g
          · split at hs
            · split at hs
              · cases hs; exact .quiet ⟨rfl, rfl, rfl, rfl, rfl⟩
              · split at hs <;> cases hs
                exact .quiet ⟨rfl, rfl, rfl, rfl, rfl⟩
            · cases hs; exact .quiet ⟨rfl, rfl, rfl, rfl, rfl⟩
          · cases hs
          · split at hs
            · cases hs
            · rename_i hp
              rcases push_cases hp with ⟨_, g⟩ | ⟨hq, _, g⟩
              · cases g
              · cases g
                cases hs
                obtain ⟨f1, f2, f3, f4, f5⟩ := items_quiet _ i _ _ _ _ _
                exact .push i _ f1 f2 f3 f4 f5 hq
            · rename_i hp
              rcases push_cases hp with ⟨_, g⟩ | ⟨_, _, g⟩
              · cases g
                cases hs
                exact .quiet ⟨rfl, rfl, rfl, rfl, rfl⟩
              · cases g
    | write i r =>
      simp only [ClientSampler.write] at hs
      split at hs
      · split at hs
        · cases hs
        · split at hs
          · split at hs <;> (cases hs; exact .quiet ⟨rfl, rfl, rfl, rfl, rfl⟩)
          · cases hs
      · cases hs
    | response i es =>
      simp only [ClientSampler.response] at hs
      split at hs <;> cases hs
      exact .quiet (entries_quiet _ _ _ _ _ _ _ _)
    | streamEnd i st lim =>
      simp only [ClientSampler.streamEnd] at hs
      split at hs <;> cases hs
      exact .quiet ⟨rfl, rfl, rfl, rfl, rfl⟩
    | answer i r =>
      simp only [ClientSampler.answer] at hs
      split at hs
      · split at hs
        · cases hs
        · cases hs; exact .quiet (items_quiet _ _ _ _ _ _ _)
        · split at hs
          · split at hs
            · cases hs
            · split at hs
              · cases hs; exact .quiet ⟨rfl, rfl, rfl, rfl, rfl⟩
              · split at hs <;> (cases hs; exact .quiet ⟨rfl, rfl, rfl, rfl, rfl⟩)
          · cases hs; exact .quiet ⟨rfl, rfl, rfl, rfl, rfl⟩
      · cases hs

/-- A call of `GetNextTimestep` never holds a sample of its own. -/
theorem Reach.holds {c : SamplerCfg} {now : Int} {P : ClientSampler → Event → Prop} {evs : List Event} {v : ClientSampler}
    (h : Reach c now P evs v) : ∀ x s, v.calls.get? x ≠ some (.holding .timestep s) := by
  induction h with
  | init => intro x s g; cases g
  | @step evs e v0 v h0 hP hs ih =>
    intro x s g
    rcases Flow.step hs ih with q | ⟨_, _, _, _, q, _⟩ | ⟨y, k, _, _, _, _, _, _, q, _⟩ | ⟨y, k, t, _, _, _, _, _, q, _⟩ | ⟨y, k, t, s', _, _, _, _, _, q, _⟩ |
      ⟨y, k, st, _, _, _, _, q, _⟩ | ⟨y, k, s', o, _, _, _, _, _, q, _⟩ | ⟨y, s', s'', o, _, _, _, _, _, _, q, _⟩
    · rw [q.calls] at g; exact ih x s g
    · rw [q] at g; exact ih x s g
    · rw [q] at g
      rcases get_insert g with ⟨_, g⟩ | ⟨_, g⟩
      · split at g <;> cases g
      · exact ih x s g
    · rw [q] at g
      rcases get_insert g with ⟨_, g⟩ | ⟨_, g⟩
      · cases g
      · exact ih x s g
    · rw [q] at g
      rcases get_insert g with ⟨_, g⟩ | ⟨_, g⟩
      · split at g
        · cases g
        · rename_i hk
          cases g
          exact hk rfl
      · exact ih x s g
    · rw [q] at g; exact ih x s (get_erase g).2
    · rw [q] at g; exact ih x s (get_erase g).2
    · rw [q] at g; exact ih x s (get_erase g).2

end ClientSampler
end Verif
