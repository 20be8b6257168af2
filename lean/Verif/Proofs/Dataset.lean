import Verif.Spec.Dataset
import Verif.Proofs.ClientSamplerTime
import Verif.Spec.SampleOrder
/-
The iterators of the dataset ops: what their samplers do.
-/
namespace Verif
namespace ClientSampler

/-- How a worker comes to report `DeadlineExceeded`. -/
def Tardy (v : ClientSampler) (e : Event) (i : Nat) (p : SWPhase) : Prop :=
  ∀ n got, p = .report n got (some .deadlineExceeded) → (∃ w, v.workers[i]? = some w ∧ w.phase = p) ∨
    e = .write i (some (some .deadlineExceeded)) ∨ (∃ lim, e = .streamEnd i (some .deadlineExceeded) lim ∧ (lim = true → 1 ≤ v.waitingToPop)) ∨
    e = .answer i (.err .deadlineExceeded) ∧ 1 ≤ v.waitingToPop

theorem Tardy.off {v : ClientSampler} {e : Event} {i : Nat} {p : SWPhase} (h : ∀ n got, p ≠ .report n got (some .deadlineExceeded)) :
    Tardy v e i p := fun n got g => absurd g (h n got)

theorem Tardy.same {v : ClientSampler} {e : Event} {i : Nat} {w : SWorker} (h : v.workers[i]? = some w) : Tardy v e i w.phase :=
  fun _ _ _ => .inl ⟨w, h, rfl⟩

theorem Tardy.set {v v0 : ClientSampler} {e : Event} {i j : Nat} {p : SWPhase} {w' : SWorker}
    (hv : v0.workers = v.workers) (hp : i = j → Tardy v e i p) (h : (v0.setPhase j p).workers[i]? = some w') : Tardy v e i w'.phase := by
  rcases setPhase_get h with ⟨hij, g⟩ | ⟨hij, g⟩
  · rw [g]
    exact hp hij
  · exact Tardy.same (hv ▸ g)

theorem Tardy.items {v v0 : ClientSampler} {e : Event} {i j : Nat} {w' : SWorker} (hv : v0.workers = v.workers)
    {n got : Int} {final : Duration} {base : Int} {l : List SampledItem}
    (h : (items v0 j n got final base l).workers[i]? = some w') : Tardy v e i w'.phase := by
  unfold ClientSampler.items at h
  split at h
  · exact Tardy.set hv (fun _ => .off (by simp)) h
  · split at h
    · exact Tardy.same (hv ▸ h)
    · rename_i he
      refine Tardy.set hv (fun _ => .off ?_) h
      intro n got g
      cases g
      exact (asSampleLocal_code he).not_deadline rfl
    · exact Tardy.set hv (fun _ => .off (by simp)) h

theorem Tardy.entries {v v0 : ClientSampler} {e : Event} {i j : Nat} {w' : SWorker} (hv : v0.workers = v.workers)
    {n got want sampled : Int} {parts es : List Entry}
    (h : (entries v0 j n got want sampled parts es).workers[i]? = some w') : Tardy v e i w'.phase := by
  induction es generalizing parts with
  | nil =>
    unfold ClientSampler.entries at h
    split at h
    · exact Tardy.set hv (fun _ => .off (by simp)) h
    · split at h
      · exact Tardy.set hv (fun _ => .off (by simp)) h
      · exact Tardy.set hv (fun _ => .off (by simp)) h
  | cons a es ih =>
    unfold ClientSampler.entries at h
    split at h
    · split at h
      · exact Tardy.same (hv ▸ h)
      · rename_i he
        refine Tardy.set (v0 := { v0 with abandoned := _ }) (v := v) hv (fun _ => .off ?_) h
        intro n got g
        cases g
        exact (asSampleGrpc_code he).not_deadline rfl
      · exact Tardy.set hv (fun _ => .off (by simp)) h
    · exact ih h

theorem Tardy.step {c : SamplerCfg} {v v' : ClientSampler} {e : Event} {i : Nat} {w' : SWorker}
    (hs : step c v e = some v') (hw' : v'.workers[i]? = some w') : Tardy v e i w'.phase := by
  unfold ClientSampler.step at hs
  split at hs
  · cases hs
  · cases e with
    | tick d => cases hs; exact .same hw'
    | call x k =>
      simp only [ClientSampler.call] at hs
      split at hs <;> cases hs
      exact .same hw'
    | pop x =>
      simp only [ClientSampler.pop] at hs
      split at hs
      · split at hs
        · cases hs; exact .same hw'
        · split at hs
          · cases hs
          · split at hs <;> (cases hs; exact .same hw')
      · cases hs
    | finish x =>
      have hfin : ∀ (v : ClientSampler), (v.finished c).workers = v.workers := fun v => by rw [finished_eq]
      have : v'.workers = v.workers := by
        simp only [ClientSampler.finish] at hs
        split at hs
        · split at hs <;> (cases hs; rfl)
        · cases hs
          unfold finishSample
          split
          · rfl
          · split
            · rfl
            · rfl
            · split
              · rfl
              · exact hfin v
          · split
            · rfl
            · rfl
            · split
              · rfl
              · exact hfin v
        · split at hs
          · cases hs; rfl
          · cases hs
            unfold finishTimestep
            split
            · rfl
            · rfl
            · simp only
              split
              · rfl
              · split
                · exact hfin _
                · rfl
        · cases hs
      exact .same (this ▸ hw')
    | close =>
      simp only [ClientSampler.close] at hs
      split at hs <;> (cases hs; exact .same hw')
    | closeStep =>
      simp only [ClientSampler.closeStep] at hs
      split at hs
      · cases hs
      · split at hs
        · cases hs
          simp only [List.getElem?_modify] at hw'
          cases hw : v.workers[i]? with
          | none => rw [hw] at hw'; simp at hw'
          | some w =>
            rw [hw] at hw'
            have hp : w'.phase = w.phase := by
              simp only [Option.map_eq_map, Option.map_some, Option.some.injEq] at hw'
              rw [← hw']
              split <;> rfl
            rw [hp]
            exact .same hw
        · cases hs; exact .same hw'
      · split at hs <;> cases hs
        exact .same hw'
      · cases hs
    | work j =>
      simp only [ClientSampler.work] at hs
      split at hs
      · cases hs
      · rename_i w hw
        obtain ⟨cl, p⟩ := w
        split at hs
        · simp only [take] at hs
          split at hs
          · cases hs
            exact Tardy.set rfl (fun _ => .off (by simp)) hw'
          · split at hs <;> cases hs
            exact Tardy.set (v := v) (by rfl) (fun _ => .off (by simp)) hw'
        · cases hs
          unfold reported at hw'
          simp only at hw'
          split at hw'
          · exact Tardy.set (v := v) (by rfl) (fun _ => .off (by simp)) hw'
          · exact Tardy.set (v := v) (by rfl) (fun _ => .off (by simp)) hw'
        · cases hs
        · rename_i n got f hp
          simp only at hp
          subst hp
          have hdone : ∀ {v'' : ClientSampler}, some (v.loopDone j n got) = some v'' → v''.workers[i]? = some w' →
              Tardy v (.work j) i w'.phase := by
            intro v'' hs hw'
            cases hs
            refine Tardy.set rfl (fun _ => .off ?_) hw'
            intro n' got' g
            have g := (SWPhase.report.inj g).2.2
            split at g <;> cases g
          split at hs
          · split at hs <;> (cases hs; exact Tardy.set rfl (fun _ => .off (by simp)) hw')
          · split at hs
            · cases hs
            · exact hdone hs hw'
          · cases hs
          · split at hs
            · cases hs
            · rename_i hp
              rcases push_cases hp with ⟨_, g⟩ | ⟨_, _, g⟩
              · cases g
              · cases g
                cases hs
                exact Tardy.entries (v := v) (by rfl) hw'
            · rename_i hp
              rcases push_cases hp with ⟨_, g⟩ | ⟨_, _, g⟩
              · cases g
                cases hs
                exact Tardy.set (v := v) (by rfl) (fun _ => .off (by simp)) hw'
              · cases g
          · split at hs
            · split at hs
              · cases hs
                exact Tardy.set rfl (fun _ => .off (by simp)) hw'
              · split at hs <;> cases hs
                exact Tardy.set rfl (fun _ => .off (by simp)) hw'
            · exact hdone hs hw'
          · cases hs
          · split at hs
            · cases hs
            · rename_i hp
              rcases push_cases hp with ⟨_, g⟩ | ⟨_, _, g⟩
              · cases g
              · cases g
                cases hs
                exact Tardy.items (v := v) (by rfl) hw'
            · rename_i hp
              rcases push_cases hp with ⟨_, g⟩ | ⟨_, _, g⟩
              · cases g
                cases hs
                exact Tardy.set rfl (fun _ => .off (by simp)) hw'
              · cases g
    | write j r =>
      simp only [ClientSampler.write] at hs
      split at hs
      · split at hs
        · cases hs
        · split at hs
          · split at hs
            · cases hs
              exact Tardy.set (v := v) (by rfl) (fun _ => .off (by simp)) hw'
            · cases hs
              refine Tardy.set (v := v) (by rfl) (fun hij => ?_) hw'
              subst hij
              intro n' got' g
              cases g
              exact .inr (.inl rfl)
          · cases hs
      · cases hs
    | response j es =>
      simp only [ClientSampler.response] at hs
      split at hs
      · cases hs
        exact Tardy.entries rfl hw'
      · cases hs
    | streamEnd j st lim =>
      simp only [ClientSampler.streamEnd] at hs
      split at hs
      · cases hs
        refine Tardy.set (v := v) (by rfl) (fun hij => ?_) hw'
        subst hij
        intro n' got' g
        have g := (SWPhase.report.inj g).2.2
        split at g
        · cases g
        · rename_i hne
          subst g
          refine .inr (.inr (.inl ⟨lim, rfl, fun hl => ?_⟩))
          simp only [hl, true_and, Nat.not_lt] at hne
          exact hne
      · cases hs
    | answer j r =>
      simp only [ClientSampler.answer] at hs
      split at hs
      · rename_i cl n got final base batch deadline hw
        split at hs
        · cases hs
        · cases hs
          exact Tardy.items rfl hw'
        · split at hs
          · rename_i hst
            subst hst
            split at hs
            · cases hs
            · split at hs
              · cases hs
                exact Tardy.set rfl (fun _ => .off (by simp)) hw'
              · rename_i hall
                split at hs <;> cases hs
                · exact Tardy.set rfl (fun _ => .off (by simp)) hw'
                · rename_i hwait
                  refine Tardy.set rfl (fun hij => ?_) hw'
                  subst hij
                  exact fun _ _ _ => .inr (.inr (.inr ⟨rfl, by omega⟩))
          · rename_i hst
            cases hs
            refine Tardy.set rfl (fun _ => .off ?_) hw'
            intro n' got' g
            cases g
            exact hst rfl
      · cases hs

/-- A worker that has something to report waits for nothing outside. -/
theorem no_message {c : SamplerCfg} {v : ClientSampler} {i : Nat} {w : SWorker} {n got : Int} {st : Option Code}
    (hw : v.workers[i]? = some w) (hp : w.phase = .report n got st) : (∀ r, step c v (.write i r) = none) ∧
    (∀ r lim, step c v (.streamEnd i r lim) = none) ∧ ∀ a, step c v (.answer i a) = none := by
  obtain ⟨cl, p⟩ := w
  simp only at hp
  subst hp
  refine ⟨fun r => ?_, fun r lim => ?_, fun a => ?_⟩
  · unfold ClientSampler.step
    split
    · rfl
    · simp only [ClientSampler.write, hw]
  · unfold ClientSampler.step
    split
    · rfl
    · simp only [ClientSampler.streamEnd, hw]
  · unfold ClientSampler.step
    split
    · rfl
    · simp only [ClientSampler.answer, hw]

/-- A call that returns `DeadlineExceeded` got it from a worker. -/
theorem returns_deadline {c : SamplerCfg} {v : ClientSampler} {x : Nat} (h : Returns c v x (.error .deadlineExceeded)) :
    v.status = some .deadlineExceeded := by
  have hval : ∀ k spec d, SampleCall.validate k spec d ≠ some .deadlineExceeded := by
    intro k spec d
    unfold SampleCall.validate
    split
    · simp
    · split
      · simp
      · split <;> simp
  rcases h with ⟨k, e', _, hp, ho⟩ | hr
  · cases ho
    unfold popStatus at hp
    split at hp
    · cases hp
    · split at hp
      · cases hp
      · exact hp
  · exfalso
    rcases hr with ⟨s, _, ⟨e, g1, g2⟩ | ⟨n, cols, _, ⟨e, g1, g2⟩ | ⟨_, g2⟩⟩⟩ | ⟨s, _, ⟨e, g1, g2⟩ | ⟨cols, _, ⟨e, g1, g2⟩ | ⟨_, g2⟩⟩⟩ |
      ⟨s, _, _, ⟨e, g1, g2⟩ | ⟨rows, last, s', _, ⟨e, g1, g2⟩ | ⟨_, g2⟩⟩⟩ <;> cases g2
    · exact (Sample.asBatched_code g1).not_deadline rfl
    · exact hval _ _ _ g1
    · exact (Sample.asTrajectory_code g1).not_deadline rfl
    · exact hval _ _ _ g1
    · exact (Sample.deliver_code g1).not_deadline rfl
    · exact hval _ _ _ g1

theorem deadline_status {c : SamplerCfg} {now : Int} {P : ClientSampler → Event → Prop} {evs : List Event} {v : ClientSampler}
    (h : Reach c now P evs v) (hl : SampleOut.error .deadlineExceeded ∈ v.log) : v.status = some .deadlineExceeded := by
  induction h with
  | init => cases hl
  | @step evs e v0 v h0 hPe hs ih =>
    have hkeep : v0.status = some .deadlineExceeded → v.status = some .deadlineExceeded :=
      fun g => ((Eff.step hs).status (by rw [g]; simp)).trans g
    rcases (Eff.step hs).log with g | ⟨x, o, he, hlog, _, hr, _⟩
    · exact hkeep (ih (g ▸ hl))
    · rw [hlog] at hl
      rcases List.mem_append.mp hl with g | g
      · exact hkeep (ih g)
      · simp only [List.mem_singleton] at g
        subst g
        exact hkeep (returns_deadline hr)

/-- A call returns something, unless the process dies. -/
theorem finish_logs {c : SamplerCfg} {v v' : ClientSampler} {x : Nat} (hs : step c v (.finish x) = some v')
    (hk : ∀ s, v.calls.get? x ≠ some (.holding .timestep s)) :
    v'.dead = true ∨ ∃ o, v'.log = v.log ++ [o] := by
  have hfin : ∀ (v : ClientSampler), (v.finished c).log = v.log := fun v => by rw [finished_eq]
  have hret : ∀ (u : ClientSampler) o, u.log = v.log → ∃ o', (u.ret x o).log = v.log ++ [o'] := by
    intro u o hu
    exact ⟨o, by show u.log ++ [o] = _; rw [hu]⟩
  unfold ClientSampler.step at hs
  split at hs
  · cases hs
  · simp only [ClientSampler.finish] at hs
    split at hs
    · split at hs
      · cases hs; exact .inr (hret _ _ rfl)
      · cases hs; exact .inl rfl
    · rename_i k s hx
      cases hs
      unfold finishSample
      split
      · exact absurd hx (hk s)
      · split
        · exact .inl rfl
        · exact .inr (hret _ _ rfl)
        · split
          · exact .inr (hret _ _ rfl)
          · exact .inr (hret _ _ (hfin v))
      · split
        · exact .inl rfl
        · exact .inr (hret _ _ rfl)
        · split
          · exact .inr (hret _ _ rfl)
          · exact .inr (hret _ _ (hfin v))
    · split at hs
      · cases hs; exact .inl rfl
      · cases hs
        unfold finishTimestep
        split
        · exact .inl rfl
        · exact .inr (hret _ _ rfl)
        · simp only
          split
          · exact .inr (hret _ _ rfl)
          · split
            · exact .inr (hret _ _ (hfin _))
            · exact .inr (hret _ _ rfl)
    · cases hs

end ClientSampler
end Verif
