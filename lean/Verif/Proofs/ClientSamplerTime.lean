import Verif.Proofs.ClientSamplerLog
import Verif.Proofs.SampleCodes
/-
Deadlines of the workers of a local sampler.
-/
namespace Verif
namespace ClientSampler

/-- `final_deadline` of a local worker, and when it was set. -/
def _root_.Verif.Fetch.timing : Fetch → Option (Duration × Int)
  | .checking final base => some (final, base)
  | .sampling final base _ _ => some (final, base)
  | .pushingHere final base _ _ => some (final, base)
  | _ => none

/-- The same for the phase of a worker. -/
def _root_.Verif.SWPhase.timing : SWPhase → Option (Duration × Int)
  | .fetch _ _ f => f.timing
  | _ => none

/-- The deadline of a call of the table. -/
def _root_.Verif.SWPhase.deadline : SWPhase → Option Int
  | .fetch _ _ (.sampling _ _ _ d) => some d
  | _ => none

theorem setPhase_get {v : ClientSampler} {i j : Nat} {p : SWPhase} {w' : SWorker} (h : (v.setPhase j p).workers[i]? = some w') :
    (i = j ∧ w'.phase = p) ∨ i ≠ j ∧ v.workers[i]? = some w' := by
  unfold setPhase at h
  simp only [List.getElem?_modify] at h
  by_cases hij : j = i
  · subst hij
    simp only [if_true] at h
    cases hw : v.workers[j]? with
    | none => rw [hw] at h; simp at h
    | some w =>
      rw [hw] at h
      simp at h
      subst h
      exact .inl ⟨rfl, rfl⟩
  · simp only [hij, if_false] at h
    exact .inr ⟨fun g => hij g.symm, by simpa using h⟩

/-- What a worker of another index is after a step, and how the deadlines are set. -/
structure Timing (c : SamplerCfg) (v : ClientSampler) (e : Event) (i : Nat) (p : SWPhase) : Prop where
  timing : ∀ final base, p.timing = some (final, base) →
    (∃ w, v.workers[i]? = some w ∧ w.phase.timing = some (final, base) ∧ ∀ l, e ≠ .answer i (.ok l)) ∨
    (base = v.clock ∧ final = deadlineAt v.clock c.timeout ∧ (e = .work i ∨ ∃ l, e = .answer i (.ok l))) ∨
    (base = v.clock ∧ final = deadlineAt v.clock c.timeout ∧ v.waitingToPop < 1 ∧ ∃ st, e = .answer i (.err st))
  deadline : ∀ d, p.deadline = some d → (∃ w, v.workers[i]? = some w ∧ w.phase = p) ∨
    ∃ final base, p.timing = some (final, base) ∧ d = nextDeadline v.clock final

theorem Timing.off {c : SamplerCfg} {v : ClientSampler} {e : Event} {i : Nat} {p : SWPhase} (h : p.timing = none) : Timing c v e i p := by
  refine ⟨(fun final base g => by rw [h] at g; cases g), ?_⟩
  intro d g
  cases p with
  | fetch n got f =>
    cases f with
    | sampling a b x y => cases h
    | _ => cases g
  | _ => cases g

theorem Timing.same {c : SamplerCfg} {v : ClientSampler} {e : Event} {i : Nat} {w : SWorker} (h : v.workers[i]? = some w)
    (he : ∀ l, e ≠ .answer i (.ok l)) : Timing c v e i w.phase :=
  ⟨fun _ _ g => .inl ⟨w, h, g, he⟩, fun _ _ => .inl ⟨w, h, rfl⟩⟩

/-- A worker changes its phase. -/
theorem Timing.set {c : SamplerCfg} {v v0 : ClientSampler} {e : Event} {i j : Nat} {p : SWPhase} {w' : SWorker}
    (hv : v0.workers = v.workers) (he : ∀ l, e = .answer i (.ok l) → i = j) (hp : i = j → Timing c v e i p)
    (h : (v0.setPhase j p).workers[i]? = some w') : Timing c v e i w'.phase := by
  rcases setPhase_get h with ⟨hij, g⟩ | ⟨hij, g⟩
  · rw [g]
    exact hp hij
  · exact Timing.same (hv ▸ g) (fun l hl => hij (he l hl))

theorem Timing.entries {c : SamplerCfg} {v v0 : ClientSampler} {e : Event} {i j : Nat} {w' : SWorker} (hv : v0.workers = v.workers)
    (he : ∀ l, e ≠ .answer i (.ok l)) {n got want sampled : Int} {parts es : List Entry}
    (h : (entries v0 j n got want sampled parts es).workers[i]? = some w') : Timing c v e i w'.phase := by
  induction es generalizing parts with
  | nil =>
    unfold ClientSampler.entries at h
    split at h
    · exact Timing.set hv (fun l g => absurd g (he l)) (fun _ => .off rfl) h
    · split at h
      · exact Timing.set hv (fun l g => absurd g (he l)) (fun _ => .off rfl) h
      · exact Timing.set hv (fun l g => absurd g (he l)) (fun _ => .off rfl) h
  | cons a es ih =>
    unfold ClientSampler.entries at h
    split at h
    · split at h
      · exact Timing.same (hv ▸ h) he
      · exact Timing.set (v0 := { v0 with abandoned := v0.abandoned + (want - sampled) }) hv (fun l g => absurd g (he l)) (fun _ => .off rfl) h
      · exact Timing.set hv (fun l g => absurd g (he l)) (fun _ => .off rfl) h
    · exact ih h

theorem Timing.items {c : SamplerCfg} {v v0 : ClientSampler} {e : Event} {i j : Nat} {w' : SWorker} (hv : v0.workers = v.workers)
    (he : ∀ l, e = .answer i (.ok l) → i = j) {n got : Int} {final : Duration} {base : Int} {l : List SampledItem}
    (hp : i = j → ∀ p : SWPhase, p.deadline = none → p.timing = some (final, base) → Timing c v e i p)
    (h : (items v0 j n got final base l).workers[i]? = some w') :
    (items v0 j n got final base l).dead = true ∨ Timing c v e i w'.phase := by
  unfold ClientSampler.items at h ⊢
  split at h
  · exact .inr (Timing.set hv he (fun g => hp g _ rfl rfl) h)
  · split at h
    · exact .inl rfl
    · exact .inr (Timing.set hv he (fun _ => .off rfl) h)
    · exact .inr (Timing.set hv he (fun g => hp g _ rfl rfl) h)

theorem Timing.step {c : SamplerCfg} {v v' : ClientSampler} {e : Event} {i : Nat} {w' : SWorker} (hs : step c v e = some v')
    (hd' : v'.dead = false) (hw' : v'.workers[i]? = some w') : Timing c v e i w'.phase := by
  unfold ClientSampler.step at hs
  split at hs
  · cases hs
  · rename_i hd
    have hd : v.dead = false := by simpa using hd
    cases e with
    | tick d => cases hs; exact .same hw' (by simp)
    | call x k =>
      simp only [ClientSampler.call] at hs
      split at hs <;> cases hs
      exact .same hw' (by simp)
    | pop x =>
      simp only [ClientSampler.pop] at hs
      split at hs
      · split at hs
        · cases hs; exact .same hw' (by simp)
        · split at hs
          · cases hs
          · split at hs
            · cases hs; exact .same hw' (by simp)
            · cases hs; exact .same hw' (by simp)
      · cases hs
    | finish x =>
      have hfin : ∀ (v : ClientSampler), (v.finished c).workers = v.workers := fun v => by rw [finished_eq]
      have : v'.workers = v.workers := by
        simp only [ClientSampler.finish] at hs
        split at hs
        · split at hs <;> (cases hs; rfl)
        · cases hs
          unfold finishSample
          split
          · rfl
          · split
            · rfl
            · rfl
            · split
              · rfl
              · exact hfin v
          · split
            · rfl
            · rfl
            · split
              · rfl
              · exact hfin v
        · split at hs
          · cases hs; rfl
          · cases hs
            unfold finishTimestep
            split
            · rfl
            · rfl
            · simp only
              split
              · rfl
              · split
                · exact hfin _
                · rfl
        · cases hs
      exact .same (this ▸ hw') (by simp)
    | close =>
      simp only [ClientSampler.close] at hs
      split at hs
      · cases hs; exact .same hw' (by simp)
      · cases hs; exact .same hw' (by simp)
    | closeStep =>
      simp only [ClientSampler.closeStep] at hs
      split at hs
      · cases hs
      · split at hs
        · cases hs
          simp only [List.getElem?_modify] at hw'
          cases hw : v.workers[i]? with
          | none => rw [hw] at hw'; simp at hw'
          | some w =>
            rw [hw] at hw'
            have hp : w'.phase = w.phase := by
              simp only [Option.map_eq_map, Option.map_some, Option.some.injEq] at hw'
              rw [← hw']
              split <;> rfl
            rw [hp]
            exact .same hw (by simp)
        · cases hs; exact .same hw' (by simp)
      · split at hs <;> cases hs
        exact .same hw' (by simp)
      · cases hs
    | work j =>
      have hne : ∀ l, Event.work j = .answer i (.ok l) → i = j := by simp
      have hne' : ∀ l, Event.work j ≠ .answer i (.ok l) := by simp
      simp only [ClientSampler.work] at hs
      split at hs
      · cases hs
      · rename_i w hw
        split at hs
        · simp only [take] at hs
          split at hs
          · cases hs
            exact Timing.set rfl hne (fun _ => .off rfl) hw'
          · split at hs <;> cases hs
            refine Timing.set (v0 := { v with requested := v.requested + min c.perStream (c.max - v.requested) }) rfl hne (fun hij => ?_) hw'
            subst hij
            cases hsrc : c.source with
            | grpc t a b => exact .off rfl
            | here b =>
              refine ⟨?_, by intro d g; cases g⟩
              intro final base g
              cases g
              exact .inr (.inl ⟨rfl, rfl, .inl rfl⟩)
        · cases hs
          unfold reported at hw'
          simp only at hw'
          split at hw'
          · exact Timing.set (v := v) (by rfl) hne (fun _ => .off rfl) hw'
          · exact Timing.set (v := v) (by rfl) hne (fun _ => .off rfl) hw'
        · cases hs
        · rename_i n got f hph
          have hkeep : ∀ final base, f.timing = some (final, base) → i = j → ∀ p : SWPhase, p.deadline = none → p.timing = some (final, base) →
              Timing c v (.work j) i p := by
            intro final base hf hij p hpd hp
            subst hij
            refine ⟨?_, by intro d g; rw [hpd] at g; cases g⟩
            intro final' base' g
            rw [hp] at g
            cases g
            exact .inl ⟨w, hw, by rw [hph]; exact hf, by simp⟩
          split at hs
          · split at hs <;> cases hs
            · exact Timing.set rfl hne (fun _ => .off rfl) hw'
            · exact Timing.set rfl hne (fun _ => .off rfl) hw'
          · split at hs <;> cases hs
            exact Timing.set rfl hne (fun _ => .off rfl) hw'
          · cases hs
          · split at hs
            · cases hs
            · rename_i hp
              rcases push_cases hp with ⟨_, g⟩ | ⟨_, _, g⟩
              · cases g
              · cases g
                cases hs
                exact Timing.entries (v := v) (by rfl) hne' hw'
            · rename_i hp
              rcases push_cases hp with ⟨_, g⟩ | ⟨_, _, g⟩
              · cases g
                cases hs
                exact Timing.set (v := v) (by rfl) hne (fun _ => .off rfl) hw'
              · cases g
          · split at hs
            · split at hs
              · cases hs
                exact Timing.set rfl hne (fun _ => .off rfl) hw'
              · split at hs <;> cases hs
                refine Timing.set rfl hne (fun hij => ?_) hw'
                subst hij
                refine ⟨?_, ?_⟩
                · intro final' base' g
                  cases g
                  exact .inl ⟨w, hw, by rw [hph]; rfl, by simp⟩
                · intro d g
                  cases g
                  exact .inr ⟨_, _, rfl, rfl⟩
            · cases hs
              exact Timing.set rfl hne (fun _ => .off rfl) hw'
          · cases hs
          · split at hs
            · cases hs
            · rename_i hp
              rcases push_cases hp with ⟨_, g⟩ | ⟨_, _, g⟩
              · cases g
              · cases g
                cases hs
                rcases Timing.items (v := v) (by rfl) hne (hkeep _ _ rfl) hw' with g | g
                · rw [hd'] at g; cases g
                · exact g
            · rename_i hp
              rcases push_cases hp with ⟨_, g⟩ | ⟨_, _, g⟩
              · cases g
                cases hs
                exact Timing.set rfl hne (fun _ => .off rfl) hw'
              · cases g
    | write j r =>
      have hne : ∀ l, Event.write j r = .answer i (.ok l) → i = j := by simp
      simp only [ClientSampler.write] at hs
      split at hs
      · split at hs
        · cases hs
        · split at hs
          · split at hs
            · cases hs
              exact Timing.set (v := v) (by rfl) hne (fun _ => .off rfl) hw'
            · cases hs
              exact Timing.set rfl hne (fun _ => .off rfl) hw'
          · cases hs
      · cases hs
    | response j es =>
      simp only [ClientSampler.response] at hs
      split at hs <;> cases hs
      exact Timing.entries rfl (by simp) hw'
    | streamEnd j st lim =>
      simp only [ClientSampler.streamEnd] at hs
      split at hs <;> cases hs
      exact Timing.set (v := v) (by rfl) (by simp) (fun _ => .off rfl) hw'
    | answer j r =>
      have hne : ∀ l, Event.answer j r = .answer i (.ok l) → i = j := by
        intro l g
        cases g
        rfl
      simp only [ClientSampler.answer] at hs
      split at hs
      · rename_i cl n got final base batch deadline hw
        split at hs
        · cases hs
        · rename_i l
          cases hs
          rcases Timing.items (v := v) (by rfl) hne (fun hij p hpd hp => ⟨by
              intro final' base' g
              rw [hp] at g
              cases g
              subst hij
              exact .inr (.inl ⟨rfl, rfl, .inr ⟨l, rfl⟩⟩), by intro d g; rw [hpd] at g; cases g⟩) hw' with g | g
          · rw [hd'] at g; cases g
          · exact g
        · split at hs
          · split at hs
            · cases hs
            · split at hs
              · cases hs
                refine Timing.set rfl hne (fun hij => ?_) hw'
                subst hij
                refine ⟨?_, by intro d g; cases g⟩
                intro final' base' g
                cases g
                exact .inl ⟨_, hw, rfl, by simp⟩
              · split at hs <;> cases hs
                · rename_i hwait
                  refine Timing.set rfl hne (fun hij => ?_) hw'
                  subst hij
                  refine ⟨?_, by intro d g; cases g⟩
                  intro final' base' g
                  cases g
                  exact .inr (.inr ⟨rfl, rfl, hwait, _, rfl⟩)
                · exact Timing.set rfl hne (fun _ => .off rfl) hw'
          · cases hs
            exact Timing.set rfl hne (fun _ => .off rfl) hw'
      · cases hs

/-- Calls that wait. -/
theorem popping_step {c : SamplerCfg} {v v' : ClientSampler} {e : Event} (hs : step c v e = some v') {x : Nat} {k : SampleCall} {since : Int}
    (hx : v'.calls.get? x = some (.popping k since)) : v.calls.get? x = some (.popping k since) ∨ since = v.clock := by
  have hsame : v'.calls = v.calls → v.calls.get? x = some (.popping k since) ∨ since = v.clock := fun g => .inl (g ▸ hx)
  have hset : ∀ (v : ClientSampler) i p, (v.setPhase i p).calls = v.calls := fun _ _ _ => rfl
  have hent : ∀ (v : ClientSampler) i n got want sampled parts es, (entries v i n got want sampled parts es).calls = v.calls := by
    intro v i n got want sampled parts es
    induction es generalizing parts with
    | nil =>
      unfold entries
      split
      · rfl
      · split <;> rfl
    | cons e es ih =>
      unfold entries
      split
      · split <;> rfl
      · exact ih _
  have hit : ∀ (v : ClientSampler) i n got final base l, (items v i n got final base l).calls = v.calls := by
    intro v i n got final base l
    unfold items
    split
    · rfl
    · split <;> rfl
  have hout := hs
  unfold ClientSampler.step at hs
  split at hs
  · cases hs
  · cases e with
    | tick d => cases hs; exact hsame rfl
    | call y q =>
      simp only [ClientSampler.call] at hs
      split at hs <;> cases hs
      rcases get_insert hx with ⟨_, g⟩ | ⟨_, g⟩
      · right
        split at g
        · cases g
        · cases g
          rfl
      · exact .inl g
    | pop y =>
      simp only [ClientSampler.pop] at hs
      split at hs
      · split at hs
        · cases hs
          rcases get_insert hx with ⟨_, g⟩ | ⟨_, g⟩
          · cases g
          · exact .inl g
        · split at hs
          · cases hs
          · split at hs
            · cases hs
              rcases get_insert hx with ⟨_, g⟩ | ⟨_, g⟩
              · cases g
              · exact .inl g
            · cases hs
              rcases get_insert hx with ⟨_, g⟩ | ⟨_, g⟩
              · cases g
              · exact .inl g
      · cases hs
    | finish y =>
      have hfin : ∀ (v : ClientSampler), (v.finished c).calls = v.calls := fun v => by rw [finished_eq]
      have herase : v'.calls = v.calls ∨ v'.calls = v.calls.erase y := by
        simp only [ClientSampler.finish] at hs
        split at hs
        · split at hs
          · cases hs; exact .inr rfl
          · cases hs; exact .inl rfl
        · cases hs
          unfold finishSample
          split
          · exact .inl rfl
          · split
            · exact .inl rfl
            · exact .inr rfl
            · split
              · exact .inr rfl
              · exact .inr (by show ((v.finished c).calls).erase y = _; rw [hfin])
          · split
            · exact .inl rfl
            · exact .inr rfl
            · split
              · exact .inr rfl
              · exact .inr (by show ((v.finished c).calls).erase y = _; rw [hfin])
        · split at hs
          · cases hs; exact .inl rfl
          · cases hs
            unfold finishTimestep
            split
            · exact .inl rfl
            · exact .inr rfl
            · rename_i s' _
              simp only
              split
              · exact .inr rfl
              · split
                · exact .inr (by show (({ v with active := some s' } : ClientSampler).finished c).calls.erase y = _; rw [hfin])
                · exact .inr rfl
        · cases hs
      rcases herase with g | g
      · exact hsame g
      · rw [g] at hx
        exact .inl (get_erase hx).2
    | close =>
      simp only [ClientSampler.close] at hs
      split at hs <;> (cases hs; exact hsame rfl)
    | closeStep =>
      simp only [ClientSampler.closeStep] at hs
      split at hs
      · cases hs
      · split at hs <;> (cases hs; exact hsame rfl)
      · split at hs <;> cases hs
        exact hsame rfl
      · cases hs
    | work i =>
      simp only [ClientSampler.work] at hs
      split at hs
      · cases hs
      · split at hs
        · simp only [take] at hs
          split at hs
          · cases hs; exact hsame rfl
          · split at hs <;> cases hs
            exact hsame rfl
        · cases hs
          apply hsame
          unfold reported
          simp only
          split <;> rfl
        · cases hs
        · split at hs
          · split at hs <;> (cases hs; exact hsame rfl)
          · split at hs <;> cases hs
            exact hsame rfl
          · cases hs
          · split at hs
            · cases hs
            · rename_i hp
              rcases push_cases hp with ⟨_, g⟩ | ⟨_, _, g⟩
              · cases g
              · cases g
                cases hs
                exact hsame (hent _ _ _ _ _ _ _ _)
            · rename_i hp
              rcases push_cases hp with ⟨_, g⟩ | ⟨_, _, g⟩
              · cases g
                cases hs
                exact hsame rfl
              · cases g
          · split at hs
            · split at hs
              · cases hs; exact hsame rfl
              · split at hs <;> cases hs
                exact hsame rfl
            · cases hs; exact hsame rfl
          · cases hs
          · split at hs
            · cases hs
            · rename_i hp
              rcases push_cases hp with ⟨_, g⟩ | ⟨_, _, g⟩
              · cases g
              · cases g
                cases hs
                exact hsame (hit _ _ _ _ _ _ _)
            · rename_i hp
              rcases push_cases hp with ⟨_, g⟩ | ⟨_, _, g⟩
              · cases g
                cases hs
                exact hsame rfl
              · cases g
    | write i r =>
      simp only [ClientSampler.write] at hs
      split at hs
      · split at hs
        · cases hs
        · split at hs
          · split at hs <;> (cases hs; exact hsame rfl)
          · cases hs
      · cases hs
    | response i es =>
      simp only [ClientSampler.response] at hs
      split at hs <;> cases hs
      exact hsame (hent _ _ _ _ _ _ _ _)
    | streamEnd i st lim =>
      simp only [ClientSampler.streamEnd] at hs
      split at hs <;> cases hs
      exact hsame rfl
    | answer i r =>
      simp only [ClientSampler.answer] at hs
      split at hs
      · split at hs
        · cases hs
        · cases hs; exact hsame (hit _ _ _ _ _ _ _)
        · split at hs
          · split at hs
            · cases hs
            · split at hs
              · cases hs; exact hsame rfl
              · split at hs <;> (cases hs; exact hsame rfl)
          · cases hs; exact hsame rfl
      · cases hs

/-! ### Where `DeadlineExceeded` comes from -/

/-- How a worker comes to report `DeadlineExceeded`. -/
def Late (v : ClientSampler) (e : Event) (i : Nat) (p : SWPhase) : Prop :=
  ∀ n got, p = .report n got (some .deadlineExceeded) → (∃ w, v.workers[i]? = some w ∧ w.phase = p) ∨
    e = .answer i (.err .deadlineExceeded) ∧ ∃ cl n got final base batch dl,
      v.workers[i]? = some ⟨cl, .fetch n got (.sampling final base batch dl)⟩ ∧ final.all (v.clock < ·) = false ∧ 1 ≤ v.waitingToPop

theorem Late.off {v : ClientSampler} {e : Event} {i : Nat} {p : SWPhase} (h : ∀ n got, p ≠ .report n got (some .deadlineExceeded)) :
    Late v e i p := fun n got g => absurd g (h n got)

theorem Late.same {v : ClientSampler} {e : Event} {i : Nat} {w : SWorker} (h : v.workers[i]? = some w) : Late v e i w.phase :=
  fun _ _ _ => .inl ⟨w, h, rfl⟩

theorem Late.set {v v0 : ClientSampler} {e : Event} {i j : Nat} {p : SWPhase} {w' : SWorker}
    (hv : v0.workers = v.workers) (hp : i = j → Late v e i p) (h : (v0.setPhase j p).workers[i]? = some w') : Late v e i w'.phase := by
  rcases setPhase_get h with ⟨hij, g⟩ | ⟨hij, g⟩
  · rw [g]
    exact hp hij
  · exact Late.same (hv ▸ g)

theorem Late.items {v v0 : ClientSampler} {e : Event} {i j : Nat} {w' : SWorker} (hv : v0.workers = v.workers)
    {n got : Int} {final : Duration} {base : Int} {l : List SampledItem}
    (h : (items v0 j n got final base l).workers[i]? = some w') : Late v e i w'.phase := by
  unfold ClientSampler.items at h
  split at h
  · exact Late.set hv (fun _ => .off (by simp)) h
  · split at h
    · exact Late.same (hv ▸ h)
    · rename_i he
      refine Late.set hv (fun _ => .off ?_) h
      intro n got g
      cases g
      exact (asSampleLocal_code he).not_deadline rfl
    · exact Late.set hv (fun _ => .off (by simp)) h

theorem Late.step {c : SamplerCfg} {v v' : ClientSampler} {e : Event} {i : Nat} {w' : SWorker} (h : SInv c v) (hg : c.isGrpc = false)
    (hs : step c v e = some v') (hw' : v'.workers[i]? = some w') : Late v e i w'.phase := by
  have hph : ∀ {j : Nat} {cl : Bool} {n got : Int} {f : Fetch}, v.workers[j]? = some (SWorker.mk cl (.fetch n got f)) → FetchOk c n got f :=
    fun hj => (h.phase _ (List.mem_of_getElem? hj)).2.2
  unfold ClientSampler.step at hs
  split at hs
  · cases hs
  · cases e with
    | tick d => cases hs; exact .same hw'
    | call x k =>
      simp only [ClientSampler.call] at hs
      split at hs <;> cases hs
      exact .same hw'
    | pop x =>
      simp only [ClientSampler.pop] at hs
      split at hs
      · split at hs
        · cases hs; exact .same hw'
        · split at hs
          · cases hs
          · split at hs <;> (cases hs; exact .same hw')
      · cases hs
    | finish x =>
      have hfin : ∀ (v : ClientSampler), (v.finished c).workers = v.workers := fun v => by rw [finished_eq]
      have : v'.workers = v.workers := by
        simp only [ClientSampler.finish] at hs
        split at hs
        · split at hs <;> (cases hs; rfl)
        · cases hs
          unfold finishSample
          split
          · rfl
          · split
            · rfl
            · rfl
            · split
              · rfl
              · exact hfin v
          · split
            · rfl
            · rfl
            · split
              · rfl
              · exact hfin v
        · split at hs
          · cases hs; rfl
          · cases hs
            unfold finishTimestep
            split
            · rfl
            · rfl
            · simp only
              split
              · rfl
              · split
                · exact hfin _
                · rfl
        · cases hs
      exact .same (this ▸ hw')
    | close =>
      simp only [ClientSampler.close] at hs
      split at hs <;> (cases hs; exact .same hw')
    | closeStep =>
      simp only [ClientSampler.closeStep] at hs
      split at hs
      · cases hs
      · split at hs
        · cases hs
          simp only [List.getElem?_modify] at hw'
          cases hw : v.workers[i]? with
          | none => rw [hw] at hw'; simp at hw'
          | some w =>
            rw [hw] at hw'
            have hp : w'.phase = w.phase := by
              simp only [Option.map_eq_map, Option.map_some, Option.some.injEq] at hw'
              rw [← hw']
              split <;> rfl
            rw [hp]
            exact .same hw
        · cases hs; exact .same hw'
      · split at hs <;> cases hs
        exact .same hw'
      · cases hs
    | work j =>
      simp only [ClientSampler.work] at hs
      split at hs
      · cases hs
      · rename_i w hw
        obtain ⟨cl, p⟩ := w
        split at hs
        · simp only [take] at hs
          split at hs
          · cases hs
            exact Late.set rfl (fun _ => .off (by simp)) hw'
          · split at hs <;> cases hs
            exact Late.set (v := v) (by rfl) (fun _ => .off (by simp)) hw'
        · cases hs
          unfold reported at hw'
          simp only at hw'
          split at hw'
          · exact Late.set (v := v) (by rfl) (fun _ => .off (by simp)) hw'
          · exact Late.set (v := v) (by rfl) (fun _ => .off (by simp)) hw'
        · cases hs
        · rename_i n got f hp
          simp only at hp
          subst hp
          have hok := hph hw
          split at hs
          · rw [hok.1] at hg; cases hg
          · rw [show c.isGrpc = true from hok] at hg; cases hg
          · cases hs
          · rw [hok.1] at hg; cases hg
          · split at hs
            · split at hs
              · cases hs
                exact Late.set rfl (fun _ => .off (by simp)) hw'
              · split at hs <;> cases hs
                exact Late.set rfl (fun _ => .off (by simp)) hw'
            · cases hs
              refine Late.set rfl (fun _ => .off ?_) hw'
              intro n' got' g
              have g := (SWPhase.report.inj g).2.2
              split at g <;> cases g
          · cases hs
          · split at hs
            · cases hs
            · rename_i hp
              rcases push_cases hp with ⟨_, g⟩ | ⟨_, _, g⟩
              · cases g
              · cases g
                cases hs
                exact Late.items (v := v) (by rfl) hw'
            · rename_i hp
              rcases push_cases hp with ⟨_, g⟩ | ⟨_, _, g⟩
              · cases g
                cases hs
                exact Late.set rfl (fun _ => .off (by simp)) hw'
              · cases g
    | write j r =>
      exfalso
      simp only [ClientSampler.write] at hs
      split at hs
      · rename_i hw
        rw [show c.isGrpc = true from hph hw] at hg
        cases hg
      · cases hs
    | response j es =>
      exfalso
      simp only [ClientSampler.response] at hs
      split at hs
      · rename_i hw
        rw [show c.isGrpc = true from (hph hw).1] at hg
        cases hg
      · cases hs
    | streamEnd j st lim =>
      exfalso
      simp only [ClientSampler.streamEnd] at hs
      split at hs
      · rename_i hw
        rw [show c.isGrpc = true from (hph hw).1] at hg
        cases hg
      · cases hs
    | answer j r =>
      simp only [ClientSampler.answer] at hs
      split at hs
      · rename_i cl n got final base batch deadline hw
        split at hs
        · cases hs
        · cases hs
          exact Late.items rfl hw'
        · split at hs
          · rename_i hst
            subst hst
            split at hs
            · cases hs
            · split at hs
              · cases hs
                exact Late.set rfl (fun _ => .off (by simp)) hw'
              · rename_i hall
                split at hs <;> cases hs
                · exact Late.set rfl (fun _ => .off (by simp)) hw'
                · rename_i hwait
                  refine Late.set rfl (fun hij => ?_) hw'
                  subst hij
                  exact fun _ _ _ => .inr ⟨rfl, cl, n, got, final, base, batch, deadline, hw, by simpa using hall, by omega⟩
          · rename_i hst
            cases hs
            refine Late.set rfl (fun _ => .off ?_) hw'
            intro n' got' g
            cases g
            exact hst rfl
      · cases hs

/-- The status becomes `DeadlineExceeded` only by the report of a worker. -/
theorem status_step {c : SamplerCfg} {v v' : ClientSampler} {e : Event} (hs : step c v e = some v') (hst : v'.status ≠ none) :
    v.status = v'.status ∨ ∃ (i : Nat) (w : SWorker) (n got : Int), v.workers[i]? = some w ∧ w.phase = .report n got v'.status ∧
      e = .work i := by
  have hent : ∀ (v : ClientSampler) i n got want sampled parts es, (entries v i n got want sampled parts es).status = v.status := by
    intro v i n got want sampled parts es
    induction es generalizing parts with
    | nil =>
      unfold entries
      split
      · rfl
      · split <;> rfl
    | cons e es ih =>
      unfold entries
      split
      · split <;> rfl
      · exact ih _
  have hit : ∀ (v : ClientSampler) i n got final base l, (items v i n got final base l).status = v.status := by
    intro v i n got final base l
    unfold items
    split
    · rfl
    · split <;> rfl
  by_cases hold : v.status = none
  · unfold ClientSampler.step at hs
    split at hs
    · cases hs
    · cases e with
      | tick d => cases hs; exact .inl rfl
      | call y q =>
        simp only [ClientSampler.call] at hs
        split at hs <;> cases hs
        exact .inl rfl
      | pop y =>
        simp only [ClientSampler.pop] at hs
        split at hs
        · split at hs
          · cases hs; exact .inl rfl
          · split at hs
            · cases hs
            · split at hs <;> (cases hs; exact .inl rfl)
        · cases hs
      | finish y =>
        left
        have hfin : ∀ (v : ClientSampler), (v.finished c).status = v.status := fun v => by rw [finished_eq]
        symm
        simp only [ClientSampler.finish] at hs
        split at hs
        · split at hs <;> (cases hs; rfl)
        · cases hs
          unfold finishSample
          split
          · rfl
          · split
            · rfl
            · rfl
            · split
              · rfl
              · exact hfin v
          · split
            · rfl
            · rfl
            · split
              · rfl
              · exact hfin v
        · split at hs
          · cases hs; rfl
          · cases hs
            unfold finishTimestep
            split
            · rfl
            · rfl
            · simp only
              split
              · rfl
              · split
                · exact hfin _
                · rfl
        · cases hs
      | close =>
        simp only [ClientSampler.close] at hs
        split at hs <;> (cases hs; exact .inl rfl)
      | closeStep =>
        simp only [ClientSampler.closeStep] at hs
        split at hs
        · cases hs
        · split at hs <;> (cases hs; exact .inl rfl)
        · split at hs <;> cases hs
          exact .inl rfl
        · cases hs
      | work i =>
        simp only [ClientSampler.work] at hs
        split at hs
        · cases hs
        · rename_i w hw
          split at hs
          · simp only [take] at hs
            split at hs
            · cases hs; exact .inl rfl
            · split at hs <;> cases hs
              exact .inl rfl
          · rename_i n got st hp
            cases hs
            have hcase : (reported v i n got st).status = v.status ∨ (reported v i n got st).status = st := by
              unfold reported
              simp only
              split
              · exact .inr rfl
              · exact .inl rfl
            rcases hcase with g | g
            · exact .inl g.symm
            · right
              refine ⟨i, w, n, got, hw, ?_, rfl⟩
              rw [g]
              exact hp
          · cases hs
          · left
            split at hs
            · split at hs <;> (cases hs; rfl)
            · split at hs <;> cases hs
              rfl
            · cases hs
            · split at hs
              · cases hs
              · rename_i hp
                rcases push_cases hp with ⟨_, g⟩ | ⟨_, _, g⟩
                · cases g
                · cases g
                  cases hs
                  refine Eq.symm (Eq.trans (hent _ _ _ _ _ _ _ _) ?_)
                  rfl
              · rename_i hp
                rcases push_cases hp with ⟨_, g⟩ | ⟨_, _, g⟩
                · cases g
                  cases hs
                  rfl
                · cases g
            · split at hs
              · split at hs
                · cases hs; rfl
                · split at hs <;> cases hs
                  rfl
              · cases hs; rfl
            · cases hs
            · split at hs
              · cases hs
              · rename_i hp
                rcases push_cases hp with ⟨_, g⟩ | ⟨_, _, g⟩
                · cases g
                · cases g
                  cases hs
                  refine Eq.symm (Eq.trans (hit _ _ _ _ _ _ _) ?_)
                  rfl
              · rename_i hp
                rcases push_cases hp with ⟨_, g⟩ | ⟨_, _, g⟩
                · cases g
                  cases hs
                  rfl
                · cases g
      | write i r =>
        simp only [ClientSampler.write] at hs
        split at hs
        · split at hs
          · cases hs
          · split at hs
            · split at hs <;> (cases hs; exact .inl rfl)
            · cases hs
        · cases hs
      | response i es =>
        simp only [ClientSampler.response] at hs
        split at hs <;> cases hs
        exact .inl (hent _ _ _ _ _ _ _ _).symm
      | streamEnd i st lim =>
        simp only [ClientSampler.streamEnd] at hs
        split at hs <;> cases hs
        exact .inl rfl
      | answer i r =>
        simp only [ClientSampler.answer] at hs
        split at hs
        · split at hs
          · cases hs
          · cases hs; exact .inl (hit _ _ _ _ _ _ _).symm
          · split at hs
            · split at hs
              · cases hs
              · split at hs
                · cases hs; exact .inl rfl
                · split at hs <;> (cases hs; exact .inl rfl)
            · cases hs; exact .inl rfl
        · cases hs
  · exact .inl ((Eff.step hs).status hold).symm

theorem waitingToPop_pos {v : ClientSampler} {x : Nat} {k : SampleCall} {since : Int} (h : v.calls.get? x = some (.popping k since)) :
    1 ≤ v.waitingToPop := by
  have := AMap.count_pos (p := fun q => match q with
    | .popping _ _ => true
    | _ => false) h rfl
  unfold AMap.count at this
  rw [List.countP_eq_length_filter] at this
  exact this

theorem waits_of_waitingToPop {v : ClientSampler} (h : 1 ≤ v.waitingToPop) : ∃ x, Waits v x := by
  have : 0 < v.calls.count (fun q => match q with
    | .popping _ _ => true
    | _ => false) := by
    unfold AMap.count
    rw [List.countP_eq_length_filter]
    exact h
  obtain ⟨x, p, hx, hp⟩ := AMap.count_pos_iff.mp this
  cases p with
  | popping k t => exact ⟨x, k, t, hx⟩
  | failed _ => cases hp
  | holding _ _ => cases hp
  | stepping => cases hp

end ClientSampler
end Verif
