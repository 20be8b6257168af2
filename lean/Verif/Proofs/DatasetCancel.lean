import Verif.Proofs.DatasetLater
/-
The iterators of the dataset ops: what calls return after a cancellation.
-/
namespace Verif
namespace DataIter
open ClientSampler (Used Shut)

theorem Reach.later {c : DatasetCfg} {now : Int} {evs evs' : List Event} {d d' : DataIter} (h : Reach c now evs d)
    (hl : Later c d evs' d') : Reach c now (evs ++ evs') d' := by
  induction hl with
  | refl => simpa using h
  | step _ hh hs ih => simpa using ih.step hh hs

theorem step_alive {c : SamplerCfg} {v v' : ClientSampler} {e : ClientSampler.Event} (hs : ClientSampler.step c v e = some v') :
    v.dead = false := by
  unfold ClientSampler.step at hs
  split at hs
  · cases hs
  · rename_i g
    simpa using g

theorem IInv.faithful {c : DatasetCfg} {now : Int} {d : DataIter} (h : IInv c now d) (hc : c.sampler.Valid) (hd : d.sampler.dead = false) :
    ClientSampler.SInv c.sampler d.sampler := by
  obtain ⟨sevs, hr⟩ := h.reach
  exact hr.inv hc (fun _ _ g => g.1) hd

/-- What is known about the cancellation manager. -/
structure MInv (d : DataIter) : Prop where
  running : d.manager = .running → d.sampler.closed = true
  done : d.manager = .done → d.sampler.closed = true → d.phase ≠ .closing → d.sampler.queueClosed = true ∨ d.sampler.dead = true

theorem MInv.inside {c : SamplerCfg} {d d' : DataIter} (h : MInv d) {e : ClientSampler.Event}
    (hs : ClientSampler.step c d.sampler e = some d'.sampler) (he : e ≠ .close) (hm : d'.manager = d.manager)
    (hp : d.phase = .closing → d'.phase = .closing) : MInv d' where
  running := fun g => (ClientSampler.Eff.step hs).closed (h.running (hm ▸ g))
  done := fun g g1 g2 => by
    rw [(ClientSampler.Eff.step hs).kept he] at g1
    rcases h.done (hm ▸ g) g1 (fun q => g2 (hp q)) with q | q
    · exact .inl ((ClientSampler.Eff.step hs).queueClosed q)
    · rw [step_alive hs] at q; cases q

theorem close_closed {c : SamplerCfg} {v v' : ClientSampler} (hs : ClientSampler.step c v .close = some v') : v'.closed = true := by
  unfold ClientSampler.step at hs
  split at hs
  · cases hs
  · simp only [ClientSampler.close] at hs
    split at hs
    · rename_i g
      cases hs; exact g
    · cases hs; rfl

theorem Reach.manager {c : DatasetCfg} (hc : c.sampler.Valid) {now : Int} {evs : List Event} {d : DataIter} (h : Reach c now evs d) :
    MInv d := by
  induction h with
  | init => exact ⟨fun g => (by cases g), fun g => (by cases g)⟩
  | @step evs e d d' h0 hh hs ih =>
    have hdone : d.sampler.closing = .done → d.sampler.queueClosed = true ∨ d.sampler.dead = true := by
      intro g
      cases hd : d.sampler.dead with
      | true => exact .inr rfl
      | false => exact .inl ((h0.inv.faithful hc hd).joining (.inr g)).1
    cases e with
    | next =>
      have hs : d.next c = some d' := hs
      unfold DataIter.next at hs
      split at hs
      · rename_i hp
        split at hs
        · split at hs
          · cases hs
          · rename_i d1 hb
            cases hs
            obtain ⟨v, hv, rfl⟩ := begin_eq hb
            exact ih.inside (d' := { d with sampler := v, phase := .calling true, callbacks := d.callbacks + 1 }) hv (by simp) rfl
              (fun g => by rw [hp] at g; cases g)
        · split at hs
          · obtain ⟨v, hv, rfl⟩ := begin_eq hs
            exact ih.inside (d' := { d with sampler := v, phase := .calling false }) hv (by simp) rfl (fun g => by rw [hp] at g; cases g)
          · rename_i hcl
            split at hs
            · cases hs
            · rename_i v hv
              cases hs
              exact ⟨fun g => absurd (ih.running g) hcl, fun _ _ g => absurd rfl g⟩
      · cases hs
    | closed =>
      have hs : d.closed c = some d' := hs
      unfold DataIter.closed at hs
      split at hs
      · rename_i hp
        split at hs
        · rename_i hcd
          obtain ⟨v, hv, rfl⟩ := begin_eq hs
          refine ⟨fun g => (ClientSampler.Eff.step hv).closed (ih.running g), fun _ _ _ => ?_⟩
          rcases hdone hcd with q | q
          · exact .inl ((ClientSampler.Eff.step hv).queueClosed q)
          · rw [step_alive hv] at q; cases q
        · cases hs
      · cases hs
    | cancel =>
      have hs : d.cancel c = some d' := hs
      unfold DataIter.cancel at hs
      split at hs
      · rename_i hm
        have hcl : d.sampler.closed = true → False := fun g => h0.inv.closed g hm
        split at hs
        · cases hs
          exact ⟨fun g => (by cases g), fun _ g => (hcl g).elim⟩
        · split at hs
          · cases hs
          · rename_i v hv
            cases hs
            exact ⟨fun _ => close_closed hv, fun g => (by cases g)⟩
      · cases hs
    | cancelled =>
      have hs : d.cancelled = some d' := hs
      unfold DataIter.cancelled at hs
      split at hs
      · rename_i hm
        cases hs
        exact ⟨fun g => (by cases g), fun _ _ _ => hdone hm.2⟩
      · cases hs
    | inside e m =>
      rcases inside_other hs with rfl | ⟨h1, h2, h3, v, hv, rfl⟩
      · obtain ⟨r, v, hp, hv, ⟨_, rfl⟩ | ⟨o, _, _, rfl⟩⟩ := finish_inside (m := m) hs
        · exact ih.inside (e := .finish 0) (d' := { d with sampler := v }) hv (by simp) rfl id
        · exact ih.inside (e := .finish 0) (d' := { d with sampler := v, phase := .leaving r o }) hv (by simp) rfl
            (fun g => by rw [hp] at g; cases g)
      · exact ih.inside hv h2 rfl id
    | leave =>
      simp only [DataIter.move] at hs
      split at hs
      · cases hs
      · obtain ⟨r, o, hp, io, s, n, rfl, _⟩ := leave_cases hs
        exact ⟨ih.running, fun g g1 _ => ih.done g g1 (by rw [hp]; simp)⟩

/-! ### Calls in progress -/

/-- The result of a call that is cancelled. -/
def Stopped (c : DatasetCfg) (io : IterOut) : Prop :=
  io = .error .cancelled ∨ io = .error .invalidArgument ∧ ∃ n, c.kind = .reverb true n

/-- The manager is not reset. -/
theorem move_manager {c : DatasetCfg} {d d' : DataIter} {e : Event} (hs : move c d e = some d') (hm : d.manager ≠ .no) :
    d'.manager ≠ .no ∧ (d.manager = .done → d'.manager = .done) := by
  cases e with
  | next =>
    have hs : d.next c = some d' := hs
    unfold DataIter.next at hs
    split at hs
    · rw [if_neg hm] at hs
      split at hs
      · obtain ⟨v, hv, rfl⟩ := begin_eq hs
        exact ⟨hm, id⟩
      · split at hs
        · cases hs
        · cases hs
          exact ⟨hm, id⟩
    · cases hs
  | closed =>
    have hs : d.closed c = some d' := hs
    unfold DataIter.closed at hs
    split at hs
    · split at hs
      · obtain ⟨v, hv, rfl⟩ := begin_eq hs
        exact ⟨hm, id⟩
      · cases hs
    · cases hs
  | cancel =>
    have hs : d.cancel c = some d' := hs
    unfold DataIter.cancel at hs
    rw [if_neg hm] at hs
    cases hs
  | cancelled =>
    have hs : d.cancelled = some d' := hs
    unfold DataIter.cancelled at hs
    split at hs
    · cases hs
      exact ⟨by simp, fun _ => rfl⟩
    · cases hs
  | inside e m =>
    rcases inside_other hs with rfl | ⟨h1, h2, h3, v, hv, rfl⟩
    · obtain ⟨r, v, hp, hv, ⟨_, rfl⟩ | ⟨o, _, _, rfl⟩⟩ := finish_inside (m := m) hs <;> exact ⟨hm, id⟩
    · exact ⟨hm, id⟩
  | leave =>
    simp only [DataIter.move] at hs
    split at hs
    · cases hs
    · obtain ⟨r, o, hp, io, s, n, rfl, _⟩ := leave_cases hs
      exact ⟨hm, id⟩

/-- How the log and the phase of a call change. -/
theorem move_phase {c : DatasetCfg} {d d' : DataIter} {e : Event} (hs : move c d e = some d') :
    (d'.log = d.log ∧ (d'.phase = d.phase ∨ d.phase = .idle ∨ d.phase = .closing ∨ ∃ r o, d.phase = .calling r ∧ d'.phase = .leaving r o)) ∨
    ∃ r o io, d.phase = .leaving r o ∧ d'.log = d.log ++ [io] ∧ (r = true → d.manager ≠ .no → Stopped c io) := by
  cases e with
  | next =>
    have hs : d.next c = some d' := hs
    unfold DataIter.next at hs
    split at hs
    · rename_i hp
      left
      refine ⟨?_, .inr (.inl hp)⟩
      split at hs
      · split at hs
        · cases hs
        · rename_i d1 hb
          cases hs
          obtain ⟨v, hv, rfl⟩ := begin_eq hb
          rfl
      · split at hs
        · obtain ⟨v, hv, rfl⟩ := begin_eq hs
          rfl
        · split at hs
          · cases hs
          · cases hs
            rfl
    · cases hs
  | closed =>
    have hs : d.closed c = some d' := hs
    unfold DataIter.closed at hs
    split at hs
    · rename_i hp
      split at hs
      · obtain ⟨v, hv, rfl⟩ := begin_eq hs
        exact .inl ⟨rfl, .inr (.inr (.inl hp))⟩
      · cases hs
    · cases hs
  | cancel =>
    have hs : d.cancel c = some d' := hs
    unfold DataIter.cancel at hs
    split at hs
    · split at hs
      · cases hs
        exact .inl ⟨rfl, .inl rfl⟩
      · split at hs
        · cases hs
        · cases hs
          exact .inl ⟨rfl, .inl rfl⟩
    · cases hs
  | cancelled =>
    have hs : d.cancelled = some d' := hs
    unfold DataIter.cancelled at hs
    split at hs
    · cases hs
      exact .inl ⟨rfl, .inl rfl⟩
    · cases hs
  | inside e m =>
    rcases inside_other hs with rfl | ⟨h1, h2, h3, v, hv, rfl⟩
    · obtain ⟨r, v, hp, hv, ⟨_, rfl⟩ | ⟨o, _, _, rfl⟩⟩ := finish_inside (m := m) hs
      · exact .inl ⟨rfl, .inl rfl⟩
      · exact .inl ⟨rfl, .inr (.inr (.inr ⟨r, o, hp, rfl⟩))⟩
    · exact .inl ⟨rfl, .inl rfl⟩
  | leave =>
    simp only [DataIter.move] at hs
    split at hs
    · cases hs
    · obtain ⟨r, o, hp, io, s, n, rfl, hc⟩ := leave_cases hs
      refine .inr ⟨r, o, io, hp, rfl, ?_⟩
      intro hr hm
      rcases hc with ⟨l, hk, _, h3⟩ | ⟨_, ⟨_, g⟩ | ⟨g, _⟩⟩
      · exact .inr ⟨h3, l, hk⟩
      · exact absurd (g hr) hm
      · exact .inl g

theorem move_log {c : DatasetCfg} {d d' : DataIter} {e : Event} (hs : move c d e = some d') : ∃ l, d'.log = d.log ++ l := by
  rcases move_phase hs with ⟨g, _⟩ | ⟨_, _, io, _, g, _⟩
  · exact ⟨[], by simpa using g⟩
  · exact ⟨[io], g⟩

theorem Later.inProgress {c : DatasetCfg} {d d' : DataIter} {evs : List Event} (h : Later c d evs d')
    (hp : d.phase = .calling true ∨ ∃ o, d.phase = .leaving true o) (hm : d.manager ≠ .no) :
    d'.manager ≠ .no ∧ ((d'.log = d.log ∧ (d'.phase = .calling true ∨ ∃ o, d'.phase = .leaving true o)) ∨
      ∃ io l, d'.log = d.log ++ io :: l ∧ Stopped c io) := by
  induction h with
  | refl => exact ⟨hm, .inl ⟨rfl, hp⟩⟩
  | @step evs e d1 d2 _ _ hs ih =>
    obtain ⟨hm1, ih⟩ := ih
    refine ⟨(move_manager hs hm1).1, ?_⟩
    rcases ih with ⟨hl, hp1⟩ | ⟨io, l, hl, hst⟩
    · rcases move_phase hs with ⟨g, g'⟩ | ⟨r, o, io, g1, g2, g3⟩
      · refine .inl ⟨g.trans hl, ?_⟩
        rcases g' with g' | g' | g' | ⟨r, o, g1, g2⟩
        · rw [g']; exact hp1
        · rcases hp1 with q | ⟨o, q⟩ <;> rw [q] at g' <;> cases g'
        · rcases hp1 with q | ⟨o, q⟩ <;> rw [q] at g' <;> cases g'
        · rcases hp1 with q | ⟨o, q⟩ <;> rw [q] at g1 <;> cases g1
          exact .inr ⟨o, g2⟩
      · refine .inr ⟨io, [], by rw [g2, hl], g3 ?_ hm1⟩
        rcases hp1 with q | ⟨o, q⟩ <;> rw [q] at g1 <;> cases g1
        rfl
    · obtain ⟨l', g⟩ := move_log hs
      exact .inr ⟨io, l ++ l', by rw [g, hl]; simp, hst⟩

/-! ### Later calls -/

/-- What a call that begins after a cancellation gets from the sampler. -/
def Gone (o : SampleOut) : Prop := o = .error .cancelled ∨ o = .error .outOfRange

structure KInv (c : DatasetCfg) (log : List IterOut) (d : DataIter) : Prop where
  manager : d.manager = .done
  log : ∃ l, d.log = log ++ l ∧ ∀ io ∈ l, Stopped c io ∨ io = .error .outOfRange
  read : d.sampler.partlyRead = false
  calling : ∀ r, d.phase = .calling r → r = false ∧ d.sampler.closed = true ∧ (Shut d.sampler ∨ d.sampler.dead = true)
  leaving : ∀ r o, d.phase = .leaving r o → r = false ∧ Gone o

theorem active_keep {c : SamplerCfg} {v v' : ClientSampler} {e : ClientSampler.Event} (hs : ClientSampler.step c v e = some v')
    (hcalls : ∀ x p, v.calls.get? x ≠ some p) : v'.active = v.active := by
  cases ClientSampler.Flow.step hs (fun x s => hcalls x _) with
  | quiet q => exact q.active
  | push i s _ _ _ _ q => exact q
  | call x k' he _ _ _ _ _ _ _ q => exact q
  | failed y k' t he hx => exact absurd hx (hcalls y _)
  | pop y k' t s he hx => exact absurd hx (hcalls y _)
  | fail y k' st he hx => exact absurd hx (hcalls y _)
  | sample y k' s o he hx => exact absurd hx (hcalls y _)
  | timestep y s s' o he hx => exact absurd hx (hcalls y _)

theorem partlyRead_keep {v v' : ClientSampler} (h : v'.active = v.active) (hr : v.partlyRead = false) : v'.partlyRead = false := by
  unfold ClientSampler.partlyRead at hr ⊢
  rw [h]; exact hr

theorem KInv.begin {c : DatasetCfg} {log : List IterOut} {d : DataIter} (h : KInv c log d) (hcalls : ∀ x p, d.sampler.calls.get? x ≠ some p)
    {v : ClientSampler} (hs : ClientSampler.step c.sampler d.sampler (.call 0 c.kind.call) = some v) (hcl : d.sampler.closed = true)
    (hq : d.sampler.queueClosed = true) : KInv c log { d with sampler := v, phase := .calling false } where
  manager := h.manager
  log := h.log
  read := partlyRead_keep (active_keep hs hcalls) h.read
  calling := fun r g => by
    cases g
    refine ⟨rfl, (ClientSampler.Eff.step hs).closed hcl, .inl ?_⟩
    have : Shut d.sampler := ⟨hq, h.read, fun x p g => absurd g (hcalls x p)⟩
    exact (this.step hs (fun x s => hcalls x _)).1
  leaving := fun r o g => (by cases g)

theorem KInv.move {c : DatasetCfg} (hc : c.sampler.Valid) {now : Int} {log : List IterOut} {evs : List Event} {d d' : DataIter} {e : Event}
    (h : KInv c log d) (hr : Reach c now evs d) (hs : DataIter.move c d e = some d') (hr' : IInv c now d') : KInv c log d' := by
  have hi := hr.inv
  have hmi := hr.manager hc
  have hcalls : (∀ r, d.phase ≠ .calling r) → ∀ x p, d.sampler.calls.get? x ≠ some p := by
    intro hp x p g
    obtain ⟨_, r, q⟩ := hi.only x p g
    exact hp r q
  cases e with
  | next =>
    have hs : d.next c = some d' := hs
    unfold DataIter.next at hs
    split at hs
    · rename_i hp
      have hcalls := hcalls (by rw [hp]; simp)
      rw [if_neg (by rw [h.manager]; simp)] at hs
      split at hs
      · rename_i hcl
        obtain ⟨v, hv, rfl⟩ := begin_eq hs
        refine h.begin hcalls hv hcl ?_
        rcases hmi.done h.manager hcl (by rw [hp]; simp) with g | g
        · exact g
        · rw [step_alive hv] at g; cases g
      · split at hs
        · cases hs
        · rename_i v hv
          cases hs
          exact ⟨h.manager, h.log, partlyRead_keep (active_keep hv hcalls) h.read, fun r g => (by cases g), fun r o g => (by cases g)⟩
    · cases hs
  | closed =>
    have hs : d.closed c = some d' := hs
    unfold DataIter.closed at hs
    split at hs
    · rename_i hp
      split at hs
      · rename_i hcd
        obtain ⟨v, hv, rfl⟩ := begin_eq hs
        have hinv := hi.faithful hc (step_alive hv)
        exact h.begin (hcalls (by rw [hp]; simp)) hv (hinv.closing.mpr (by rw [hcd]; simp)) (hinv.joining (.inr hcd)).1
      · cases hs
    · cases hs
  | cancel =>
    have hs : d.cancel c = some d' := hs
    unfold DataIter.cancel at hs
    rw [if_neg (by rw [h.manager]; simp)] at hs
    cases hs
  | cancelled =>
    have hs : d.cancelled = some d' := hs
    unfold DataIter.cancelled at hs
    split at hs
    · rename_i g
      rw [h.manager] at g; cases g.1
    · cases hs
  | inside e m =>
    rcases inside_other hs with rfl | ⟨h1, h2, h3, v, hv, rfl⟩
    · obtain ⟨r, v, hp, hv, hcase⟩ := finish_inside (m := m) hs
      obtain ⟨hr0, hcl, hsh⟩ := h.calling r hp
      have hsh : Shut d.sampler := by
        rcases hsh with q | q
        · exact q
        · rw [step_alive hv] at q; cases q
      obtain ⟨sevs, hreach⟩ := hi.reach
      obtain ⟨g1, g2⟩ := hsh.step hv hreach.holds
      have hcl' := (ClientSampler.Eff.step hv).closed hcl
      rcases hcase with ⟨_, rfl⟩ | ⟨o, hlast, _, rfl⟩
      · exact ⟨h.manager, h.log, g1.read, fun r' g => ⟨(h.calling r' g).1, hcl', .inl g1⟩, h.leaving⟩
      · refine ⟨h.manager, h.log, g1.read, fun r' g => (by cases g), ?_⟩
        intro r' o' g
        cases g
        refine ⟨hr0, ?_⟩
        have hlen := hr'.len
        have hlen0 := hi.len
        rw [hp] at hlen0
        have hlen : v.log.length = d.log.length + 1 := hlen
        have hlen0 : d.sampler.log.length = d.log.length := hlen0
        rcases g2 with g2 | ⟨x, k, _, g2, g3⟩
        · rw [g2] at hlen; omega
        · rw [g2] at hlast
          simp only [List.getLast?_append, List.getLast?_singleton, Option.some_or, Option.some.injEq] at hlast
          subst hlast
          unfold ClientSampler.popStatus at g3
          split at g3
          · cases g3; exact .inr rfl
          · cases g3; exact .inl rfl
    · have hcl' := (ClientSampler.Eff.step hv).kept h2
      by_cases hp : ∃ r, d.phase = .calling r
      · obtain ⟨r, hp⟩ := hp
        obtain ⟨hr0, hcl, hsh⟩ := h.calling r hp
        have hsh : Shut d.sampler := by
          rcases hsh with q | q
          · exact q
          · rw [step_alive hv] at q; cases q
        obtain ⟨sevs, hreach⟩ := hi.reach
        obtain ⟨g1, g2⟩ := hsh.step hv hreach.holds
        exact ⟨h.manager, h.log, g1.read, fun r' g => ⟨(h.calling r' g).1, hcl'.trans hcl, .inl g1⟩, h.leaving⟩
      · have hp : ∀ r, d.phase ≠ .calling r := fun r g => hp ⟨r, g⟩
        exact ⟨h.manager, h.log, partlyRead_keep (active_keep hv (hcalls hp)) h.read, fun r g => absurd g (hp r), h.leaving⟩
  | leave =>
    simp only [DataIter.move] at hs
    split at hs
    · cases hs
    · obtain ⟨r, o, hp, io, s, n, rfl, hcase⟩ := leave_cases hs
      obtain ⟨hr0, ho⟩ := h.leaving r o hp
      obtain ⟨l, hl, hgood⟩ := h.log
      refine ⟨h.manager, ⟨l ++ [io], ?_, ?_⟩, h.read, fun r g => (by cases g), fun r o g => (by cases g)⟩
      · show d.log ++ [io] = _
        rw [hl]; simp
      · intro io' g
        rcases List.mem_append.mp g with g | g
        · exact hgood io' g
        · simp only [List.mem_singleton] at g
          subst g
          rcases hcase with ⟨k, hk, _, h3⟩ | ⟨_, ⟨g, _⟩ | ⟨g, _⟩⟩
          · exact .inl (.inr ⟨h3, k, hk⟩)
          · rcases ho with ho | ho
            · left; left
              rw [g, ho]
              simp [shown]
            · right
              rw [g, ho]
              simp [shown]
          · exact .inl (.inl g)

theorem Later.afterCancel {c : DatasetCfg} (hc : c.sampler.Valid) {now : Int} {evs evs' : List Event} {d d' : DataIter} (hr : Reach c now evs d)
    (h : Later c d evs' d') (hp : d.phase = .idle) (hm : d.manager = .done) (hread : d.sampler.partlyRead = false) :
    KInv c d.log d' := by
  induction h with
  | refl => exact ⟨hm, ⟨[], by simp⟩, hread, fun r g => (by rw [hp] at g; cases g), fun r o g => (by rw [hp] at g; cases g)⟩
  | @step evs e d1 d2 hl hh hs ih => exact ih.move hc (hr.later hl) hs ((hr.later (hl.step hh hs)).inv)

/-! ### Concrete schedules -/

/-- Is the event honest? -/
def honestB (d : DataIter) : Event → Bool
  | .inside e _ => ClientSampler.faithfulB d.sampler e
  | _ => true

/-- The state after a schedule, if all of it is possible and honest and the property holds at the end. -/
def after (c : DatasetCfg) (d : DataIter) (P : DataIter → Bool) : List Event → Bool
  | [] => P d
  | e :: es => honestB d e &&
    match DataIter.move c d e with
    | some d' => after c d' P es
    | none => false

theorem honest_of {d : DataIter} {e : Event} (h : honestB d e = true) : Honest d e := by
  cases e with
  | inside e m => exact ClientSampler.faithful_of h
  | _ => trivial

theorem after_later {c : DatasetCfg} {P : DataIter → Bool} {d0 d : DataIter} {evs0 evs : List Event}
    (h0 : Later c d0 evs0 d) (h : after c d P evs = true) : ∃ d', Later c d0 (evs0 ++ evs) d' ∧ P d' = true := by
  induction evs generalizing evs0 d with
  | nil => exact ⟨d, by simpa using h0, h⟩
  | cons e es ih =>
    simp only [after, Bool.and_eq_true] at h
    obtain ⟨h1, h2⟩ := h
    split at h2
    · rename_i d' hs
      obtain ⟨d'', g1, g2⟩ := ih (h0.step (honest_of h1) hs) h2
      exact ⟨d'', by simpa using g1, g2⟩
    · cases h2

theorem after_init {c : DatasetCfg} {now : Int} {P : DataIter → Bool} {evs : List Event}
    (h : after c (DataIter.init c now) P evs = true) : ∃ d, Reach c now evs d ∧ P d = true := by
  obtain ⟨d, g1, g2⟩ := after_later .refl h
  exact ⟨d, by simpa using Reach.later .init g1, g2⟩

end DataIter

namespace ClientSampler

/-- After `DeadlineExceeded`, calls of the sampler return nothing else, unless it is closed. -/
theorem Reach.afterDeadline {c : SamplerCfg} (hc : c.Valid) {now : Int} {k : SampleCall} {evs : List Event} {v : ClientSampler}
    (h : Reach c now (Used k) evs v) : ∀ a b, v.log = a ++ .error .deadlineExceeded :: b → ∀ o ∈ b, o = .error .deadlineExceeded ∨
      o = .error .cancelled ∧ v.closed = true := by
  induction h with
  | init => intro a b g; simp [ClientSampler.init] at g
  | @step evs e v v' h0 hP hs ih =>
    intro a b hl o ho
    have hd := DataIter.step_alive hs
    have hold : ∀ b', v.log = a ++ .error .deadlineExceeded :: b' → o ∈ b' → o = .error .deadlineExceeded ∨
        o = .error .cancelled ∧ v'.closed = true := by
      intro b' g g'
      rcases ih a b' g o g' with q | ⟨q, q'⟩
      · exact .inl q
      · exact .inr ⟨q, (Eff.step hs).closed q'⟩
    rcases (Eff.step hs).log with g | ⟨x, o', he, hlog, _, hr, _⟩
    · exact hold b (g ▸ hl) ho
    · rw [hlog] at hl
      rcases List.eq_nil_or_concat b with hb | ⟨b', z, hb⟩
      · rw [hb] at ho; cases ho
      · rw [hb] at hl ho
        have hl : v.log ++ [o'] = (a ++ .error .deadlineExceeded :: b') ++ [z] := by simpa using hl
        obtain ⟨g1, g2⟩ := List.append_inj' hl rfl
        cases g2
        rw [List.concat_eq_append] at ho
        rcases List.mem_append.mp ho with g | g
        · exact hold b' g1 g
        · simp only [List.mem_singleton] at g
          subst g
          have hmem : SampleOut.error .deadlineExceeded ∈ v.log := by rw [g1]; simp
          obtain ⟨q1, q2⟩ := h0.ended hc hd hmem
          rcases (q1.step hs h0.holds).2 with g | ⟨_, k', _, g, g3⟩
          · rw [hlog] at g; simp at g
          · rw [hlog] at g
            obtain ⟨_, g⟩ := List.append_inj' g rfl
            cases g
            unfold popStatus at g3
            rw [if_neg q2] at g3
            split at g3
            · rename_i hcl
              cases g3
              exact .inr ⟨rfl, (Eff.step hs).closed hcl⟩
            · rw [deadline_status h0 hmem] at g3
              cases g3
              exact .inl rfl

end ClientSampler
end Verif
