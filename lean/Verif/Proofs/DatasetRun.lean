import Verif.Proofs.DatasetInv
/-
The iterators of the dataset ops: the invariant holds in all runs.
-/
namespace Verif
namespace DataIter
open ClientSampler (Used)

/-! ### Steps -/

theorem shown_keep {c : DatasetCfg} {a b : Bool} {o : SampleOut} (h : o ≠ .error .deadlineExceeded) : shown c a o = shown c b o := by
  cases o with
  | error e =>
    have : e ≠ .deadlineExceeded := fun g => h (by rw [g])
    simp [shown, this]
  | _ => rfl

theorem newLimiter_keep {c : DatasetCfg} {now : Int} {d : DataIter} (h : IInv c now d) {e : ClientSampler.Event} {v : ClientSampler}
    {i : Nat} {o : SampleOut} (ho : d.sampler.log[i]? = some o) : shown c (newLimiter d e v) o = shown c d.limiter o := by
  unfold newLimiter
  split
  · split
    · rename_i g
      apply shown_keep
      rintro rfl
      obtain ⟨sevs, hr⟩ := h.reach
      have := ClientSampler.deadline_status hr (List.mem_of_getElem? ho)
      rw [g.1] at this
      cases this
    · rfl
  · rfl

theorem calls_empty {v : ClientSampler} (h : ∀ x p, v.calls.get? x ≠ some p) : v.calls.size = 0 := by
  unfold AMap.size
  rw [List.length_eq_zero_iff]
  apply List.eq_nil_iff_forall_not_mem.mpr
  intro e he
  exact h e.1 e.2 ((AMap.mem_entries_iff _ _ _).mp he)

theorem begin_eq {c : DatasetCfg} {d d' : DataIter} {r : Bool} (h : begin c d r = some d') :
    ∃ v, ClientSampler.step c.sampler d.sampler (.call 0 c.kind.call) = some v ∧ d' = { d with sampler := v, phase := .calling r } := by
  unfold begin at h
  split at h
  · cases h
  · rename_i v hv
    cases h
    exact ⟨v, hv, rfl⟩

/-- The sampler is called. -/
theorem IInv.begin {c : DatasetCfg} {now : Int} {d : DataIter} (h : IInv c now d) (hp : d.phase = .idle ∨ d.phase = .closing) {r : Bool}
    (hr : r = false → d.manager ≠ .no) {v : ClientSampler}
    (hs : ClientSampler.step c.sampler d.sampler (.call 0 c.kind.call) = some v) (n : Nat) :
    IInv c now { d with sampler := v, phase := .calling r, callbacks := n } := by
  have hcalls : ∀ x p, d.sampler.calls.get? x ≠ some p := by
    intro x p g
    obtain ⟨_, r, q⟩ := h.only x p g
    rw [q] at hp
    rcases hp with g | g <;> cases g
  obtain ⟨sevs, hreach⟩ := h.reach
  have hreach' := hreach.step (e := .call 0 c.kind.call) (⟨trivial, calls_empty hcalls, fun x k' g => by cases g; rfl⟩) hs
  have hcl : v.closed = d.sampler.closed ∧ v.log = d.sampler.log ∧ ∃ q, v.calls = d.sampler.calls.insert 0 q := by
    unfold ClientSampler.step at hs
    split at hs
    · cases hs
    · simp only [ClientSampler.call] at hs
      split at hs <;> cases hs
      exact ⟨rfl, rfl, _, rfl⟩
  obtain ⟨h1, h2, q, h3⟩ := hcl
  refine h.quiet ⟨_, hreach'⟩ ?_ h2 rfl ?_ ?_ ?_ ?_ id (fun _ _ _ => rfl) rfl
  · intro x p g
    have g : v.calls.get? x = some p := g
    rw [h3, AMap.get?_insert] at g
    split at g
    · rename_i hx
      exact ⟨hx, r, rfl⟩
    · exact absurd g (hcalls x p)
  · rcases hp with g | g <;> rw [g] <;> rfl
  · intro r' o g; cases g
  · intro g
    apply hr
    rcases g with g | g | ⟨o, g⟩
    · cases g
    · cases g; rfl
    · cases g
  · intro g
    exact h.closed (h1 ▸ g)

/-- `Close` is called. -/
theorem IInv.close {c : DatasetCfg} {now : Int} {d : DataIter} (h : IInv c now d) {v : ClientSampler}
    (hs : ClientSampler.step c.sampler d.sampler .close = some v) :
    (∃ sevs, ClientSampler.Reach c.sampler now (Used c.kind.call) sevs v) ∧ v.calls = d.sampler.calls ∧ v.log = d.sampler.log := by
  obtain ⟨sevs, hreach⟩ := h.reach
  refine ⟨⟨_, hreach.step (e := .close) (⟨trivial, trivial, fun x k' g => by cases g⟩) hs⟩, ?_⟩
  unfold ClientSampler.step at hs
  split at hs
  · cases hs
  · simp only [ClientSampler.close] at hs
    split at hs <;> (cases hs; exact ⟨rfl, rfl⟩)

theorem IInv.next {c : DatasetCfg} {now : Int} {d d' : DataIter} (h : IInv c now d) (hs : d.next c = some d') : IInv c now d' := by
  unfold DataIter.next at hs
  split at hs
  · rename_i hp
    split at hs
    · split at hs
      · cases hs
      · rename_i d1 hb
        cases hs
        obtain ⟨v, hv, rfl⟩ := begin_eq hb
        exact h.begin (.inl hp) (fun g => by cases g) hv _
    · rename_i hm
      split at hs
      · obtain ⟨v, hv, rfl⟩ := begin_eq hs
        exact h.begin (.inl hp) (fun _ => hm) hv d.callbacks
      · split at hs
        · cases hs
        · rename_i v hv
          cases hs
          obtain ⟨g1, g2, g3⟩ := h.close hv
          refine h.quiet g1 ?_ g3 rfl ?_ ?_ ?_ ?_ id (fun _ _ _ => rfl) rfl
          · intro x p g
            have g : v.calls.get? x = some p := g
            rw [g2] at g
            obtain ⟨_, r, q⟩ := h.only x p g
            rw [hp] at q; cases q
          · rw [hp]; rfl
          · intro r o g; cases g
          · exact fun _ => hm
          · exact fun _ => hm
  · cases hs

theorem IInv.closedStep {c : DatasetCfg} {now : Int} {d d' : DataIter} (h : IInv c now d) (hs : d.closed c = some d') : IInv c now d' := by
  unfold DataIter.closed at hs
  split at hs
  · rename_i hp
    split at hs
    · obtain ⟨v, hv, rfl⟩ := begin_eq hs
      exact h.begin (.inr hp) (fun _ => h.late (.inl hp)) hv d.callbacks
    · cases hs
  · cases hs

theorem IInv.cancel {c : DatasetCfg} {now : Int} {d d' : DataIter} (h : IInv c now d) (hs : d.cancel c = some d') : IInv c now d' := by
  unfold DataIter.cancel at hs
  split at hs
  · rename_i hm
    split at hs
    · cases hs
      exact h.quiet h.reach h.only rfl rfl rfl h.last (fun _ => (by simp)) (fun _ => (by simp)) (fun _ => rfl) (fun _ _ _ => rfl) rfl
    · split at hs
      · cases hs
      · rename_i v hv
        cases hs
        obtain ⟨g1, g2, g3⟩ := h.close hv
        refine h.quiet g1 ?_ g3 rfl rfl ?_ (fun _ => (by simp)) (fun _ => (by simp)) ?_ (fun _ _ _ => rfl) rfl
        · intro x p g
          have g : v.calls.get? x = some p := g
          rw [g2] at g
          exact h.only x p g
        · intro r o g
          have := h.last r o g
          rw [← g3] at this
          exact this
        · intro g; rw [hm] at g; cases g
  · cases hs

theorem IInv.cancelled {c : DatasetCfg} {now : Int} {d d' : DataIter} (h : IInv c now d) (hs : d.cancelled = some d') : IInv c now d' := by
  unfold DataIter.cancelled at hs
  split at hs
  · cases hs
    exact h.quiet h.reach h.only rfl rfl rfl h.last (fun _ => (by simp)) (fun _ => (by simp)) (fun _ => rfl) (fun _ _ _ => rfl) rfl
  · cases hs

/-- A step of the sampler that is not a call, a return or `Close`. -/
theorem IInv.other {c : DatasetCfg} {now : Int} {d : DataIter} (h : IInv c now d) {e : ClientSampler.Event} {v : ClientSampler}
    (hf : ClientSampler.Faithful d.sampler e) (h1 : ∀ x k, e ≠ .call x k) (h2 : e ≠ .close) (h3 : e ≠ .finish 0)
    (hs : ClientSampler.step c.sampler d.sampler e = some v) (ms : List Bool) :
    IInv c now { d with sampler := v, messages := ms, limiter := newLimiter d e v } := by
  obtain ⟨sevs, hreach⟩ := h.reach
  have hser : ClientSampler.Serial d.sampler e := by
    cases e with
    | call x k => exact absurd rfl (h1 x k)
    | _ => trivial
  have hreach' := hreach.step (⟨hf, hser, fun x k' g => absurd g (h1 x k')⟩) hs
  have hfin : ∀ x, e = .finish x → d.sampler.calls.get? x = none := by
    intro x he
    cases hx : d.sampler.calls.get? x with
    | none => rfl
    | some p => exact absurd (he.trans (by rw [(h.only x p hx).1])) h3
  have hlog : v.log = d.sampler.log := by
    rcases (ClientSampler.Eff.step hs).log with g | ⟨x, o, he, _, _, hr, _⟩
    · exact g
    · exfalso
      have := hfin x he
      rcases hr with ⟨_, _, g, _⟩ | ⟨s, g, _⟩ | ⟨s, g, _⟩ | ⟨s, g, _⟩ <;> rw [this] at g <;> cases g
  have hcl : v.closed = d.sampler.closed := by
    have := (ClientSampler.Eff.step hs).kept h2
    exact this
  refine h.quiet ⟨_, hreach'⟩ ?_ hlog rfl rfl ?_ h.late ?_ id (fun i o ho => newLimiter_keep h ho) rfl
  · intro x p g
    have g : v.calls.get? x = some p := g
    have hset : ∀ y q q', d.sampler.calls.get? y = some q' → v.calls = d.sampler.calls.insert y q → x = 0 ∧ ∃ r, d.phase = .calling r := by
      intro y q q' hy e
      rw [e, AMap.get?_insert] at g
      split at g
      · rename_i hxy
        rw [hxy]
        exact h.only y q' hy
      · exact h.only x p g
    cases ClientSampler.Flow.step hs hreach.holds with
    | quiet q => rw [q.calls] at g; exact h.only x p g
    | push i s _ _ q => rw [q] at g; exact h.only x p g
    | call x k' he => exact absurd he (h1 x k')
    | failed y k' t he hx _ _ _ q => exact hset y _ _ hx q
    | pop y k' t s he hx _ _ _ q => exact hset y _ _ hx q
    | fail y k' st he hx => rw [hfin y he] at hx; cases hx
    | sample y k' s o he hx => rw [hfin y he] at hx; cases hx
    | timestep y s s' o he hx => rw [hfin y he] at hx; cases hx
  · intro r o g
    have := h.last r o g
    rw [← hlog] at this
    exact this
  · intro g
    exact h.closed (hcl ▸ g)

theorem inside_other {c : DatasetCfg} {d d' : DataIter} {e : ClientSampler.Event} {m : Bool} (hs : d.inside c e m = some d') :
    e = .finish 0 ∨ (∀ x k, e ≠ .call x k) ∧ e ≠ .close ∧ e ≠ .finish 0 ∧ ∃ v, ClientSampler.step c.sampler d.sampler e = some v ∧
      d' = { d with sampler := v, messages := (match messageOf e m with
          | some (i, m) => d.messages.set i m
          | none => d.messages), limiter := newLimiter d e v } := by
  by_cases hf : e = .finish 0
  · exact .inl hf
  · right
    unfold DataIter.inside at hs
    split at hs
    · cases hs
    · cases hs
    · exact absurd rfl hf
    · rename_i h1 h2 h3
      split at hs
      · cases hs
      · rename_i v hv
        cases hs
        exact ⟨h1, h2, h3, v, hv, rfl⟩

theorem finish_inside {c : DatasetCfg} {d d' : DataIter} {m : Bool} (hs : d.inside c (.finish 0) m = some d') :
    ∃ r v, d.phase = .calling r ∧ ClientSampler.step c.sampler d.sampler (.finish 0) = some v ∧
      ((v.log.getLast? = none ∨ v.dead = true) ∧ d' = { d with sampler := v } ∨
        ∃ o, v.log.getLast? = some o ∧ v.dead = false ∧ d' = { d with sampler := v, phase := .leaving r o }) := by
  simp only [DataIter.inside] at hs
  split at hs
  · rename_i r hp
    split at hs
    · cases hs
    · rename_i v hv
      refine ⟨r, v, hp, hv, ?_⟩
      split at hs
      · rename_i g
        cases hs
        exact .inl ⟨.inl g, rfl⟩
      · rename_i o g
        cases hs
        cases hd : v.dead with
        | true => exact .inl ⟨.inr rfl, by simp⟩
        | false => exact .inr ⟨o, g, rfl, by simp⟩
  · cases hs

/-- The call of the sampler returns, or the process dies. -/
theorem IInv.finish {c : DatasetCfg} {now : Int} {d d' : DataIter} (h : IInv c now d) {m : Bool}
    (hs : d.inside c (.finish 0) m = some d') : IInv c now d' := by
  obtain ⟨r, v, hp, hv, hc⟩ := finish_inside hs
  obtain ⟨sevs, hreach⟩ := h.reach
  have hreach' := hreach.step (e := .finish 0) (⟨trivial, trivial, fun x k' g => by cases g⟩) hv
  have hcalls : ∀ x p, v.calls.get? x = some p → d.sampler.calls.get? x = some p ∧ v.log = d.sampler.log := by
    intro x p g
    have herase : v.calls = d.sampler.calls.erase 0 → False := by
      intro e
      rw [e, AMap.get?_erase] at g
      split at g
      · cases g
      · rename_i hx
        exact hx (h.only x p g).1
    cases ClientSampler.Flow.step hv hreach.holds with
    | quiet q => exact ⟨q.calls ▸ g, q.log⟩
    | push i s _ _ q q' => exact ⟨q ▸ g, q'⟩
    | call x k' he => cases he
    | failed y k' t he => cases he
    | pop y k' t s he => cases he
    | fail y k' st he _ _ _ q => cases he; exact (herase q).elim
    | sample y k' s o he _ _ _ _ q => cases he; exact (herase q).elim
    | timestep y s s' o he _ _ _ _ _ q => cases he; exact (herase q).elim
  have hcl : v.closed = d.sampler.closed := (ClientSampler.Eff.step hv).kept (by simp)
  have hlogs := ClientSampler.finish_logs hv (fun s => hreach.holds 0 s)
  rcases hc with ⟨hc, rfl⟩ | ⟨o, hlast, hd, rfl⟩
  · have hlog : v.log = d.sampler.log := by
      rcases (ClientSampler.Eff.step hv).log with g | ⟨x, o, _, g, hd, _⟩
      · exact g
      · rcases hc with q | q
        · rw [g] at q; simp at q
        · rw [hd] at q; cases q
    refine h.quiet ⟨_, hreach'⟩ ?_ hlog rfl rfl ?_ h.late ?_ id (fun _ _ _ => rfl) rfl
    · intro x p g
      exact h.only x p (hcalls x p g).1
    · intro r' o g
      rw [show d.phase = _ from g] at hp; cases hp
    · intro g; exact h.closed (hcl ▸ g)
  · obtain ⟨o', hlog⟩ : ∃ o, v.log = d.sampler.log ++ [o] := by
      rcases hlogs with g | g
      · rw [hd] at g; cases g
      · exact g
    have ho : o' = o := by
      rw [hlog] at hlast
      simpa using hlast
    subst ho
    have hl0 : d.sampler.log.length = d.log.length := by
      have := h.len
      rw [hp] at this
      exact this
    have hold : ∀ (i : Nat) o io, v.log[i]? = some o → d.log[i]? = some io → d.sampler.log[i]? = some o := by
      intro i o io g g'
      rw [hlog] at g
      have : i < d.sampler.log.length := by
        have := (List.getElem?_eq_some_iff.mp g').1
        omega
      rw [List.getElem?_append_left this] at g
      exact g
    refine ⟨⟨_, hreach'⟩, ?_, ?_, ?_, ?_, ?_, ?_, ?_, ?_⟩
    · intro x p g
      have := (hcalls x p g).2
      rw [hlog] at this
      simp at this
    · show v.log.length = d.log.length + 1
      rw [hlog, List.length_append, hl0]; rfl
    · intro r' o g
      cases g
      exact hlast
    · intro g
      have hr : r = false := by
        rcases g with g | g | ⟨o, g⟩ <;> cases g
        rfl
      exact h.late (.inr (.inl (by rw [hp, hr])))
    · intro g
      exact h.closed (hcl ▸ g)
    · intro i o io g g'
      exact h.log i o io (hold i o io g g') g'
    · exact h.step
    · intro n hk a io b o g ha go
      refine h.count n hk a io b o g ha (hold _ o io go ?_)
      show d.log[a.length]? = _
      rw [show d.log = _ from g]
      simp

/-- What `leave` does. -/
theorem leave_cases {c : DatasetCfg} {d d' : DataIter} (hs : d.leave c = some d') : ∃ r o, d.phase = .leaving r o ∧
    ∃ io s n, d' = { d with phase := .idle, log := d.log ++ [io], step := s, callbacks := n } ∧
    ((∃ l, c.kind = .reverb true l ∧ BadLength l (d.step + 1) o ∧ io = .error .invalidArgument) ∨
      (∀ l, c.kind = .reverb true l → ¬ BadLength l (d.step + 1) o ∧ s = if lastTimestep o then 0 else d.step + 1) ∧
      (io = shown c d.limiter o ∧ (r = true → d.manager = .no) ∨ io = .error .cancelled ∧ d.manager = .done ∧ r = true)) := by
  have hdep : ∀ {d0 d' : DataIter} {r : Bool} {o : SampleOut}, depart c d0 r o = some d' →
      ∃ io n, d' = { d0 with phase := .idle, log := d0.log ++ [io], callbacks := n } ∧
        (io = shown c d0.limiter o ∧ (r = true → d0.manager = .no) ∨ io = .error .cancelled ∧ d0.manager = .done ∧ r = true) := by
    intro d0 d' r o h
    unfold depart at h
    split at h
    · rename_i hr
      split at h
      · rename_i hm
        cases h
        exact ⟨_, _, rfl, .inl ⟨rfl, fun _ => hm⟩⟩
      · cases h
      · rename_i hm
        cases h
        exact ⟨_, _, rfl, .inr ⟨rfl, hm, hr⟩⟩
    · rename_i hr
      cases h
      exact ⟨_, _, rfl, .inl ⟨rfl, fun g => absurd g hr⟩⟩
  unfold DataIter.leave at hs
  split at hs
  · rename_i r o hp
    refine ⟨r, o, hp, ?_⟩
    split at hs
    · rename_i l hk
      simp only at hs
      split at hs
      · rename_i hb
        cases hs
        exact ⟨_, _, d.callbacks, rfl, .inl ⟨l, hk, .inl hb, rfl⟩⟩
      · rename_i hb
        split at hs
        · rename_i hb'
          cases hs
          exact ⟨_, _, d.callbacks, rfl, .inl ⟨l, hk, .inr hb', rfl⟩⟩
        · rename_i hb'
          obtain ⟨io, n, rfl, h⟩ := hdep hs
          refine ⟨io, _, n, rfl, .inr ⟨?_, h⟩⟩
          intro l' hl
          rw [hk] at hl
          cases hl
          refine ⟨?_, rfl⟩
          rintro (g | g)
          · exact hb g
          · exact hb' g
    · rename_i hk
      obtain ⟨io, n, rfl, h⟩ := hdep hs
      refine ⟨io, d.step, n, rfl, .inr ⟨?_, h⟩⟩
      intro l hl
      exact absurd hl (hk l)
  · cases hs

theorem shown_element {c : DatasetCfg} {lim : Bool} {o : SampleOut} (h : (shown c lim o).isElement = true) :
    shown c lim o = .element o := by
  cases o with
  | error e =>
    simp only [shown] at h
    split at h <;> cases h
  | _ => rfl

/-- A call of the iterator returns. -/
theorem IInv.leave {c : DatasetCfg} {now : Int} {d d' : DataIter} (h : IInv c now d) (hs : d.leave c = some d') : IInv c now d' := by
  obtain ⟨r, o, hp, io, s, n, rfl, hc⟩ := leave_cases hs
  have hlast := h.last r o hp
  have hlen : d.sampler.log.length = d.log.length + 1 := by
    have := h.len
    rw [hp] at this
    exact this
  have ho : d.sampler.log[d.log.length]? = some o := by
    rw [List.getLast?_eq_getElem?, hlen] at hlast
    exact hlast
  have hres : (∀ l, c.kind = .reverb true l → ¬ BadLength l (d.step + 1) o) ∧ Result c d o io ∨
      (∃ l, c.kind = .reverb true l ∧ BadLength l (d.step + 1) o) ∧ io = .error .invalidArgument := by
    rcases hc with ⟨l, h1, h2, h3⟩ | ⟨h1, h2⟩
    · exact .inr ⟨⟨l, h1, h2⟩, h3⟩
    · refine .inl ⟨fun l hl => (h1 l hl).1, ?_⟩
      rcases h2 with ⟨h2, _⟩ | ⟨h2, h3, _⟩
      · exact .inl h2
      · exact .inr ⟨h2, h3⟩
  refine ⟨h.reach, ?_, ?_, ?_, ?_, h.closed, ?_, ?_, ?_⟩
  · intro x p g
    obtain ⟨_, r', q⟩ := h.only x p g
    rw [hp] at q; cases q
  · show d.sampler.log.length = (d.log ++ [io]).length + 0
    rw [hlen, List.length_append]; rfl
  · intro r o g; cases g
  · intro g
    rcases g with g | g | ⟨o, g⟩ <;> cases g
  · intro i o' io' g g'
    have g' : (d.log ++ [io])[i]? = some io' := g'
    rw [List.getElem?_append] at g'
    split at g'
    · exact h.log i o' io' g g'
    · rename_i hi
      have hi : i = d.log.length := by
        have := (List.getElem?_eq_some_iff.mp g').1
        simp at this
        omega
      subst hi
      simp only [Nat.sub_self, List.getElem?_cons_zero, Option.some.injEq] at g'
      subst g'
      rw [show d.sampler.log[d.log.length]? = some o' from g] at ho
      cases ho
      rcases hres with ⟨_, q⟩ | ⟨⟨l, q, _⟩, q'⟩
      · exact .inl q
      · exact .inr ⟨q', l, q⟩
  · intro l hk ha
    have ha : ∀ o ∈ d.log ++ [io], o.isElement = true := ha
    show s = (sinceLast (d.log ++ [io]) : Int)
    have hprev := h.step l hk (fun o ho => ha o (List.mem_append_left _ ho))
    have hio := ha io (List.mem_append_right _ (List.mem_singleton.mpr rfl))
    rcases hc with ⟨_, _, _, h3⟩ | ⟨h1, h2⟩
    · rw [h3] at hio; cases hio
    · rcases h2 with ⟨h2, _⟩ | ⟨h2, _⟩
      · rw [h2] at hio
        rw [(h1 l hk).2, sinceLast_append, h2, shown_element hio, hprev]
        have hk' : lastTimestep o = o.complete := by
          obtain ⟨sevs, hr⟩ := h.reach
          cases o with
          | timestep a b => rfl
          | error e => simp only [shown] at hio; split at hio <;> cases hio
          | batched a b =>
            have := hr.kinds.2 _ (List.mem_of_getElem? ho) _ _ rfl
            rw [hk] at this; cases this
          | trajectory a =>
            have := hr.kinds.2 _ (List.mem_of_getElem? ho) _ _ rfl
            rw [hk] at this; cases this
        rw [hk']
        show _ = (((if o.complete = true then 0 else sinceLast d.log + 1 : Nat)) : Int)
        split <;> simp
      · rw [h2] at hio; cases hio
  · intro l hk a io' b o' g ha go
    have g : d.log ++ [io] = a ++ io' :: b := g
    rcases List.eq_nil_or_concat b with hb | ⟨b', z, hb⟩
    · subst hb
      obtain ⟨g1, g2⟩ := List.append_inj' g rfl
      cases g2
      subst g1
      rw [show d.sampler.log[d.log.length]? = some o' from go] at ho
      cases ho
      have hst := h.step l hk ha
      rw [← hst]
      rcases hres with ⟨q, q'⟩ | ⟨⟨l', q, q1⟩, q'⟩
      · exact ⟨fun g => absurd g (q l hk), fun _ => q'⟩
      · rw [hk] at q
        cases q
        exact ⟨fun _ => q', fun g => absurd q1 g⟩
    · subst hb
      have g : d.log ++ [io] = (a ++ io' :: b') ++ [z] := by simpa using g
      obtain ⟨g1, _⟩ := List.append_inj' g rfl
      exact h.count l hk a io' b' o' g1 ha go

theorem IInv.move {c : DatasetCfg} {now : Int} {d d' : DataIter} {e : Event} (h : IInv c now d) (hh : Honest d e)
    (hs : DataIter.move c d e = some d') : IInv c now d' := by
  cases e with
  | next => exact h.next hs
  | closed => exact h.closedStep hs
  | cancel => exact h.cancel hs
  | cancelled => exact h.cancelled hs
  | inside e m =>
    rcases inside_other hs with rfl | ⟨h1, h2, h3, v, hv, rfl⟩
    · exact h.finish (m := m) hs
    · exact h.other hh h1 h2 h3 hv _
  | leave =>
    simp only [DataIter.move] at hs
    split at hs
    · cases hs
    · exact h.leave hs

theorem Reach.inv {c : DatasetCfg} {now : Int} {evs : List Event} {d : DataIter} (h : Reach c now evs d) : IInv c now d := by
  induction h with
  | init => exact .init c now
  | step _ hh hs ih => exact ih.move hh hs

end DataIter
end Verif
