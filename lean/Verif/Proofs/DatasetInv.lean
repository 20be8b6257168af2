import Verif.Proofs.Dataset
/-
The iterators of the dataset ops: invariant of runs.
-/
namespace Verif
namespace ClientSampler

/-- Calls of one kind, one after the other. -/
def Used (k : SampleCall) (v : ClientSampler) (e : Event) : Prop :=
  Faithful v e ∧ Serial v e ∧ ∀ x k', e = .call x k' → k' = k

theorem Reach.mono {c : SamplerCfg} {now : Int} {P Q : ClientSampler → Event → Prop} (hPQ : ∀ v e, P v e → Q v e) {evs : List Event}
    {v : ClientSampler} (h : Reach c now P evs v) : Reach c now Q evs v := by
  induction h with
  | init => exact .init
  | step _ hp hs ih => exact ih.step (hPQ _ _ hp) hs

/-- The kind of a call. -/
def _root_.Verif.CallPhase.kind : CallPhase → SampleCall
  | .popping k _ => k
  | .failed k => k
  | .holding k _ => k
  | .stepping => .timestep

theorem Reach.kinds {c : SamplerCfg} {now : Int} {k : SampleCall} {evs : List Event} {v : ClientSampler}
    (h : Reach c now (Used k) evs v) : (∀ x p, v.calls.get? x = some p → p.kind = k) ∧
    ∀ o ∈ v.log, ∀ k' data, o.data? = some (k', data) → k' = k := by
  induction h with
  | init => exact ⟨fun x p g => (by cases g), fun o ho => (by cases ho)⟩
  | @step evs e v0 v h0 hP hs ih =>
    obtain ⟨ih1, ih2⟩ := ih
    refine ⟨?_, ?_⟩
    · have hsame : v.calls = v0.calls → ∀ x p, v.calls.get? x = some p → p.kind = k := fun e x p g => ih1 x p (e ▸ g)
      have hset : ∀ y q, v.calls = v0.calls.insert y q → q.kind = k → ∀ x p, v.calls.get? x = some p → p.kind = k := by
        intro y q e hq x p g
        rw [e, AMap.get?_insert] at g
        split at g
        · cases g; exact hq
        · exact ih1 x p g
      have herase : ∀ y, v.calls = v0.calls.erase y → ∀ x p, v.calls.get? x = some p → p.kind = k := by
        intro y e x p g
        rw [e, AMap.get?_erase] at g
        split at g
        · cases g
        · exact ih1 x p g
      cases Flow.step hs h0.holds with
      | quiet q => exact hsame q.calls
      | push i s _ _ q => exact hsame q
      | call x k' he _ _ _ _ _ q =>
        have := hP.2.2 x k' he
        refine hset _ _ q ?_
        split
        · rename_i g
          rw [← this, g.1]; rfl
        · exact this
      | failed x k' t he hx _ _ _ q => exact hset _ _ q (ih1 x (.popping k' t) hx)
      | pop x k' t s he hx _ _ _ q =>
        refine hset _ _ q ?_
        have := ih1 x _ hx
        split
        · rename_i g
          rw [← this]; exact g.symm
        · exact this
      | fail x k' st he hx _ _ q => exact herase _ q
      | sample x k' s o he hx _ _ _ q => exact herase _ q
      | timestep x s s' o he hx _ _ _ _ q => exact herase _ q
    · intro o ho k' data hd
      rcases (Eff.step hs).log with g | ⟨x, o', he, hlog, _, hr, _⟩
      · exact ih2 o (g ▸ ho) k' data hd
      · rw [hlog] at ho
        rcases List.mem_append.mp ho with g | g
        · exact ih2 o g k' data hd
        · simp only [List.mem_singleton] at g
          subst g
          rcases hr with ⟨_, _, _, _, ho⟩ | hr
          · subst ho; cases hd
          · rcases hr with ⟨s, hx, ⟨e, _, g2⟩ | ⟨n, cols, _, ⟨e, _, g2⟩ | ⟨_, g2⟩⟩⟩ |
              ⟨s, hx, ⟨e, _, g2⟩ | ⟨cols, _, ⟨e, _, g2⟩ | ⟨_, g2⟩⟩⟩ |
              ⟨s, hx, _, ⟨e, _, g2⟩ | ⟨rows, last, s', _, ⟨e, _, g2⟩ | ⟨_, g2⟩⟩⟩ <;> (subst g2; cases hd)
            · exact ih1 x _ hx
            · exact ih1 x _ hx
            · exact ih1 x _ hx

end ClientSampler

namespace DataIter
open ClientSampler (Used)

theorem sinceLast_append (l : List IterOut) (o : IterOut) : sinceLast (l ++ [o]) = if o.endsSample then 0 else sinceLast l + 1 := by
  unfold sinceLast
  simp only [List.reverse_append, List.reverse_cons, List.reverse_nil, List.nil_append, List.singleton_append, List.takeWhile_cons]
  cases o.endsSample <;> simp

/-- How the result of a call comes from that of the sampler. -/
def Result (c : DatasetCfg) (d : DataIter) (o : SampleOut) (io : IterOut) : Prop :=
  io = shown c d.limiter o ∨ io = .error .cancelled ∧ d.manager = .done

/-- The checks of dataset.cc:357-367 fail. -/
def BadLength (length : Int) (s : Int) (o : SampleOut) : Prop :=
  (lastTimestep o = true ∧ 0 < length ∧ s ≠ length) ∨ (s = length ∧ lastTimestep o = false)

/-- The number of calls whose result the sampler has returned and the iterator has not. -/
def pending : IterPhase → Nat
  | .leaving _ _ => 1
  | _ => 0

structure IInv (c : DatasetCfg) (now : Int) (d : DataIter) : Prop where
  reach : ∃ sevs, ClientSampler.Reach c.sampler now (Used c.kind.call) sevs d.sampler
  only : ∀ x p, d.sampler.calls.get? x = some p → x = 0 ∧ ∃ r, d.phase = .calling r
  len : d.sampler.log.length = d.log.length + pending d.phase
  last : ∀ r o, d.phase = .leaving r o → d.sampler.log.getLast? = some o
  late : d.phase = .closing ∨ d.phase = .calling false ∨ (∃ o, d.phase = .leaving false o) → d.manager ≠ .no
  closed : d.sampler.closed = true → d.manager ≠ .no
  log : ∀ (i : Nat) o io, d.sampler.log[i]? = some o → d.log[i]? = some io →
    Result c d o io ∨ io = .error .invalidArgument ∧ ∃ n, c.kind = .reverb true n
  step : ∀ n, c.kind = .reverb true n → (∀ o ∈ d.log, o.isElement = true) → d.step = sinceLast d.log
  count : ∀ n, c.kind = .reverb true n → ∀ (a : List IterOut) io b o, d.log = a ++ io :: b → (∀ o ∈ a, o.isElement = true) →
    d.sampler.log[a.length]? = some o →
    (BadLength n (sinceLast a + 1) o → io = .error .invalidArgument) ∧ (¬ BadLength n (sinceLast a + 1) o → Result c d o io)

theorem IInv.init (c : DatasetCfg) (now : Int) : IInv c now (init c now) where
  reach := ⟨[], .init⟩
  only := fun x p g => (by cases g)
  len := rfl
  last := fun r o g => (by cases g)
  late := fun g => (by rcases g with g | g | ⟨o, g⟩ <;> cases g)
  closed := fun g => (by cases g)
  log := fun i o io g => (by simp [DataIter.init, ClientSampler.init] at g)
  step := fun n _ _ => rfl
  count := fun n _ a io b o g => (by simp [DataIter.init] at g)

/-- A step that leaves the results alone. -/
theorem IInv.quiet {c : DatasetCfg} {now : Int} {d d' : DataIter} (h : IInv c now d)
    (reach : ∃ sevs, ClientSampler.Reach c.sampler now (Used c.kind.call) sevs d'.sampler)
    (only : ∀ x p, d'.sampler.calls.get? x = some p → x = 0 ∧ ∃ r, d'.phase = .calling r)
    (hlog : d'.sampler.log = d.sampler.log) (hlog' : d'.log = d.log) (hp : pending d'.phase = pending d.phase)
    (last : ∀ r o, d'.phase = .leaving r o → d'.sampler.log.getLast? = some o)
    (late : d'.phase = .closing ∨ d'.phase = .calling false ∨ (∃ o, d'.phase = .leaving false o) → d'.manager ≠ .no)
    (closed : d'.sampler.closed = true → d'.manager ≠ .no) (hm : d.manager = .done → d'.manager = .done)
    (hlim : ∀ (i : Nat) o, d.sampler.log[i]? = some o → shown c d'.limiter o = shown c d.limiter o) (hstep : d'.step = d.step) :
    IInv c now d' := by
  have hres : ∀ (i : Nat) o io, d.sampler.log[i]? = some o → Result c d o io → Result c d' o io := by
    intro i o io g r
    rcases r with r | ⟨r, r'⟩
    · exact .inl (by rw [hlim i o g]; exact r)
    · exact .inr ⟨r, hm r'⟩
  refine ⟨reach, only, ?_, last, late, closed, ?_, ?_, ?_⟩
  · rw [hlog, hlog', hp]; exact h.len
  · intro i o io g g'
    rw [hlog] at g
    rw [hlog'] at g'
    rcases h.log i o io g g' with q | q
    · exact .inl (hres i o io g q)
    · exact .inr q
  · intro n hk ha
    rw [hlog'] at ha ⊢
    rw [hstep]
    exact h.step n hk ha
  · intro n hk a io b o g ha go
    rw [hlog'] at g
    rw [hlog] at go
    have := h.count n hk a io b o g ha go
    exact ⟨this.1, fun g => hres _ _ _ go (this.2 g)⟩

end DataIter
end Verif
