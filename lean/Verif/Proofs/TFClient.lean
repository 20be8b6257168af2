import Verif.Spec.TFClient
import Verif.Props.C69_SampleOrder
import Verif.Proofs.PyUnion
/-
One run of the op.
-/
namespace Verif
namespace TFSample
open ClientSampler

/-- What a run of the op comes to. -/
structure Inv (v : ClientSampler) : Prop where
  queue : ∀ s ∈ v.queue, s ∈ v.arrived
  calls : ∀ x p, v.calls.get? x = some p → isStep p = true
  log : (v.log = [] ∧ ∀ s, v.active = some s → s ∈ v.arrived) ∨ (∃ o, v.log = [o] ∧ (∀ x, v.calls.get? x = none) ∧
    ((∃ e, o = .error e) ∨ ∃ rows last s s', o = .timestep rows last ∧ s ∈ v.arrived ∧ s.deliver = .ok (rows, last, s') ∧ v.active = some s'))

theorem Run.inv {c : SamplerCfg} (hc : c.Valid) {now : Int} {evs : List Event} {v : ClientSampler} (h : Run c now evs v) : Inv v := by
  unfold Run at h
  induction h with
  | init => exact ⟨(by intro s h; cases h), (by intro x p g; cases g), .inl ⟨rfl, (by intro s g; cases g)⟩⟩
  | @step evs e v0 v h0 hP hs ih =>
    have hd : v0.dead = false := by
      unfold ClientSampler.step at hs
      split at hs
      · cases hs
      · rename_i g
        simpa using g
    have hinv := h0.inv hc (fun _ _ g => g.1) hd
    have honly : ∀ {x p y q}, v0.calls.get? x = some p → v0.calls.get? y = some q → y = x := by
      intro x p y q hx hy
      have h1 := hinv.excl (AMap.count_pos hx (ih.calls x p hx))
      have h2 := AMap.count_erase_true isCall hx rfl
      by_cases hxy : y = x
      · exact hxy
      · exfalso
        have : 0 < (v0.calls.erase x).count isCall := AMap.count_pos (x := y) (a := q) (by rw [AMap.get?_erase, if_neg hxy]; exact hy) rfl
        omega
    have hnew : ∀ {x p}, v0.calls.get? x = some p → v0.log = [] ∧ ∀ s, v0.active = some s → s ∈ v0.arrived := by
      intro x p hx
      rcases ih.log with g | ⟨o, _, g, _⟩
      · exact g
      · rw [g x] at hx
        cases hx
    have hgone : ∀ {x p}, v0.calls.get? x = some p → v.calls = v0.calls.erase x → ∀ y, v.calls.get? y = none := by
      intro x p hx he y
      cases hy : v.calls.get? y with
      | none => rfl
      | some q =>
        rw [he] at hy
        obtain ⟨hne, g⟩ := get_erase hy
        exact absurd (honly hx g) hne
    have same : ∀ {w : ClientSampler}, w.pushed = v0.pushed → w.arrived = v0.arrived := by
      intro w hw
      unfold ClientSampler.arrived
      rw [hw]
    cases Flow.step hs h0.holds with
    | quiet q =>
      obtain ⟨a, b, d⟩ := ih
      exact ⟨by rw [q.queue, same q.pushed]; exact a, by rw [q.calls]; exact b, by rw [q.log, q.calls, q.active, same q.pushed]; exact d⟩
    | push i s q1 q2 q3 q4 q5 q6 =>
      have hsub : ∀ t ∈ v0.arrived, t ∈ v.arrived := by
        intro t ht
        unfold ClientSampler.arrived at ht ⊢
        rw [q1, List.map_append]
        exact List.mem_append_left _ ht
      obtain ⟨a, b, d⟩ := ih
      refine ⟨?_, by rw [q3]; exact b, ?_⟩
      · intro t ht
        rw [q2] at ht
        rcases List.mem_append.mp ht with ht | ht
        · exact hsub t (a t ht)
        · simp only [List.mem_singleton] at ht
          subst ht
          unfold ClientSampler.arrived
          rw [q1]
          simp
      · rw [q4, q3, q5]
        rcases d with ⟨d1, d2⟩ | ⟨o, d1, d2, d3⟩
        · exact .inl ⟨d1, fun t ht => hsub t (d2 t ht)⟩
        · refine .inr ⟨o, d1, d2, ?_⟩
          rcases d3 with d3 | ⟨rows, last, t, t', e1, e2, e3, e4⟩
          · exact .inl d3
          · exact .inr ⟨rows, last, t, t', e1, hsub t e2, e3, e4⟩
    | call x k he q0 qt _ q1 q2 q3 q4 q5 =>
      obtain ⟨a, b, d⟩ := ih
      have hk : k = .timestep ∧ v0.log = [] := by
        have := hP.2
        rw [he] at this
        exact this
      refine ⟨by rw [q2, same q1]; exact a, ?_, ?_⟩
      · intro y p hy
        rw [q3] at hy
        rcases get_insert hy with ⟨_, g⟩ | ⟨_, g⟩
        · subst g
          split
          · rfl
          · simp [isStep, hk.1]
        · exact b y p g
      · rw [q4, q5, same q1]
        rcases d with d | ⟨o, d1, _⟩
        · exact .inl d
        · rw [hk.2] at d1
          cases d1
    | failed x k t he q0 _ q1 q2 q3 q4 q5 _ =>
      have hk : k = .timestep := by simpa [isStep] using ih.calls x _ q0
      subst hk
      refine ⟨by rw [q2, same q1]; exact ih.queue, ?_, by rw [q4, q5, same q1]; exact .inl (hnew q0)⟩
      intro y p hy
      rw [q3] at hy
      rcases get_insert hy with ⟨_, g⟩ | ⟨_, g⟩
      · subst g
        rfl
      · exact ih.calls y p g
    | pop x k t s he q0 _ q1 q2 q3 q4 q5 =>
      have hk : k = .timestep := by simpa [isStep] using ih.calls x _ q0
      subst hk
      simp only [if_true] at q3 q5
      refine ⟨?_, ?_, ?_⟩
      · intro t ht
        rw [same q2]
        exact ih.queue t (by rw [q1]; exact List.mem_cons_of_mem _ ht)
      · intro y p hy
        rw [q3] at hy
        rcases get_insert hy with ⟨_, g⟩ | ⟨_, g⟩
        · subst g
          rfl
        · exact ih.calls y p g
      · rw [q4, q5, same q2]
        refine .inl ⟨(hnew q0).1, fun t ht => ?_⟩
        cases ht
        exact ih.queue s (by rw [q1]; exact List.mem_cons_self)
    | fail x k st he q0 q1 q2 q3 q4 q5 =>
      have hg := hgone q0 q3
      refine ⟨by rw [q2, same q1]; exact ih.queue, fun y p hy => ?_, .inr ⟨.error st, by rw [q4, (hnew q0).1]; rfl, hg, .inl ⟨st, rfl⟩⟩⟩
      rw [hg y] at hy
      cases hy
    | sample x k s o he q0 qo q1 q2 q3 q4 q5 =>
      exfalso
      have h1 := ih.calls x _ q0
      have h2 := (hinv.hold x k s q0).1
      simp only [isStep, decide_eq_true_eq] at h1
      exact h2 h1
    | timestep x s s' o he q0 qa qo q1 q2 q3 q4 q5 =>
      have hg := hgone q0 q3
      obtain ⟨n1, n2⟩ := hnew q0
      refine ⟨by rw [q2, same q1]; exact ih.queue, fun y p hy => ?_, .inr ⟨o, by rw [q4, n1]; rfl, hg, ?_⟩⟩
      · rw [hg y] at hy
        cases hy
      · rw [same q1]
        unfold Sample.stepOutcome at qo
        split at qo
        · cases qo
        · cases qo
          exact .inl ⟨_, rfl⟩
        · rename_i rows last t hdel
          split at qo
          · cases qo
            exact .inl ⟨_, rfl⟩
          · cases qo
            exact .inr ⟨rows, last, s, s', rfl, n2 s qa, hdel, q5⟩

theorem deliver_info {s s' : Sample} {rows : List Tensor} {last : Bool} (h : s.deliver = .ok (rows, last, s')) : s'.info = s.info := by
  unfold Sample.deliver at h
  split at h
  · cases h
  · cases h
  · split at h
    · rename_i hn
      cases h
      unfold Sample.nextTimestep at hn
      split at hn
      · cases hn
      · split at hn
        · cases hn
        · cases hn
        · split at hn
          · cases hn
          · cases hn
          · cases hn
            rfl
    · cases h
    · cases h

/-- The sampler of the op. -/
theorem cfg_ok (table : String) (here : Option Table) (sigs : Res Signatures) : ∃ c, cfg table (here.map Table.defaultBatch) sigs = .ok c ∧ c.Valid ∧
    c.max = 1 ∧ c.timeout = none ∧ c.spec = newSamplerSpec sigs table ∧ (here = none → c.source = .grpc table 1 (-1)) := by
  have hv : options.validate = none := by decide
  obtain ⟨c, h1, h2, h3, h4, h5⟩ := C45_options hv table here (newSamplerSpec sigs table)
  refine ⟨c, by simp only [cfg, hv]; exact h1, h2, h5, h4, h3, ?_⟩
  rintro rfl
  have : SamplerCfg.make options table none (newSamplerSpec sigs table) = .ok ⟨1, 10000, 1, 1, none, .grpc table 1 (-1), newSamplerSpec sigs table⟩ := by
    unfold SamplerCfg.make
    simp [options, SamplerOptions.workers, SamplerOptions.max, SamplerOptions.unlimited, autoSelect]
    rfl
  rw [Option.map_none, this] at h1
  cases h1
  rfl

end TFSample
end Verif
