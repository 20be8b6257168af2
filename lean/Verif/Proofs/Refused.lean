import Verif.Spec.Refused
import Verif.Proofs.EndToEndSteps
import Verif.Proofs.WriterSig
import Verif.Proofs.WriterFlow
import Verif.Props.C69_SampleOrder
import Verif.Props.C111_TrajSig
/-
For C115.
-/
namespace Verif

/-! ### The old writer keeps the signatures -/

namespace Writer

theorem core_sigs {w w' : Writer} (h : w'.core = w.core) : w'.sigs = w.sigs := by show w'.core.sigs = w.core.sigs; rw [h]

theorem finish_sigs (w : Writer) (retry : Bool) (as : List Answer) : (w.finish retry as).1.sigs = w.sigs := by
  unfold finish
  cases w.makeChunk with
  | died => rfl
  | err e => rfl
  | ok ch =>
    dsimp only
    have h1 := core_sigs (writeWithRetries_core { w with chunks := w.chunks ++ [ch] } retry as)
    obtain ⟨⟨w1, r1, as1⟩, he⟩ : ∃ x, writeWithRetries { w with chunks := w.chunks ++ [ch] } retry as = x := ⟨_, rfl⟩
    rw [he] at h1 ⊢
    have h1 : w1.sigs = w.sigs := h1
    cases r1 with
    | blocked => exact h1
    | died => exact h1
    | ret r => cases r <;> exact h1

theorem closeStream_sigs (w : Writer) (as : List Answer) : (w.closeStream as).1.sigs = w.sigs := by
  unfold closeStream
  split
  · rfl
  · have h1 := core_sigs (confirmItems_quiet 0 as { w with half := true }).core
    obtain ⟨⟨w1, r1, as1⟩, he⟩ : ∃ x, confirmItems 0 as { w with half := true } = x := ⟨_, rfl⟩
    rw [he] at h1 ⊢
    have h1 : w1.sigs = w.sigs := h1
    cases r1 with
    | blocked => exact h1
    | died => exact h1
    | ret b =>
      dsimp only
      have h2 := core_sigs (stopWorker_quiet w1 as1).core
      obtain ⟨⟨w2, r2, as2⟩, he2⟩ : ∃ x, w1.stopWorker as1 = x := ⟨_, rfl⟩
      rw [he2] at h2 ⊢
      replace h2 : w2.sigs = w.sigs := Eq.trans h2 h1
      cases r2 with
      | blocked => exact h2
      | died => exact h2
      | ret o =>
        cases as2 with
        | nil => exact h2
        | cons a as3 => cases a <;> exact h2

theorem call_sigs (w : Writer) (c : Call) (as : List Answer) : (w.call c as).1.sigs = w.sigs := by
  cases c with
  | append data =>
    show (w.append data as).1.sigs = _
    unfold append
    split
    · rfl
    split
    · rfl
    split
    · rfl
    split
    · rfl
    have h1 := finish_sigs (w.push data) true as
    obtain ⟨⟨w1, r1, as1⟩, he⟩ : ∃ x, (w.push data).finish true as = x := ⟨_, rfl⟩
    rw [he] at h1 ⊢
    have h1 : w1.sigs = w.sigs := h1
    cases r1 with
    | blocked => exact h1
    | died => exact h1
    | ret r => cases r <;> exact h1
  | createItem table n p =>
    show (w.createItem table n p as).1.sigs = _
    unfold createItem
    split
    · rfl
    split
    · rfl
    split
    · rfl
    cases w.checkSignature table n.toNat with
    | err e => rfl
    | died => rfl
    | ok u =>
      dsimp only
      cases w.trajectory n with
      | none => rfl
      | some traj =>
        dsimp only
        split
        · have h1 := core_sigs (writeWithRetries_core (w.pushItem table p traj) true as)
          obtain ⟨⟨w1, r1, as1⟩, he⟩ : ∃ x, (w.pushItem table p traj).writeWithRetries true as = x := ⟨_, rfl⟩
          rw [he] at h1 ⊢
          have h1 : w1.sigs = w.sigs := h1
          cases r1 with
          | blocked => exact h1
          | died => exact h1
          | ret r => cases r <;> exact h1
        · rfl
  | flush =>
    show (w.flush as).1.sigs = _
    unfold flush
    split
    · rfl
    split
    · exact finish_sigs w true as
    · have h1 := core_sigs (confirmItems_quiet 0 as w).core
      obtain ⟨⟨w1, r1, as1⟩, he⟩ : ∃ x, confirmItems 0 as w = x := ⟨_, rfl⟩
      rw [he] at h1 ⊢
      have h1 : w1.sigs = w.sigs := h1
      cases r1 with
      | blocked => exact h1
      | died => exact h1
      | ret b => cases b <;> exact h1
  | close retry =>
    show (w.close retry as).1.sigs = _
    unfold close
    split
    · rfl
    split
    · exact closeStream_sigs w as
    · have h1 := finish_sigs w retry as
      obtain ⟨⟨w1, r1, as1⟩, he⟩ : ∃ x, w.finish retry as = x := ⟨_, rfl⟩
      rw [he] at h1 ⊢
      have h1 : w1.sigs = w.sigs := h1
      cases r1 with
      | blocked => exact h1
      | died => exact h1
      | ret r =>
        cases r with
        | none => exact Eq.trans (closeStream_sigs w1 as1) h1
        | some e =>
          dsimp only
          split
          · exact Eq.trans (closeStream_sigs w1 as1) h1
          · exact h1

theorem run_sigs : ∀ {evs : List Event} {w w1 : Writer}, w.run evs = some w1 → w1.sigs = w.sigs
  | [], w, w1, h => by
    simp only [run, Option.some.injEq] at h
    rw [h]
  | (c, as) :: evs, w, w1, h => by
    obtain ⟨_, h1, _⟩ := run_cons h
    exact (run_sigs h1).trans (call_sigs w c as)

/-- A call of `CreateItem` that drew a key has found the steps to agree with the signature. -/
theorem drawn_allowed {w w1 : Writer} (hn : w.New) {evs : List Event} (hrun : w.run evs = some w1) {table : String} {n : Nat} {priority : Pri}
    {as : List Answer} (hle : n ≤ (w.history evs).length) (h : (w1.createItem table n priority as).1.drawn = w1.drawn + 1) :
    Signatures.Allow w.sigs table (lastSteps n (w.history evs)) := by
  rw [← run_sigs hrun]
  unfold createItem at h
  split at h
  · exact absurd h (by simp)
  rename_i hc
  split at h
  · exact absurd h (by simp)
  split at h
  · exact absurd h (by simp)
  rename_i hmax
  have hs := checkSignature_iff (ring_of_run hn hrun (by simpa using hc)) hle (by omega) table
  rcases hs.2 with g | g
  · exact hs.1.mp g
  · rw [Int.toNat_natCast, g] at h
    exact absurd h (by simp)

/-- The steps of an item agree with the signature. -/
theorem Use.Asked.fits {u : Use} {table : String} {steps : List Timestep} (h : u.Asked table steps) {sig : List TensorSpec}
    (hk : Knows u.writer.sigs table sig) : ∀ step ∈ steps, step.Fits sig := by
  obtain ⟨it, h1, pre, t, priority, as, post, w1, n, a1, a2, a3, a4, a5, a6, a7, a8⟩ := h
  obtain ⟨m, k1, k2⟩ := hk
  obtain ⟨sig', g1, g2⟩ := drawn_allowed u.new a2 a7 a4 m k1
  rw [← a5, h1, k2] at g1
  cases g1
  rw [a8]
  exact g2 sig rfl

end Writer

/-! ### The trajectory writer -/

namespace TrajWriter

theorem validateColumn_refs {w : TrajWriter} {col : TrajCol} (h : w.validateColumn col = .ok ()) : col.refs ≠ [] := (validateColumn_iff h).2.2.1

/-- What was accepted agrees with the signature. -/
theorem accepted_fits {w : TrajWriter} (hs : w.Started) {pre : List Event} (hv : ∀ e ∈ pre, e.Valid) {t : String} {p : Pri} {cols : List TrajCol}
    {k : Key} (hr : w.replyAt pre (.createItem t p cols) = .ok (.item k)) {values : List (List Tensor)} (hg : w.Gives pre cols values) :
    FitsTable w.sig t cols values ∧ ∀ col ∈ cols, col.refs ≠ [] := by
  have hr' := hr
  simp only [replyAt, handle] at hr'
  unfold createItem at hr'
  split at hr'
  · simp [Reply.of] at hr'
  rename_i hall
  have hne0 : cols ≠ [] := by
    intro h0
    subst h0
    simp at hall
  cases hu : (w.run pre).unrecoverable with
  | some e => simp [hu, Reply.of] at hr'
  | none =>
    simp only [hu] at hr'
    cases hvc : (w.run pre).validateColumns cols with
    | err e => simp [hvc, Reply.of] at hr'
    | died => simp [hvc, Reply.of] at hr'
    | ok x =>
      have hne : ∀ col ∈ cols, col.refs ≠ [] := fun col hcol => validateColumn_refs (validateColumns_alive hvc col hcol)
      exact ⟨((C111_partial hs hv hu hne0 hne ⟨hg.length, hg.names⟩).1.mp ⟨k, hr⟩).2.2.2, hne⟩

/-- What is read back agrees with the signature. -/
theorem readsBack_agrees {cols : List TrajCol} {values : List (List Tensor)} {out : List Tensor} (h : ReadsBack cols values out)
    {w : TrajWriter} {pre : List Event} (hg : w.Gives pre cols values) {t : String} {sig : List TensorSpec} (hk : Knows w.sig t sig)
    (hf : FitsTable w.sig t cols values) (hne : ∀ col ∈ cols, col.refs ≠ []) : SampleCall.trajectory.AgreesAll sig out := by
  obtain ⟨m, k1, k2⟩ := hk
  obtain ⟨sig', g1, g2⟩ := hf m k1
  rw [k2] at g1
  cases g1
  obtain ⟨g3, g4⟩ := g2 sig rfl
  refine ⟨by rw [h.length, g3], fun i want x hw hx => ?_⟩
  have hil := (List.getElem?_eq_some_iff.mp hx).1
  have hcol : cols[i]? = some (cols[i]'(by rw [← h.length]; exact hil)) := List.getElem?_eq_getElem _
  have hval : values[i]? = some (values[i]'(by rw [hg.length, ← h.length]; exact hil)) := List.getElem?_eq_getElem _
  generalize cols[i]'(by rw [← h.length]; exact hil) = col at hcol
  generalize values[i]'(by rw [hg.length, ← h.length]; exact hil) = ts at hval
  have hc := h.column i col ts x hcol hval hx
  have hall := g4 i want col ts
  show want.Allows x.dtype x.shape
  split at hc
  · rename_i hq
    have := hall x hw hcol hval (by rw [hc]; simp)
    rwa [if_pos hq] at this
  · rename_i hq
    obtain ⟨d, sh, c1, rfl⟩ := hc
    have hlen := (hg.names i col ts hcol hval).1
    have hpos : 0 < ts.length := by
      rw [hlen]
      exact List.length_pos_iff.mpr (hne col (List.mem_of_getElem? hcol))
    have := hall ts[0] hw hcol hval (List.getElem_mem hpos)
    rw [if_neg hq] at this
    obtain ⟨_, e1, e2⟩ := c1 ts[0] (List.getElem_mem hpos)
    rw [e1, e2] at this
    exact this

end TrajWriter

/-! ### The sampler -/

namespace ClientSampler

/-- Without a declaration the same steps are read. -/
theorem Reads.unchecked {c : SamplerCfg} {s s' : Sample} {out : List SampleOut} (h : Reads c s out s') : ∃ out0,
    Reads { c with spec := none } s out0 s' ∧ out0.length = out.length ∧ ∀ (k : Nat) (o : SampleOut), out[k]? = some o →
      (∃ e, o = .error e ∧ out0[k]? = some (.error e)) ∨ ∃ rows last, out0[k]? = some (.timestep rows last) ∧
        (o = .timestep rows last ∨ SampleCall.timestep.validate c.spec rows ≠ none) := by
  induction h with
  | nil => exact ⟨[], .nil _, rfl, by simp⟩
  | @step s1 s2 out o h1 hne ho ih =>
    obtain ⟨out0, g1, g2, g3⟩ := ih
    obtain ⟨o0, k1, k2⟩ : ∃ o0, s1.stepOutcome { c with spec := none } = .ok (o0, s2) ∧
        ((∃ e, o = .error e ∧ o0 = .error e) ∨ ∃ rows last, o0 = .timestep rows last ∧
          (o = .timestep rows last ∨ SampleCall.timestep.validate c.spec rows ≠ none)) := by
      unfold Sample.stepOutcome at ho ⊢
      cases hd : s1.deliver with
      | died => simp [hd] at ho
      | err e =>
        simp only [hd, Res.ok.injEq, Prod.mk.injEq] at ho
        exact ⟨.error e, by simp [ho.2], .inl ⟨e, ho.1.symm, rfl⟩⟩
      | ok x =>
        obtain ⟨rows, last, s3⟩ := x
        simp only [hd] at ho
        refine ⟨.timestep rows last, ?_, .inr ⟨rows, last, rfl, ?_⟩⟩
        · simp only [SampleCall.validate]
          split at ho <;> (cases ho; rfl)
        · split at ho
          · rename_i e he
            exact .inr (by rw [he]; simp)
          · cases ho; exact .inl rfl
    refine ⟨out0 ++ [o0], .step g1 hne k1, by simp [g2], fun k o' hk => ?_⟩
    by_cases hkl : k < out.length
    · rw [List.getElem?_append_left hkl] at hk
      rw [List.getElem?_append_left (by omega)]
      exact g3 k o' hk
    · have := (List.getElem?_eq_some_iff.mp hk).1
      simp only [List.length_append, List.length_singleton] at this
      have hkk : k = out.length := by omega
      subst hkk
      simp only [List.getElem?_concat_length, Option.some.injEq] at hk
      subst hk
      rw [← g2, List.getElem?_concat_length]
      rcases k2 with ⟨e, a, b⟩ | ⟨rows, last, a, b⟩
      · exact .inl ⟨e, a, by rw [b]⟩
      · exact .inr ⟨rows, last, by rw [a], b⟩

/-- The invariant. -/
structure Served (c : SamplerCfg) (Q : SampleCall → Prop) (v : ClientSampler) : Prop where
  queue : ∀ s ∈ v.queue, s ∈ v.arrived
  holding : ∀ x k s, v.calls.get? x = some (.holding k s) → Q k ∧ k ≠ .timestep ∧ s ∈ v.arrived
  popping : ∀ x k t, v.calls.get? x = some (.popping k t) → Q k
  failed : ∀ x k, v.calls.get? x = some (.failed k) → v.queueClosed = true
  stepping : ∀ x, v.calls.get? x = some .stepping → Q .timestep
  active : ∀ s, v.active = some s → Q .timestep ∧ ∃ x ∈ v.arrived, ∃ out, Reads c x out s
  log : NoneRefused v

theorem none_refused {c : SamplerCfg} (hc : c.Valid) {now : Int} {P : ClientSampler → Event → Prop}
    (hT : (∀ v e, P v e → NoTimesteps e) ∨ ∀ v e, P v e → Faithful v e) {Q : SampleCall → Prop} (hQ : ∀ v x k, P v (.call x k) → Q k)
    {evs : List Event} {v : ClientSampler} (h : Reach c now P evs v)
    (hgood : ∀ x ∈ v.arrived, (∀ k, Q k → k ≠ .timestep → ∀ e, k.outcome c x ≠ .ok (.error e)) ∧
      (Q .timestep → ∀ out s', Reads c x out s' → ∀ e, .error e ∉ out)) : NoneRefused v := by
  suffices Served c Q v from this.log
  induction h with
  | init => exact ⟨(by intro s g; cases g), (by intro x k s g; cases g), (by intro x k t g; cases g), (by intro x k g; cases g),
      (by intro x g; cases g), (by intro s g; cases g), (by intro e g; cases g)⟩
  | @step evs e v0 v h0 hP hs ih =>
    have hsub : ∀ x ∈ v0.arrived, x ∈ v.arrived := by
      intro x hx
      cases Flow.step hs h0.holds with
      | quiet q => unfold arrived; rw [q.pushed]; exact hx
      | push i s q1 => unfold arrived; rw [q1, List.map_append]; exact List.mem_append_left _ hx
      | call x k _ _ _ _ q1 => unfold arrived; rw [q1]; exact hx
      | failed x k t _ _ _ q1 => unfold arrived; rw [q1]; exact hx
      | pop x k t s _ _ _ _ q1 => unfold arrived; rw [q1]; exact hx
      | fail x k st _ _ q1 => unfold arrived; rw [q1]; exact hx
      | sample x k s o _ _ _ q1 => unfold arrived; rw [q1]; exact hx
      | timestep x s s' o _ _ _ _ q1 => unfold arrived; rw [q1]; exact hx
    have I := ih fun x hx => hgood x (hsub x hx)
    have hd : v0.dead = false := by
      unfold ClientSampler.step at hs
      split at hs
      · cases hs
      · rename_i g
        simpa using g
    have E := Eff.step hs
    have hact : ∀ {s}, v0.active = some s → Q .timestep ∧ ∃ x ∈ v.arrived, ∃ out, Reads c x out s := by
      intro s hsa
      obtain ⟨a, x, b, out, d⟩ := I.active s hsa
      exact ⟨a, x, hsub x b, out, d⟩
    have hlog : v.log = v0.log → NoneRefused v := by
      intro hl e' he'
      rw [hl] at he'
      obtain ⟨a, b⟩ := I.log e' he'
      refine ⟨E.queueClosed a, ?_⟩
      rcases b with b | ⟨b, b'⟩ | b
      · exact .inl b
      · exact .inr (.inl ⟨b, E.closed b'⟩)
      · exact .inr (.inr (by rw [E.status (by rw [b]; simp), b]))
    have hlog1 : ∀ o, v.log = v0.log ++ [o] → (∀ e, o ≠ .error e) → NoneRefused v := by
      intro o hl hne e' he'
      rw [hl] at he'
      rcases List.mem_append.mp he' with he' | he'
      · obtain ⟨a, b⟩ := I.log e' he'
        refine ⟨E.queueClosed a, ?_⟩
        rcases b with b | ⟨b, b'⟩ | b
        · exact .inl b
        · exact .inr (.inl ⟨b, E.closed b'⟩)
        · exact .inr (.inr (by rw [E.status (by rw [b]; simp), b]))
      · simp only [List.mem_singleton] at he'
        exact absurd he'.symm (hne e')
    cases Flow.step hs h0.holds with
    | quiet q =>
      refine ⟨fun s g => hsub s (I.queue s (q.queue ▸ g)), fun x k s g => ?_, fun x k t g => I.popping x k t (q.calls ▸ g),
        fun x k g => E.queueClosed (I.failed x k (q.calls ▸ g)), fun x g => I.stepping x (q.calls ▸ g), fun s g => hact (q.active ▸ g), hlog q.log⟩
      obtain ⟨a, b, d⟩ := I.holding x k s (q.calls ▸ g)
      exact ⟨a, b, hsub s d⟩
    | push i s q1 q2 q3 q4 q5 q6 =>
      refine ⟨fun s' g => ?_, fun x k s' g => ?_, fun x k t g => I.popping x k t (q3 ▸ g),
        fun x k g => E.queueClosed (I.failed x k (q3 ▸ g)), fun x g => I.stepping x (q3 ▸ g), fun s' g => hact (q5 ▸ g), hlog q4⟩
      · rw [q2] at g
        rcases List.mem_append.mp g with g | g
        · exact hsub s' (I.queue s' g)
        · unfold arrived
          rw [q1, List.map_append]
          exact List.mem_append_right _ (by simpa using g)
      · obtain ⟨a, b, d⟩ := I.holding x k s' (q3 ▸ g)
        exact ⟨a, b, hsub s' d⟩
    | call x k he q0 qt _ q1 q2 q3 q4 q5 =>
      have hk : Q k := by
        rw [he] at hP
        exact hQ _ _ _ hP
      refine ⟨fun s' g => hsub s' (I.queue s' (q2 ▸ g)), fun y k' s' g => ?_, fun y k' t g => ?_, fun y k' g => ?_, fun y g => ?_,
        fun s' g => hact (q5 ▸ g), hlog q4⟩
      all_goals rw [q3] at g
      all_goals rcases get_insert g with ⟨_, g⟩ | ⟨_, g⟩
      · split at g <;> cases g
      · obtain ⟨a, b, d⟩ := I.holding y k' s' g
        exact ⟨a, b, hsub s' d⟩
      · split at g <;> cases g
        exact hk
      · exact I.popping y k' t g
      · split at g <;> cases g
      · exact E.queueClosed (I.failed y k' g)
      · split at g
        · rename_i hkt
          rw [← hkt.1]
          exact hk
        · cases g
      · exact I.stepping y g
    | failed x k t he q0 qc q1 q2 q3 q4 q5 qc' =>
      refine ⟨fun s' g => hsub s' (I.queue s' (q2 ▸ g)), fun y k' s' g => ?_, fun y k' t g => ?_, fun y k' g => qc', fun y g => ?_,
        fun s' g => hact (q5 ▸ g), hlog q4⟩
      all_goals rw [q3] at g
      all_goals rcases get_insert g with ⟨_, g⟩ | ⟨_, g⟩
      · cases g
      · obtain ⟨a, b, d⟩ := I.holding y k' s' g
        exact ⟨a, b, hsub s' d⟩
      · cases g
      · exact I.popping y k' t g
      · cases g
      · exact I.stepping y g
    | pop x k t s he q0 _ q1 q2 q3 q4 q5 =>
      have hk := I.popping x k t q0
      have hsm : s ∈ v.arrived := hsub s (I.queue s (by rw [q1]; simp))
      refine ⟨fun s' g => hsub s' (I.queue s' (by rw [q1]; exact List.mem_cons_of_mem _ g)), fun y k' s' g => ?_, fun y k' t g => ?_,
        fun y k' g => ?_, fun y g => ?_, fun s' g => ?_, hlog q4⟩
      case refine_5 =>
        rw [q5] at g
        split at g
        · rename_i hkt
          cases g
          exact ⟨hkt ▸ hk, s, hsm, [], .nil s⟩
        · exact hact g
      all_goals rw [q3] at g
      all_goals rcases get_insert g with ⟨_, g⟩ | ⟨_, g⟩
      · split at g
        · cases g
        · rename_i hkt
          cases g
          exact ⟨hk, hkt, hsm⟩
      · obtain ⟨a, b, d⟩ := I.holding y k' s' g
        exact ⟨a, b, hsub s' d⟩
      · split at g <;> cases g
      · exact I.popping y k' t g
      · split at g <;> cases g
      · exact E.queueClosed (I.failed y k' g)
      · split at g
        · rename_i hkt
          exact hkt ▸ hk
        · cases g
      · exact I.stepping y g
    | fail x k st he q0 q1 q2 q3 q4 q5 =>
      refine ⟨fun s' g => hsub s' (I.queue s' (q2 ▸ g)), fun y k' s' g => ?_, fun y k' t g => ?_, fun y k' g => ?_, fun y g => ?_,
        fun s' g => hact (q5 ▸ g), ?_⟩
      case refine_5 =>
        have hqc := E.queueClosed (I.failed x k q0)
        have hst : v0.popStatus c = some st := by
          subst he
          unfold ClientSampler.step at hs
          rw [if_neg (by simp [hd])] at hs
          simp only [finish, q0] at hs
          split at hs
          · rename_i e' he'
            cases hs
            have : v0.log ++ [SampleOut.error e'] = v0.log ++ [.error st] := q4
            simp only [List.append_cancel_left_eq, List.cons.injEq, SampleOut.error.injEq, and_true] at this
            rw [he', this]
          · cases hs
            have : v0.log = v0.log ++ [.error st] := q4
            simp at this
        intro e' he'
        rw [q4] at he'
        rcases List.mem_append.mp he' with he' | he'
        · obtain ⟨a, b⟩ := I.log e' he'
          refine ⟨hqc, ?_⟩
          rcases b with b | ⟨b, b'⟩ | b
          · exact .inl b
          · exact .inr (.inl ⟨b, E.closed b'⟩)
          · exact .inr (.inr (by rw [E.status (by rw [b]; simp), b]))
        · simp only [List.mem_singleton, SampleOut.error.injEq] at he'
          subst he'
          refine ⟨hqc, ?_⟩
          unfold popStatus at hst
          split at hst
          · cases hst; exact .inl rfl
          · split at hst
            · rename_i hcl
              cases hst; exact .inr (.inl ⟨rfl, E.closed hcl⟩)
            · exact .inr (.inr (by rw [E.status (by rw [hst]; simp), hst]))
      all_goals rw [q3] at g
      all_goals replace g := (get_erase g).2
      · obtain ⟨a, b, d⟩ := I.holding y k' s' g
        exact ⟨a, b, hsub s' d⟩
      · exact I.popping y k' t g
      · exact E.queueClosed (I.failed y k' g)
      · exact I.stepping y g
    | sample x k s o he q0 qo q1 q2 q3 q4 q5 =>
      have hh := I.holding x k s q0
      refine ⟨fun s' g => hsub s' (I.queue s' (q2 ▸ g)), fun y k' s' g => ?_, fun y k' t g => ?_, fun y k' g => ?_, fun y g => ?_,
        fun s' g => hact (q5 ▸ g), hlog1 o q4 ?_⟩
      case refine_5 =>
        rintro e rfl
        exact (hgood s (hsub s hh.2.2)).1 k hh.1 hh.2.1 e qo
      all_goals rw [q3] at g
      all_goals replace g := (get_erase g).2
      · obtain ⟨a, b, d⟩ := I.holding y k' s' g
        exact ⟨a, b, hsub s' d⟩
      · exact I.popping y k' t g
      · exact E.queueClosed (I.failed y k' g)
      · exact I.stepping y g
    | timestep x s s' o he q0 qa qo q1 q2 q3 q4 q5 =>
      obtain ⟨hq, a, ha, out, hr⟩ := I.active s qa
      have hend : s.isEndOfSample = false := by
        rcases hT with hT | hT
        · have := h0.noStep hT x _ q0
          cases this
        · have hp := (h0.inv hc hT hd).tstep x q0
          unfold partlyRead at hp
          rw [qa] at hp
          simpa using hp
      have hr' := hr.step hend qo
      refine ⟨fun s' g => hsub s' (I.queue s' (q2 ▸ g)), fun y k' s' g => ?_, fun y k' t g => ?_, fun y k' g => ?_, fun y g => ?_,
        fun s1 g => ?_, hlog1 o q4 ?_⟩
      case refine_5 =>
        rw [q5] at g
        cases g
        exact ⟨hq, a, hsub a ha, _, hr'⟩
      case refine_6 =>
        rintro e rfl
        exact (hgood a (hsub a ha)).2 hq _ _ hr' e (by simp)
      all_goals rw [q3] at g
      all_goals replace g := (get_erase g).2
      · obtain ⟨a, b, d⟩ := I.holding y k' s' g
        exact ⟨a, b, hsub s' d⟩
      · exact I.popping y k' t g
      · exact E.queueClosed (I.failed y k' g)
      · exact I.stepping y g

end ClientSampler

/-! ### From the writers to the sampler -/

namespace Flow
variable {w : Wire} {ins : Nat → List InsertReq} {ask : Nat → List SampleReq} {got : Nat → List (String × Sampled)} {written : Nat → List Entry}

/-- If the samples of the table can be unpacked, the workers can unpack what comes. -/
theorem unpacked (F : Flow w ins ask got written) {c : SamplerCfg} (hcv : c.Valid) {t : String} {a b : Int} (hsrc : c.source = .grpc t a b) {now : Int}
    {cev : List ClientSampler.Event} {u : ClientSampler} {L : Links} (hl : ClientSampler.Linked c now written cev u L)
    (hask : ∀ q ∈ L.opened, ∀ r ∈ ask q, r ∈ u.sent)
    (hgood : ∀ q y, y ∈ got q → y.1 = t → ∃ smp, asSampleLocal (y.2.sent w) = .ok smp) : ClientSampler.AllUnpacked L := by
  intro q r hr
  have hreach : ClientSampler.Reach c now (fun _ _ => True) cev u := hl.reach fun _ _ _ => trivial
  have h := ClientSampler.linv hsrc hl
  by_cases hq : q ∈ L.opened
  · have hmem : r ∈ localSamples w (got q) := ((SyncSampler.clientSamples_prefix (h.written q)).trans (F.sent q)).subset hr
    obtain ⟨y, hy, rfl⟩ := List.mem_map.mp hmem
    obtain ⟨r', hrq, hrt⟩ := (F.prov q y hy).2
    obtain ⟨t', _, _, e1, e2, _⟩ := C45_request_size hcv hreach (hask q hq r' hrq)
    rw [hsrc] at e1
    cases e1
    exact hgood q y hy (by rw [← hrt, e2])
  · rw [(h.fresh q hq).1] at hr
    cases hr

/-- A sample of an item that a trajectory writer with the signature has made agrees with the signature. -/
theorem traj_agrees {ι : Type} (F : Flow w ins ask got written) (hc : ContentsOf w ins) {users : ι → TrajWriter.Use} (hu : TrajWrittenBy ins users)
    {q : Nat} {y : String × Sampled} (hy : y ∈ got q) {sig : List TensorSpec} (hk : ∀ u, Knows (users u).writer.sig y.1 sig) :
    ∃ smp out, asSampleLocal (y.2.sent w) = .ok smp ∧ smp.asTrajectory = .ok out ∧ SampleCall.trajectory.AgreesAll sig out := by
  obtain ⟨s, _, hW⟩ := F.made hc hy
  obtain ⟨u, str, h1, h2⟩ := hu s
  obtain ⟨pre, cols, ⟨p, post, e1, e2⟩, h4⟩ := hW _ _ str (users u).started (users u).valid h1 h2
  obtain ⟨⟨values, hv⟩, hcont⟩ := (users u).refs pre y.1 p cols post _ e1 e2
  obtain ⟨smp, out, g1, g2, g3⟩ := h4 hcont values hv
  have hpre : ∀ e ∈ pre, e.Valid := fun e he => (users u).valid e (by rw [e1]; exact List.mem_append_left _ he)
  obtain ⟨f1, f2⟩ := TrajWriter.accepted_fits (users u).started hpre e2 hv
  exact ⟨smp, out, g1, g2, TrajWriter.readsBack_agrees g3 hv (hk u) f1 f2⟩

theorem traj_sampler {ι : Type} (F : Flow w ins ask got written) (hc : ContentsOf w ins) {users : ι → TrajWriter.Use} (hu : TrajWrittenBy ins users)
    {c : SamplerCfg} (hcv : c.Valid) {t : String} {a b : Int} (hsrc : c.source = .grpc t a b) {sig four : List TensorSpec} (h4 : four.length = 4)
    (hspec : c.spec = some (four ++ sig)) (hk : ∀ u, Knows (users u).writer.sig t sig) {now : Int} {cev : List ClientSampler.Event}
    {v : ClientSampler} {L : Links} (hl : ClientSampler.Linked c now written cev v L) (ho : ∀ e ∈ cev, ClientSampler.OnlyTrajectories e)
    (hask : ∀ q ∈ L.opened, ∀ r ∈ ask q, r ∈ v.sent) : ClientSampler.NoneRefused v ∧ ClientSampler.AllUnpacked L := by
  have hreach : ClientSampler.Reach c now (fun _ e => ClientSampler.OnlyTrajectories e) cev v := hl.reach fun _ e he => ho e he
  refine ⟨?_, F.unpacked hcv hsrc hl hask fun q y hy hyt => by
    subst hyt
    obtain ⟨smp, _, g, _⟩ := F.traj_agrees hc hu hy hk
    exact ⟨smp, g⟩⟩
  refine ClientSampler.none_refused hcv (Q := fun k => k = .trajectory) (.inl ?_) (fun _ _ _ h => h) hreach fun x hx => ⟨?_, nofun⟩
  · intro _ e he
    cases e with
    | call x k =>
      have he : k = .trajectory := he
      simp [ClientSampler.NoTimesteps, he]
    | _ => trivial
  · rintro k rfl _ e hout
    obtain ⟨q, y, hy, rfl, hys⟩ := F.arrived_from hcv hsrc hl hask hx
    obtain ⟨smp, out, g1, g2, g3⟩ := F.traj_agrees hc hu hy hk
    rw [hys] at g1
    cases g1
    have hval := (C61_validate .trajectory four sig h4 out).1.mpr g3
    simp only [SampleCall.outcome, g2, hspec, hval] at hout
    cases hout

/-- The same for the old writer, whose signatures are for steps. -/
theorem steps_agree {ι : Type} (F : Flow w ins ask got written) (hc : ContentsOf w ins) {users : ι → Writer.Use} (hu : WrittenBy ins users)
    {q : Nat} {y : String × Sampled} (hy : y ∈ got q) {sig : List TensorSpec} (hk : ∀ u, Knows (users u).writer.sigs y.1 sig) :
    ∃ smp n out, asSampleLocal (y.2.sent w) = .ok smp ∧ smp.asBatchedTimesteps = .ok (n, out) ∧ SampleCall.batched.AgreesAll sig out ∧
      ∀ (c : SamplerCfg) (four : List TensorSpec), four.length = 4 → c.spec = some (four ++ sig) → ∀ o s', ClientSampler.Reads c smp o s' →
        ∀ e, .error e ∉ o := by
  obtain ⟨u, steps, smp, h1, h2, _, h3, h4⟩ := F.step_sample hc hu hy
  have hfit := h1.fits (hk u)
  have hne : steps ≠ [] ∧ ∀ x ∈ steps, x.Of (users u).spec := by
    obtain ⟨it, _, pre, table, priority, as, post, w1, n, a1, a2, a3, a4, a5, a6, a7, a8⟩ := h1
    constructor
    · have hs := (users u).sound
      rw [a1] at hs
      have hn := ((Writer.allSound_append a2 _).mp hs).2.1.1
      intro h0
      have hl : (lastSteps n ((users u).writer.history pre)).length = 0 := by rw [← a8, h0]; rfl
      simp only [lastSteps, List.length_drop] at hl
      omega
    · intro x hx
      rw [a8] at hx
      obtain ⟨as', h'⟩ := Writer.history_offered (List.mem_of_mem_drop hx)
      exact (users u).fits x as' (by rw [a1]; exact List.mem_append_left _ h')
  refine ⟨smp, _, _, h2, h3, ?_, ?_⟩
  · obtain ⟨st, rest, hst⟩ := List.exists_cons_of_ne_nil hne.1
    have hf := hfit st (by rw [hst]; simp)
    have hof := hne.2 st (by rw [hst]; simp)
    refine ⟨?_, fun i want x hw hx => ?_⟩
    · rw [stackSteps, List.length_mapIdx, ← hof.1, hf.1]
    · rw [stackSteps, List.getElem?_mapIdx] at hx
      obtain ⟨⟨d, sh⟩, hd, rfl⟩ := Option.map_eq_some_iff.mp hx
      have hil : i < st.length := by
        rw [hof.1]
        exact (List.getElem?_eq_some_iff.mp hd).1
      have ht : st[i]? = some st[i] := List.getElem?_eq_getElem hil
      obtain ⟨_, e1, e2⟩ := hof.2 i d sh _ hd ht
      have := hf.2 i want _ hw ht
      rw [e1, e2] at this
      exact ⟨_, sh, rfl, this⟩
  · intro c four h4' hsp o s' hrd e he
    obtain ⟨out0, g1, g2, g3⟩ := hrd.unchecked
    obtain ⟨k, hk'⟩ := List.getElem?_of_mem he
    have hgv := (h4 _ _ _ g1).1.2
    rcases g3 k _ hk' with ⟨e', _, a⟩ | ⟨rows, last, a, b⟩
    · obtain ⟨step, _, b⟩ := hgv k _ a
      rcases b with b | ⟨b, _⟩
      · cases b
      · exact b rfl
    · obtain ⟨step, f1, f2⟩ := hgv k _ a
      rcases f2 with f2 | ⟨f2, _⟩
      · obtain ⟨rfl, rfl⟩ := SampleOut.timestep.inj f2
        rcases b with b | b
        · cases b
        · apply b
          rw [hsp]
          exact (C61_validate .timestep four sig h4' rows).1.mpr (hfit rows (List.mem_of_getElem? f1))
      · exact f2 rfl

theorem steps_sampler {ι : Type} (F : Flow w ins ask got written) (hc : ContentsOf w ins) {users : ι → Writer.Use} (hu : WrittenBy ins users)
    {c : SamplerCfg} (hcv : c.Valid) {t : String} {a b : Int} (hsrc : c.source = .grpc t a b) {sig four : List TensorSpec} (h4 : four.length = 4)
    (hspec : c.spec = some (four ++ sig)) (hk : ∀ u, Knows (users u).writer.sigs t sig) {now : Int} {cev : List ClientSampler.Event}
    {v : ClientSampler} {L : Links} (hl : ClientSampler.Linked c now written cev v L)
    (hrch : ClientSampler.Reach c now (fun v e => ClientSampler.Faithful v e ∧ ClientSampler.NoTrajectories e) cev v)
    (hask : ∀ q ∈ L.opened, ∀ r ∈ ask q, r ∈ v.sent) : ClientSampler.NoneRefused v ∧ ClientSampler.AllUnpacked L := by
  have hgood : ∀ x ∈ v.arrived, ∃ n out, x.asBatchedTimesteps = .ok (n, out) ∧ SampleCall.batched.AgreesAll sig out ∧
      ∀ o s', ClientSampler.Reads c x o s' → ∀ e, .error e ∉ o := by
    intro x hx
    obtain ⟨q, y, hy, rfl, hys⟩ := F.arrived_from hcv hsrc hl hask hx
    obtain ⟨smp, n, out, g1, g2, g3, g5⟩ := F.steps_agree hc hu hy hk
    rw [hys] at g1
    cases g1
    exact ⟨n, out, g2, g3, g5 c four h4 hspec⟩
  refine ⟨?_, F.unpacked hcv hsrc hl hask fun q y hy hyt => by
    subst hyt
    obtain ⟨smp, _, _, g, _⟩ := F.steps_agree hc hu hy hk
    exact ⟨smp, g⟩⟩
  refine ClientSampler.none_refused hcv (Q := fun k => k ≠ .trajectory) (.inr fun _ _ h => h.1) (fun _ _ _ h => h.2) hrch fun x hx => ⟨?_, fun _ => ?_⟩
  · intro k hk1 hk2 e hout
    obtain ⟨n, out, g1, g2, _⟩ := hgood x hx
    cases k with
    | timestep => exact hk2 rfl
    | trajectory => exact hk1 rfl
    | batched =>
      have hval := (C61_validate .batched four sig h4 out).1.mpr g2
      simp only [SampleCall.outcome, g1, hspec, hval] at hout
      cases hout
  · obtain ⟨_, _, _, _, g⟩ := hgood x hx
    exact g

end Flow
end Verif
