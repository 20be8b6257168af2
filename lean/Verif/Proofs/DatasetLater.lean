import Verif.Proofs.DatasetCause
import Verif.Props.C45_C68_ClientSampler
/-
The iterators of the dataset ops: what comes after a cancellation, and after the end.
-/
namespace Verif
namespace ClientSampler

/-- Nothing more comes out of the sampler. -/
structure Shut (v : ClientSampler) : Prop where
  queue : v.queueClosed = true
  read : v.partlyRead = false
  calls : ∀ x p, v.calls.get? x = some p → (∃ k t, p = .popping k t) ∨ ∃ k, p = .failed k

theorem Shut.step {c : SamplerCfg} {v v' : ClientSampler} {e : Event} (h : Shut v) (hs : ClientSampler.step c v e = some v')
    (hold : ∀ x s, v.calls.get? x ≠ some (.holding .timestep s)) :
    Shut v' ∧ (v'.log = v.log ∨ ∃ x k, e = .finish x ∧ v'.log = v.log ++ [.error k] ∧ popStatus c v = some k) := by
  have hq := (Eff.step hs).queueClosed h.queue
  refine ⟨?_, ?_⟩
  · have hset : ∀ x q, ((∃ k t, q = .popping k t) ∨ ∃ k, q = .failed k) → v'.calls = v.calls.insert x q →
        ∀ x p, v'.calls.get? x = some p → (∃ k t, p = .popping k t) ∨ ∃ k, p = .failed k := by
      intro x q hq e y p g
      rw [e, AMap.get?_insert] at g
      split at g
      · cases g; exact hq
      · exact h.calls y p g
    have herase : ∀ x, v'.calls = v.calls.erase x →
        ∀ x p, v'.calls.get? x = some p → (∃ k t, p = .popping k t) ∨ ∃ k, p = .failed k := by
      intro x e y p g
      rw [e, AMap.get?_erase] at g
      split at g
      · cases g
      · exact h.calls y p g
    have hact : v'.active = v.active → v'.partlyRead = false := by
      intro g
      have := h.read
      unfold partlyRead at this ⊢
      rw [g]; exact this
    cases Flow.step hs hold with
    | quiet q => exact ⟨hq, hact q.active, fun x p g => h.calls x p (q.calls ▸ g)⟩
    | push i s _ _ _ _ _ g => rw [h.queue] at g; cases g
    | call x k _ _ _ _ _ _ q _ qa =>
      refine ⟨hq, hact qa, hset x _ (.inl ⟨k, v.clock, ?_⟩) q⟩
      rw [if_neg]
      intro g
      have := h.read
      unfold partlyRead at this
      rw [this] at g
      cases g.2
    | failed x k t _ _ _ _ _ q _ qa => exact ⟨hq, hact qa, hset x _ (.inr ⟨k, rfl⟩) q⟩
    | pop x k t s _ _ g => rw [h.queue] at g; cases g
    | fail x k st _ _ _ _ q _ qa => exact ⟨hq, hact qa, herase x q⟩
    | sample x k s o _ g => rcases h.calls x _ g with ⟨_, _, q⟩ | ⟨_, q⟩ <;> cases q
    | timestep x s s' o _ g => rcases h.calls x _ g with ⟨_, _, q⟩ | ⟨_, q⟩ <;> cases q
  · rcases (Eff.step hs).log with g | ⟨x, o, he, hlog, _, hr, _⟩
    · exact .inl g
    · right
      rcases hr with ⟨k, st, _, hp, ho⟩ | hr
      · subst ho
        exact ⟨x, st, he, hlog, hp⟩
      · exfalso
        rcases hr with ⟨s, g, _⟩ | ⟨s, g, _⟩ | ⟨s, g, _⟩ <;> rcases h.calls x _ g with ⟨_, _, q⟩ | ⟨_, q⟩ <;> cases q

/-- With calls of one kind, one after the other. -/
structure OneKind (k : SampleCall) (v : ClientSampler) : Prop where
  active : k ≠ .timestep → v.active = none
  waits : ∀ x k' t, v.calls.get? x = some (.popping k' t) → v.partlyRead = false
  failed : ∀ x k', v.calls.get? x = some (.failed k') → v.partlyRead = false
  one : ∀ x y p q, v.calls.get? x = some p → v.calls.get? y = some q → x = y

theorem Reach.oneKind {c : SamplerCfg} {now : Int} {k : SampleCall} {evs : List Event} {v : ClientSampler}
    (h : Reach c now (Used k) evs v) : OneKind k v := by
  induction h with
  | init => exact ⟨fun _ => rfl, fun x k t g => (by cases g), fun x k g => (by cases g), fun x y p q g => (by cases g)⟩
  | @step evs e v v' h0 hP hs ih =>
    have hkinds := h0.kinds.1
    have hact : v'.active = v.active → v'.partlyRead = v.partlyRead := by
      intro g; unfold partlyRead; rw [g]
    have hpart : k ≠ .timestep → v'.active = none → v'.partlyRead = false := by
      intro _ g; unfold partlyRead; rw [g]; rfl
    have hempty : ∀ x k', e = .call x k' → ∀ y q, v.calls.get? y ≠ some q := by
      intro x k' he y q g
      have := hP.2.1
      rw [he] at this
      have this : v.calls.size = 0 := this
      have hm := (AMap.mem_entries_iff _ _ _).mpr g
      unfold AMap.size at this
      rw [List.length_eq_zero_iff.mp this] at hm
      cases hm
    have herase : ∀ x p, v.calls.get? x = some p → v'.calls = v.calls.erase x → ∀ y q, v'.calls.get? y ≠ some q := by
      intro x p hx e y q g
      rw [e, AMap.get?_erase] at g
      split at g
      · cases g
      · rename_i hne
        exact hne (ih.one y x q p g hx)
    have hnone : (∀ y q, v'.calls.get? y ≠ some q) → (k ≠ .timestep → v'.active = none) → OneKind k v' := by
      intro g ga
      exact ⟨ga, fun x k t q => absurd q (g x _), fun x k q => absurd q (g x _), fun x y p q g1 => absurd g1 (g x p)⟩
    have hsame : v'.calls = v.calls → v'.active = v.active → OneKind k v' := by
      intro g ga
      refine ⟨fun hk => ga.trans (ih.active hk), ?_, ?_, ?_⟩
      · rw [hact ga, g]; exact ih.waits
      · rw [hact ga, g]; exact ih.failed
      · rw [g]; exact ih.one
    have hset : ∀ x p q, v.calls.get? x = some p → v'.calls = v.calls.insert x q → (k ≠ .timestep → v'.active = none) →
        ((∃ k t, q = .popping k t) ∨ (∃ k, q = .failed k) → v'.partlyRead = false) → OneKind k v' := by
      intro x p q hx e ha hq
      have hget : ∀ y r, v'.calls.get? y = some r → y = x ∧ r = q := by
        intro y r g
        rw [e, AMap.get?_insert] at g
        split at g
        · rename_i hy
          cases g; exact ⟨hy, rfl⟩
        · exact absurd (ih.one y x r p g hx) (by assumption)
      refine ⟨ha, ?_, ?_, ?_⟩
      · intro y k' t g
        exact hq (.inl ⟨k', t, (hget y _ g).2.symm⟩)
      · intro y k' g
        exact hq (.inr ⟨k', (hget y _ g).2.symm⟩)
      · intro y z r s g1 g2
        rw [(hget y r g1).1, (hget z s g2).1]
    cases Flow.step hs h0.holds with
    | quiet q => exact hsame q.calls q.active
    | push i s _ _ q _ qa => exact hsame q qa
    | call x k' he hx _ _ _ _ q _ qa =>
      have hk := hP.2.2 x k' he
      subst hk
      have hget : ∀ y r, v'.calls.get? y = some r → y = x ∧
          r = (if k' = .timestep ∧ v.active.any (fun s => !s.isEndOfSample) then .stepping else .popping k' v.clock) := by
        intro y r g
        rw [q, AMap.get?_insert] at g
        split at g
        · rename_i hy
          cases g; exact ⟨hy, rfl⟩
        · exact absurd g (hempty x k' he y r)
      have ha : k' ≠ .timestep → v'.active = none := fun hk => qa.trans (ih.active hk)
      refine ⟨ha, ?_, ?_, ?_⟩
      · intro y k'' t g
        have := (hget y _ g).2
        split at this
        · cases this
        · rename_i hn
          by_cases hk : k' = .timestep
          · rw [hact qa]
            unfold partlyRead
            cases hb : v.active.any (fun s => !s.isEndOfSample) with
            | false => rfl
            | true => exact absurd ⟨hk, hb⟩ hn
          · exact hpart hk (ha hk)
      · intro y k'' g
        have := (hget y _ g).2
        split at this <;> cases this
      · intro y z r s g1 g2
        rw [(hget y r g1).1, (hget z s g2).1]
    | failed x k' t he hx _ _ _ q _ qa =>
      exact hset x _ _ hx q (fun hk => qa.trans (ih.active hk)) (fun _ => (hact qa).trans (ih.waits x k' t hx))
    | pop x k' t s he hx _ _ _ q _ qa =>
      have hk : k' = k := hkinds x _ hx
      subst hk
      refine hset x _ _ hx q (fun hk => ?_) (fun g => ?_)
      · rw [qa, if_neg hk]; exact ih.active hk
      · exfalso
        split at g
        · rcases g with ⟨_, _, g⟩ | ⟨_, g⟩ <;> cases g
        · rcases g with ⟨_, _, g⟩ | ⟨_, g⟩ <;> cases g
    | fail x k' st he hx _ _ q _ qa => exact hnone (herase x _ hx q) (fun hk => qa.trans (ih.active hk))
    | sample x k' s o he hx _ _ _ q _ qa => exact hnone (herase x _ hx q) (fun hk => qa.trans (ih.active hk))
    | timestep x s s' o he hx _ _ _ _ q =>
      refine hnone (herase x _ hx q) (fun hk => ?_)
      exact absurd (hkinds x _ hx).symm hk

/-- After a timeout has been returned, nothing else comes. -/
theorem Reach.ended {c : SamplerCfg} (hc : c.Valid) {now : Int} {k : SampleCall} {evs : List Event} {v : ClientSampler}
    (h : Reach c now (Used k) evs v) (hd : v.dead = false) (hl : SampleOut.error .deadlineExceeded ∈ v.log) :
    Shut v ∧ v.returned ≠ c.max := by
  induction h with
  | init => cases hl
  | @step evs e v v' h0 hP hs ih =>
    have hd0 : v.dead = false := by
      unfold ClientSampler.step at hs
      split at hs
      · cases hs
      · rename_i g
        simpa using g
    have hf : ∀ v e, Used k v e → Faithful v e := fun _ _ g => g.1
    have hinv := h0.inv hc hf hd0
    have hinv' := (h0.step hP hs).inv hc hf hd
    have hst := deadline_status (h0.step hP hs) hl
    have hqc : v'.queueClosed = true := hinv'.bad (by rw [hst]; simp)
    by_cases hl0 : SampleOut.error .deadlineExceeded ∈ v.log
    · obtain ⟨g1, g2⟩ := ih hd0 hl0
      obtain ⟨g3, g4⟩ := g1.step hs h0.holds
      refine ⟨g3, ?_⟩
      have : v'.delivered = v.delivered := by
        unfold delivered
        rcases g4 with g4 | ⟨_, k, _, g4, _⟩
        · rw [g4]
        · rw [g4, List.countP_append]; rfl
      rw [hinv'.ret, this, ← hinv.ret]
      exact g2
    · rcases (Eff.step hs).log with g | ⟨x, o, he, hlog, _, hr, hcalls⟩
      · rw [g] at hl; exact absurd hl hl0
      · rw [hlog] at hl
        rcases List.mem_append.mp hl with g | g
        · exact absurd g hl0
        · simp only [List.mem_singleton] at g
          subst g
          have hdel : v'.delivered = v.delivered := by
            unfold delivered
            rw [hlog, List.countP_append]; rfl
          have hone := h0.oneKind
          have hk := (h0.step hP hs).oneKind
          have hcall : ∀ p, v.calls.get? x = some p → ∀ y q, v'.calls.get? y ≠ some q := by
            intro p hx y q g
            rw [hcalls, AMap.get?_erase] at g
            split at g
            · cases g
            · rename_i hne
              exact hne (hone.one y x q p g hx)
          have hval : ∀ k spec d, SampleCall.validate k spec d ≠ some .deadlineExceeded := by
            intro k spec d
            unfold SampleCall.validate
            split
            · simp
            · split
              · simp
              · split <;> simp
          rcases hr with ⟨k', e', hx, hp, ho⟩ | hr
          · cases ho
            have hret : v.returned ≠ c.max := by
              intro g
              unfold popStatus at hp
              rw [if_pos g] at hp
              cases hp
            refine ⟨⟨hqc, ?_, fun y q g => absurd g (hcall _ hx y q)⟩, ?_⟩
            · have hp0 := hone.failed x k' hx
              subst he
              cases Flow.step hs h0.holds with
              | quiet q => have := q.log; rw [hlog] at this; simp at this
              | push i s _ _ q q' => rw [hlog] at q'; simp at q'
              | call x k' he => cases he
              | failed y k' t he => cases he
              | pop y k' t s he => cases he
              | fail y k' st he _ _ _ q _ qa =>
                unfold partlyRead at hp0 ⊢
                rw [qa]; exact hp0
              | sample y k' s o he g => cases he; rw [hx] at g; cases g
              | timestep y s s' o he g => cases he; rw [hx] at g; cases g
            · rw [hinv'.ret, hdel, ← hinv.ret]; exact hret
          · exfalso
            rcases hr with ⟨s, _, ⟨e, g1, g2⟩ | ⟨n, cols, _, ⟨e, g1, g2⟩ | ⟨_, g2⟩⟩⟩ | ⟨s, _, ⟨e, g1, g2⟩ | ⟨cols, _, ⟨e, g1, g2⟩ | ⟨_, g2⟩⟩⟩ |
              ⟨s, _, _, ⟨e, g1, g2⟩ | ⟨rows, last, s', _, ⟨e, g1, g2⟩ | ⟨_, g2⟩⟩⟩ <;> cases g2
            · exact (Sample.asBatched_code g1).not_deadline rfl
            · exact hval _ _ _ g1
            · exact (Sample.asTrajectory_code g1).not_deadline rfl
            · exact hval _ _ _ g1
            · exact (Sample.deliver_code g1).not_deadline rfl
            · exact hval _ _ _ g1

end ClientSampler
end Verif
