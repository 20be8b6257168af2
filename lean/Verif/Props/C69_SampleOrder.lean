import Verif.Spec.SampleOrder
import Verif.Props.C45_C68_ClientSampler
/-
C69: a sampler returns samples in the order in which they arrive, no sample twice, and loses none.
-/
namespace Verif
namespace ClientSampler

theorem _root_.Verif.AMap.perm_erase {α : Type} {m : AMap Nat α} {x : Nat} {a : α} (h : m.get? x = some a) :
    m.entries.Perm ((x, a) :: (m.erase x).entries) := by
  obtain ⟨l, hl⟩ := m
  simp only [AMap.get?, AMap.erase] at h ⊢
  induction l with
  | nil => simp at h
  | cons e l ih =>
    obtain ⟨k, b⟩ := e
    simp only [List.map_cons, List.nodup_cons] at hl
    rw [List.lookup_cons] at h
    by_cases hk : x = k
    · subst hk
      simp only [beq_self_eq_true, Option.some.injEq] at h
      subst h
      have hf : l.filter (fun e => decide (e.1 ≠ x)) = l := by
        apply List.filter_eq_self.mpr
        intro e he
        simp only [ne_eq, decide_not, Bool.not_eq_true', decide_eq_false_iff_not]
        intro hc
        exact hl.1 (List.mem_map.mpr ⟨e, he, hc⟩)
      rw [List.filter_cons_of_neg (by simp), hf]
    · have hk' : (x == k) = false := by simpa using hk
      rw [hk'] at h
      rw [List.filter_cons_of_pos (by simp; exact fun h => hk h.symm)]
      exact ((ih hl.2 h).cons _).trans (List.Perm.swap _ _ _)

theorem _root_.Verif.AMap.erase_none {α : Type} {m : AMap Nat α} {x : Nat} (h : m.get? x = none) : (m.erase x).entries = m.entries := by
  obtain ⟨l, hl⟩ := m
  simp only [AMap.get?, AMap.erase] at h ⊢
  apply List.filter_eq_self.mpr
  intro e he
  rw [List.lookup_eq_none_iff] at h
  have := h e he
  simp only [bne_iff_ne, ne_eq] at this
  simp only [ne_eq, decide_not, Bool.not_eq_true', decide_eq_false_iff_not]
  exact fun hc => this hc.symm

/-- The samples in calls. -/
def heldIn (m : AMap Nat CallPhase) : List Sample := m.entries.filterMap fun e =>
  match e.2 with
  | .holding _ s => some s
  | _ => none

/-- The sample of a call. -/
def sampleIn : CallPhase → List Sample
  | .holding _ s => [s]
  | _ => []

theorem heldIn_erase {m : AMap Nat CallPhase} {x : Nat} {p : CallPhase} (h : m.get? x = some p) :
    (heldIn m).Perm ((sampleIn p) ++ heldIn (m.erase x)) := by
  have := (AMap.perm_erase h).filterMap (fun e : Nat × CallPhase => match e.2 with
    | .holding _ s => some s
    | _ => none)
  unfold heldIn
  refine this.trans ?_
  rw [List.filterMap_cons]
  cases p <;> exact List.Perm.refl _

theorem heldIn_insert (m : AMap Nat CallPhase) (x : Nat) (p : CallPhase) :
    heldIn (m.insert x p) = (sampleIn p) ++ heldIn (m.erase x) := by
  unfold heldIn
  show List.filterMap _ ((x, p) :: (m.erase x).entries) = _
  rw [List.filterMap_cons]
  cases p <;> rfl

theorem heldIn_same {m : AMap Nat CallPhase} {x : Nat} {p q : CallPhase} (h : m.get? x = some p) (hp : isHolding p = false)
    (hq : isHolding q = false) : (heldIn (m.insert x q)).Perm (heldIn m) := by
  rw [heldIn_insert]
  refine List.Perm.trans ?_ (heldIn_erase h).symm
  have e1 : sampleIn p = [] := by cases p <;> first | rfl | exact nomatch hp
  have e2 : sampleIn q = [] := by cases q <;> first | rfl | exact nomatch hq
  rw [e1, e2]

theorem heldIn_new {m : AMap Nat CallPhase} {x : Nat} {q : CallPhase} (h : m.get? x = none) (hq : isHolding q = false) :
    heldIn (m.insert x q) = heldIn m := by
  rw [heldIn_insert]
  have : heldIn (m.erase x) = heldIn m := by
    unfold heldIn
    rw [AMap.erase_none h]
  rw [this]
  cases q <;> first | rfl | exact nomatch hq

/-- Without `GetNextTimestep`, no call has to do with the active sample. -/
theorem Reach.noStep {c : SamplerCfg} {now : Int} {P : ClientSampler → Event → Prop} (hP : ∀ v e, P v e → NoTimesteps e) {evs : List Event}
    {v : ClientSampler} (h : Reach c now P evs v) : ∀ x p, v.calls.get? x = some p → isStep p = false := by
  induction h with
  | init => intro x p g; cases g
  | @step evs e v0 v h0 hPe hs ih =>
    intro x p g
    rcases Flow.step hs h0.holds with q | ⟨_, _, _, _, q, _⟩ | ⟨y, k, he, _, _, _, _, _, q, _⟩ | ⟨y, k, t, _, hy, _, _, _, q, _⟩ | ⟨y, k, t, s', _, hy, _, _, _, q, _⟩ |
      ⟨y, k, st, _, _, _, _, q, _⟩ | ⟨y, k, s', o, _, _, _, _, _, q, _⟩ | ⟨y, s', s'', o, _, _, _, _, _, _, q, _⟩
    · rw [q.calls] at g; exact ih x p g
    · rw [q] at g; exact ih x p g
    · rw [q] at g
      have hk : k ≠ .timestep := by
        have := hP _ _ hPe
        rw [he] at this
        exact this
      rcases get_insert g with ⟨_, g⟩ | ⟨_, g⟩
      · rw [if_neg (fun h => hk h.1)] at g
        subst g
        simp [isStep, hk]
      · exact ih x p g
    · rw [q] at g
      rcases get_insert g with ⟨_, g⟩ | ⟨_, g⟩
      · subst g
        exact (show isStep (.popping k t) = false from ih y _ hy)
      · exact ih x p g
    · rw [q] at g
      rcases get_insert g with ⟨_, g⟩ | ⟨_, g⟩
      · have := ih y _ hy
        have hk : k ≠ .timestep := by simpa [isStep] using this
        rw [if_neg hk] at g
        subst g
        simp [isStep, hk]
      · exact ih x p g
    · rw [q] at g; exact ih x p (get_erase g).2
    · rw [q] at g; exact ih x p (get_erase g).2
    · rw [q] at g; exact ih x p (get_erase g).2

end ClientSampler
open ClientSampler

/-- C69: no sample is lost and none is returned twice, with any number of callers. Samples leave the queue in the order in which they
arrived; each sample that has left is held by one call or was the result of one call. -/
theorem C69_once {c : SamplerCfg} {now : Int} {evs : List Event} {v : ClientSampler} (h : Reach c now (fun _ e => NoTimesteps e) evs v) :
    ∃ taken done, v.arrived = taken ++ v.queue ∧ Accounts c done v.log ∧ taken.Perm (done.map Prod.snd ++ v.held) := by
  suffices ∃ taken done, v.pushed.map Prod.snd = taken ++ v.queue ∧ Accounts c done v.log ∧
    taken.Perm (done.map Prod.snd ++ heldIn v.calls) from this
  induction h with
  | init => exact ⟨[], [], rfl, .nil, List.Perm.refl _⟩
  | @step evs e v0 v h0 hP hs ih =>
    obtain ⟨taken, done, g1, g2, g3⟩ := ih
    have hno := h0.noStep (fun _ _ g => g)
    cases Flow.step hs h0.holds with
    | quiet q => exact ⟨taken, done, by rw [q.pushed, q.queue, g1], q.log ▸ g2, q.calls ▸ g3⟩
    | push i s q1 q2 q3 q4 q5 q6 =>
      exact ⟨taken, done, by rw [q1, q2, List.map_append, g1, List.append_assoc]; rfl, q4 ▸ g2, q3 ▸ g3⟩
    | call x k he q0 _ _ q1 q2 q3 q4 q5 =>
      refine ⟨taken, done, by rw [q1, q2, g1], q4 ▸ g2, ?_⟩
      rw [q3, heldIn_new q0 (by split <;> rfl)]
      exact g3
    | failed x k t he q0 _ q1 q2 q3 q4 q5 _ =>
      refine ⟨taken, done, by rw [q1, q2, g1], q4 ▸ g2, ?_⟩
      rw [q3]
      exact g3.trans ((heldIn_same q0 rfl rfl).symm.append_left _)
    | pop x k t s he q0 _ q1 q2 q3 q4 q5 =>
      have hk : k ≠ .timestep := by simpa [isStep] using hno x _ q0
      rw [if_neg hk] at q3
      refine ⟨taken ++ [s], done, by rw [q2, g1, q1]; simp, q4 ▸ g2, ?_⟩
      rw [q3, heldIn_insert]
      have e1 := heldIn_erase q0
      have e1 : (heldIn v0.calls).Perm (heldIn (v0.calls.erase x)) := e1
      refine (g3.append_right [s]).trans ?_
      rw [List.append_assoc]
      refine List.Perm.append_left _ ?_
      exact (List.perm_append_comm).trans (e1.append_left [s])
    | fail x k st he q0 q1 q2 q3 q4 q5 =>
      refine ⟨taken, done, by rw [q1, q2, g1], q4 ▸ g2.other st, ?_⟩
      rw [q3]
      exact g3.trans ((heldIn_erase q0).append_left _)
    | sample x k s o he q0 qo q1 q2 q3 q4 q5 =>
      refine ⟨taken, done ++ [(k, s)], by rw [q1, q2, g1], q4 ▸ g2.sample qo, ?_⟩
      rw [q3, List.map_append, List.append_assoc]
      exact g3.trans ((heldIn_erase q0).append_left _)
    | timestep x s s' o he q0 _ _ _ _ _ _ _ =>
      have := hno x _ q0
      cases this

/-- C69: if each call is made after the last one has returned, the results come in the order in which the samples arrived. -/
theorem C69_in_order {c : SamplerCfg} {now : Int} {evs : List Event} {v : ClientSampler}
    (h : Reach c now (fun v e => NoTimesteps e ∧ Serial v e) evs v) :
    ∃ done, v.arrived = done.map Prod.snd ++ v.held ++ v.queue ∧ Accounts c done v.log := by
  suffices (∃ done, v.pushed.map Prod.snd = done.map Prod.snd ++ heldIn v.calls ++ v.queue ∧ Accounts c done v.log) ∧ v.calls.size ≤ 1
    from this.1
  induction h with
  | init => exact ⟨⟨[], rfl, .nil⟩, Nat.zero_le 1⟩
  | @step evs e v0 v h0 hP hs ih =>
    obtain ⟨⟨done, g1, g2⟩, g3⟩ := ih
    have hno := h0.noStep (fun _ _ g => g.1)
    have hsize : ∀ {x p}, v0.calls.get? x = some p → (v0.calls.erase x).entries = [] := by
      intro x p hx
      have := (AMap.perm_erase hx).length_eq
      simp only [List.length_cons] at this
      have g3 : v0.calls.entries.length ≤ 1 := g3
      exact List.length_eq_zero_iff.mp (by omega)
    have hheld : ∀ {x p}, v0.calls.get? x = some p → heldIn (v0.calls.erase x) = [] := by
      intro x p hx
      unfold heldIn
      rw [hsize hx]
      rfl
    have hins : ∀ {x p} q, v0.calls.get? x = some p → (v0.calls.insert x q).size ≤ 1 := by
      intro x p q hx
      show ((x, q) :: (v0.calls.erase x).entries).length ≤ 1
      rw [hsize hx]
      exact Nat.le_refl 1
    have hnone : ∀ {x p}, v0.calls.get? x = some p → isHolding p = false → heldIn v0.calls = [] := by
      intro x p hx hp
      have := heldIn_erase hx
      rw [hheld hx] at this
      cases p <;> first | exact this.eq_nil | exact nomatch hp
    cases Flow.step hs h0.holds with
    | quiet q => exact ⟨⟨done, by rw [q.pushed, q.queue, g1, q.calls], q.log ▸ g2⟩, q.calls ▸ g3⟩
    | push i s q1 q2 q3 q4 q5 q6 =>
      exact ⟨⟨done, by rw [q1, q2, q3, List.map_append, g1, List.append_assoc, List.append_assoc, List.append_assoc]; rfl, q4 ▸ g2⟩, q3 ▸ g3⟩
    | call x k he q0 _ _ q1 q2 q3 q4 q5 =>
      have hz : v0.calls.size = 0 := by
        have := hP.2
        rw [he] at this
        exact this
      refine ⟨⟨done, ?_, q4 ▸ g2⟩, ?_⟩
      · rw [q1, q2, g1, q3, heldIn_new q0 (by split <;> rfl)]
      · rw [q3]
        show ((x, _) :: (v0.calls.erase x).entries).length ≤ 1
        rw [AMap.erase_none q0]
        have hz : v0.calls.entries.length = 0 := hz
        simp only [List.length_cons]
        omega
    | failed x k t he q0 _ q1 q2 q3 q4 q5 _ =>
      refine ⟨⟨done, ?_, q4 ▸ g2⟩, q3 ▸ hins _ q0⟩
      rw [q1, q2, g1, q3, heldIn_insert, hheld q0, hnone q0 rfl]
      rfl
    | pop x k t s he q0 _ q1 q2 q3 q4 q5 =>
      have hk : k ≠ .timestep := by simpa [isStep] using hno x _ q0
      rw [if_neg hk] at q3
      refine ⟨⟨done, ?_, q4 ▸ g2⟩, q3 ▸ hins _ q0⟩
      rw [q2, g1, q3, heldIn_insert, hheld q0, hnone q0 rfl, q1]
      simp [sampleIn]
    | fail x k st he q0 q1 q2 q3 q4 q5 =>
      refine ⟨⟨done, ?_, q4 ▸ g2.other st⟩, ?_⟩
      · rw [q1, q2, g1, q3, hheld q0, hnone q0 rfl]
      · rw [q3]
        show (v0.calls.erase x).entries.length ≤ 1
        rw [hsize q0]
        exact Nat.zero_le 1
    | sample x k s o he q0 qo q1 q2 q3 q4 q5 =>
      have hh : heldIn v0.calls = [s] := by
        have := heldIn_erase q0
        rw [hheld q0] at this
        exact List.perm_singleton.mp this
      refine ⟨⟨done ++ [(k, s)], ?_, q4 ▸ g2.sample qo⟩, ?_⟩
      · rw [q1, q2, g1, q3, hheld q0, hh]
        simp
      · rw [q3]
        show (v0.calls.erase x).entries.length ≤ 1
        rw [hsize q0]
        exact Nat.zero_le 1
    | timestep x s s' o he q0 _ _ _ _ _ _ _ =>
      have := hno x _ q0
      cases this

/-- C69: calls of `GetNextTimestep` read the samples one after the other, each from its first timestep to its last, in the order in which
they arrived. -/
theorem C69_timesteps {c : SamplerCfg} (hc : c.Valid) {now : Int} {evs : List Event} {v : ClientSampler}
    (h : Reach c now (fun v e => Faithful v e ∧ OnlyTimesteps e) evs v) :
    ∃ done out, ReadAll c done out ∧
      ((v.arrived = done ++ v.queue ∧ v.log = out) ∨
        ∃ s steps s', v.arrived = done ++ [s] ++ v.queue ∧ v.log = out ++ steps ∧ Reads c s steps s' ∧ v.active = some s') := by
  suffices (∃ done out, ReadAll c done out ∧ (v.partlyRead = false → v.pushed.map Prod.snd = done ++ v.queue ∧ v.log = out) ∧
      (v.partlyRead = true → ∃ s steps s', v.pushed.map Prod.snd = done ++ [s] ++ v.queue ∧ v.log = out ++ steps ∧ Reads c s steps s' ∧
        v.active = some s')) ∧
      ((∀ x p, v.calls.get? x = some p → isStep p = true) ∧ ∀ x k, v.calls.get? x = some (.failed k) → v.partlyRead = false) by
    obtain ⟨⟨done, out, g1, g2, g3⟩, _⟩ := this
    refine ⟨done, out, g1, ?_⟩
    cases hp : v.partlyRead with
    | false => exact .inl (g2 hp)
    | true => exact .inr (g3 hp)
  induction h with
  | init => exact ⟨⟨[], [], .nil, fun _ => ⟨rfl, rfl⟩, (by intro g; cases g)⟩, (by intro x p g; cases g), (by intro x k g; cases g)⟩
  | @step evs e v0 v h0 hP hs ih =>
    obtain ⟨⟨done, out, g1, g2, g3⟩, g4, g5⟩ := ih
    have hd : v0.dead = false := by
      unfold ClientSampler.step at hs
      split at hs
      · cases hs
      · rename_i g
        simpa using g
    have hinv := h0.inv hc (fun _ _ g => g.1) hd
    have honly : ∀ {x p y q}, v0.calls.get? x = some p → v0.calls.get? y = some q → y = x := by
      intro x p y q hx hy
      have h1 := hinv.excl (AMap.count_pos hx (g4 x p hx))
      have h2 := AMap.count_erase_true isCall hx rfl
      by_cases hxy : y = x
      · exact hxy
      · exfalso
        have : 0 < (v0.calls.erase x).count isCall := AMap.count_pos (x := y) (a := q) (by rw [AMap.get?_erase, if_neg hxy]; exact hy) rfl
        omega
    have hpart : ∀ {w : ClientSampler}, w.active = v0.active → w.partlyRead = v0.partlyRead := by
      intro w hw
      unfold partlyRead
      rw [hw]
    cases Flow.step hs h0.holds with
    | quiet q =>
      rw [q.pushed, q.queue, q.log, q.active, q.calls, hpart q.active]
      exact ⟨⟨done, out, g1, g2, g3⟩, g4, g5⟩
    | push i s q1 q2 q3 q4 q5 q6 =>
      rw [q1, q2, q3, q4, q5, hpart q5]
      refine ⟨⟨done, out, g1, ?_, ?_⟩, g4, g5⟩
      · intro hp
        obtain ⟨e1, e2⟩ := g2 hp
        exact ⟨by rw [List.map_append, e1, List.append_assoc]; rfl, e2⟩
      · intro hp
        obtain ⟨a, b, d, e1, e2, e3, e4⟩ := g3 hp
        exact ⟨a, b, d, by rw [List.map_append, e1, List.append_assoc, List.append_assoc, List.append_assoc]; rfl, e2, e3, e4⟩
    | call x k he q0 qt _ q1 q2 q3 q4 q5 =>
      have hk : k = .timestep := by
        have := hP.2
        rw [he] at this
        exact this
      rw [q1, q2, q3, q4, q5, hpart q5]
      refine ⟨⟨done, out, g1, g2, g3⟩, ?_, ?_⟩
      · intro y p hy
        rcases get_insert hy with ⟨_, g⟩ | ⟨_, g⟩
        · subst g
          split
          · rfl
          · simp [isStep, hk]
        · exact g4 y p g
      · intro y k' hy
        rcases get_insert hy with ⟨_, g⟩ | ⟨_, g⟩
        · split at g <;> cases g
        · exact g5 y k' g
    | failed x k t he q0 _ q1 q2 q3 q4 q5 _ =>
      have hk : k = .timestep := by simpa [isStep] using g4 x _ q0
      subst hk
      rw [q1, q2, q3, q4, q5, hpart q5]
      refine ⟨⟨done, out, g1, g2, g3⟩, ?_, ?_⟩
      · intro y p hy
        rcases get_insert hy with ⟨_, g⟩ | ⟨_, g⟩
        · subst g
          rfl
        · exact g4 y p g
      · intro y k' hy
        exact hinv.tpop x t q0
    | pop x k t s he q0 _ q1 q2 q3 q4 q5 =>
      have hk : k = .timestep := by simpa [isStep] using g4 x _ q0
      subst hk
      simp only [if_true] at q3 q5
      have hnp := hinv.tpop x t q0
      obtain ⟨e1, e2⟩ := g2 hnp
      have hfresh := hinv.fresh s (by rw [q1]; simp)
      have hpr : v.partlyRead = true := by
        unfold partlyRead
        rw [q5]
        simp [hfresh]
      rw [hpr, q2, q3, q4, q5]
      refine ⟨⟨done, out, g1, (by intro g; cases g), fun _ => ⟨s, [], s, ?_, by rw [e2, List.append_nil], .nil s, rfl⟩⟩, ?_, ?_⟩
      · rw [e1, q1]
        simp
      · intro y p hy
        rcases get_insert hy with ⟨_, g⟩ | ⟨_, g⟩
        · subst g
          rfl
        · exact g4 y p g
      · intro y k' hy
        rcases get_insert hy with ⟨_, g⟩ | ⟨hne, g⟩
        · cases g
        · exact absurd (honly q0 g) hne
    | fail x k st he q0 q1 q2 q3 q4 q5 =>
      have hnp := g5 x k q0
      obtain ⟨e1, e2⟩ := g2 hnp
      rw [q1, q2, q3, q4, q5, hpart q5, hnp]
      refine ⟨⟨done, out ++ [.error st], g1.other st, fun _ => ⟨e1, by rw [e2]⟩, (by intro g; cases g)⟩, ?_, ?_⟩
      · intro y p hy
        exact g4 y p (get_erase hy).2
      · intro _ _ _
        rfl
    | sample x k s o he q0 qo q1 q2 q3 q4 q5 =>
      exfalso
      have h1 := g4 x _ q0
      have h2 := (hinv.hold x k s q0).1
      simp only [isStep, decide_eq_true_eq] at h1
      exact h2 h1
    | timestep x s s' o he q0 qa qo q1 q2 q3 q4 q5 =>
      have hp := hinv.tstep x q0
      obtain ⟨a, b, d, e1, e2, e3, e4⟩ := g3 hp
      rw [qa] at e4
      cases e4
      have hend : s.isEndOfSample = false := by
        unfold partlyRead at hp
        rw [qa] at hp
        simpa using hp
      have hr : Reads c a (b ++ [o]) s' := e3.step hend qo
      have hcalls : ∀ y p, v.calls.get? y = some p → False := by
        intro y p hy
        rw [q3] at hy
        obtain ⟨hne, g⟩ := get_erase hy
        exact hne (honly q0 g)
      refine ⟨?_, fun y p hy => (hcalls y p hy).elim, fun y k hy => (hcalls y _ hy).elim⟩
      cases hs' : s'.isEndOfSample with
      | false =>
        have hpr : v.partlyRead = true := by
          unfold partlyRead
          rw [q5]
          simp [hs']
        rw [hpr]
        exact ⟨done, out, g1, (by intro g; cases g), fun _ => ⟨a, b ++ [o], s', by rw [q1, q2, e1], by rw [q4, e2, List.append_assoc], hr, q5⟩⟩
      | true =>
        have hpr : v.partlyRead = false := by
          unfold partlyRead
          rw [q5]
          simp [hs']
        rw [hpr]
        refine ⟨done ++ [a], out ++ (b ++ [o]), g1.sample hr hs', fun _ => ⟨by rw [q1, q2, e1], by rw [q4, e2, List.append_assoc]⟩,
          (by intro g; cases g)⟩

namespace SampleOrderDemo
open SamplerDemo

/-- Checks of schedules. -/
def serialB (v : ClientSampler) : Event → Bool
  | .call _ k => decide (k ≠ .timestep ∧ v.calls.size = 0)
  | _ => true
def timestepsB (v : ClientSampler) (e : Event) : Bool := faithfulB v e &&
  match e with
  | .call _ k => decide (k = .timestep)
  | _ => true

theorem serial_of (v : ClientSampler) (e : Event) (h : serialB v e = true) : NoTimesteps e ∧ Serial v e := by
  cases e with
  | call x k => simpa [serialB, NoTimesteps, Serial] using h
  | _ => exact ⟨trivial, trivial⟩

theorem timesteps_of (v : ClientSampler) (e : Event) (h : timestepsB v e = true) : Faithful v e ∧ OnlyTimesteps e := by
  simp only [timestepsB, Bool.and_eq_true] at h
  refine ⟨faithful_of h.1, ?_⟩
  cases e with
  | call x k => exact (show k = .timestep from of_decide_eq_true h.2)
  | _ => trivial

/-- Two samples with different columns. -/
def small : SampledItem := ⟨SampleDemo.info, [⟨[⟨2, 0, 2, 0⟩], false⟩], [SampleDemo.ch2]⟩

/-- The table gives two samples and the calls return them in the same order, and then nothing. -/
def serialRun : List Event := [.work 0, .work 0, .answer 0 (.ok [SampleDemo.item]), .call 0 .trajectory, .work 0, .pop 0, .finish 0, .work 0,
  .answer 0 (.ok [small]), .work 0, .call 1 .batched, .pop 1, .finish 1, .call 2 .trajectory, .pop 2, .finish 2]
def timestepRun : List Event := [.work 0, .work 0, .answer 0 (.ok [small]), .call 0 .timestep, .work 0, .pop 0, .finish 0, .call 1 .timestep,
  .finish 1, .work 0, .answer 0 (.ok [item2]), .work 0, .call 2 .timestep, .pop 2, .finish 2]

end SampleOrderDemo
open SamplerDemo SampleOrderDemo

/-- The hypotheses of the theorems above are met. -/
example : ∃ v, Reach (SamplerDemo.here 2 none) 0 (fun v e => NoTimesteps e ∧ Serial v e) serialRun v ∧ v.arrived.length = 2 ∧ v.log.length = 3 ∧
    v.log.map SampleOut.isError = [false, false, true] := by
  obtain ⟨v, h1, h2⟩ := afterB_reach serial_of (P := fun v => decide (v.arrived.length = 2 ∧ v.log.length = 3 ∧
    v.log.map SampleOut.isError = [false, false, true])) (evs := serialRun) (.init (c := SamplerDemo.here 2 none) (now := 0)) (by decide +kernel)
  exact ⟨v, h1, by simpa using h2⟩

example : ∃ v, Reach (SamplerDemo.here 2 none) 0 (fun v e => Faithful v e ∧ OnlyTimesteps e) timestepRun v ∧ v.arrived.length = 2 ∧
    v.partlyRead = true ∧ v.log.map SampleOut.complete = [false, true, false] := by
  obtain ⟨v, h1, h2⟩ := afterB_reach timesteps_of (P := fun v => decide (v.arrived.length = 2 ∧ v.partlyRead = true ∧
    v.log.map SampleOut.complete = [false, true, false])) (evs := timestepRun) (.init (c := SamplerDemo.here 2 none) (now := 0))
    (by decide +kernel)
  exact ⟨v, h1, by simpa using h2⟩

end Verif
