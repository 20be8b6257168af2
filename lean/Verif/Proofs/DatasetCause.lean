import Verif.Proofs.DatasetRun
/-
The iterators of the dataset ops: where the end of the sequence comes from.
-/
namespace Verif
namespace DataIter
open ClientSampler (Used)

/-- The rate limiter timed out for worker `i` at the last event of `evs`. -/
def Caused (c : DatasetCfg) (now : Int) (evs : List Event) (i : Nat) : Prop :=
  ∃ a e b d0, evs = a ++ e :: b ∧ Reach c now a d0 ∧ (TimesOut i e ∧ Waiting d0 ∨ TimesOutWrite i e)

theorem Caused.mono {c : DatasetCfg} {now : Int} {evs : List Event} {i : Nat} (h : Caused c now evs i) (e : Event) :
    Caused c now (evs ++ [e]) i := by
  obtain ⟨a, e', b, d0, h1, h2⟩ := h
  exact ⟨a, e', b ++ [e], d0, by simp [h1], h2⟩

/-- Messages about the rate limiter have a cause. -/
def CInv (C : Nat → Prop) (d : DataIter) : Prop :=
  (∀ (i : Nat) w n got, d.sampler.workers[i]? = some w → w.phase = .report n got (some .deadlineExceeded) →
    d.messages.getD i false = true → C i) ∧
  (d.sampler.status = some .deadlineExceeded → d.limiter = true → ∃ i, C i)

/-- The messages after a step of the sampler. -/
def newMessages (d : DataIter) (e : ClientSampler.Event) (m : Bool) : List Bool :=
  match messageOf e m with
  | some (i, m) => d.messages.set i m
  | none => d.messages

theorem CInv.sampled {c : SamplerCfg} {C C' : Nat → Prop} {d d' : DataIter} {e : ClientSampler.Event} {m : Bool} (h : CInv C d)
    (hC : ∀ i, C i → C' i) (hs : ClientSampler.step c d.sampler e = some d'.sampler)
    (hm : d'.messages = newMessages d e m) (hl : d'.limiter = newLimiter d e d'.sampler)
    (hnew : ∀ i, e = .write i (some (some .deadlineExceeded)) ∧ m = true ∨
      e = .streamEnd i (some .deadlineExceeded) true ∧ 1 ≤ d.sampler.waitingToPop ∨
      e = .answer i (.err .deadlineExceeded) ∧ 1 ≤ d.sampler.waitingToPop → C' i) : CInv C' d' := by
  have hset : ∀ (l : List Bool) (i : Nat) (b : Bool), (l.set i b).getD i false = true → b = true := by
    intro l i b g
    rw [List.getD_eq_getElem?_getD, List.getElem?_set] at g
    simp only [if_true] at g
    split at g
    · exact g
    · cases g
  refine ⟨?_, ?_⟩
  · intro i w n got hw hp hmsg
    rcases ClientSampler.Tardy.step hs hw n got hp with ⟨w0, hw0, hp0⟩ | he | ⟨lim, he, hlim⟩ | ⟨he, hwait⟩
    · apply hC
      apply h.1 i w0 n got hw0 (hp0.trans hp)
      obtain ⟨g1, g2, g3⟩ := ClientSampler.no_message (c := c) hw0 (hp0.trans hp)
      rw [hm] at hmsg
      have hother : ∀ (j : Nat) (b : Bool), j ≠ i → (d.messages.set j b).getD i false = d.messages.getD i false := by
        intro j b hne
        rw [List.getD_eq_getElem?_getD, List.getElem?_set_ne hne, List.getD_eq_getElem?_getD]
      unfold newMessages messageOf at hmsg
      split at hmsg
      · rename_i j b hj
        split at hj
        · rename_i k r
          cases hj
          rw [hother] at hmsg
          · exact hmsg
          · rintro rfl
            rw [g1] at hs; cases hs
        · rename_i k r lim
          cases hj
          rw [hother] at hmsg
          · exact hmsg
          · rintro rfl
            rw [g2] at hs; cases hs
        · rename_i k r
          cases hj
          rw [hother] at hmsg
          · exact hmsg
          · rintro rfl
            rw [g3] at hs; cases hs
        · cases hj
      · exact hmsg
    · subst he
      rw [hm] at hmsg
      exact hnew i (.inl ⟨rfl, hset _ _ _ hmsg⟩)
    · subst he
      rw [hm] at hmsg
      have : lim = true := hset _ _ _ hmsg
      subst this
      exact hnew i (.inr (.inl ⟨rfl, hlim rfl⟩))
    · exact hnew i (.inr (.inr ⟨he, hwait⟩))
  · intro hst hlim
    rw [hl] at hlim
    rcases ClientSampler.status_step hs (by rw [hst]; simp) with g | ⟨i, w, n, got, hw, hp, he⟩
    · have hlim : d.limiter = true := by
        unfold newLimiter at hlim
        split at hlim
        · rw [if_neg (fun q => by rw [g, hst] at q; cases q.1)] at hlim
          exact hlim
        · exact hlim
      obtain ⟨i, q⟩ := h.2 (g.trans hst) hlim
      exact ⟨i, hC i q⟩
    · subst he
      rw [hst] at hp
      simp only [newLimiter, workerOf] at hlim
      split at hlim
      · exact ⟨i, hC i (h.1 i w n got hw hp hlim)⟩
      · rename_i hne
        have : d.sampler.status = some .deadlineExceeded := by
          cases hq : d.sampler.status with
          | none => exact absurd ⟨hq, by rw [hst]; simp⟩ hne
          | some y =>
            have := (ClientSampler.Eff.step hs).status (by rw [hq]; simp)
            rw [hst, hq] at this
            exact this.symm
        obtain ⟨i, q⟩ := h.2 this hlim
        exact ⟨i, hC i q⟩

theorem CInv.same {C C' : Nat → Prop} {d d' : DataIter} (h : CInv C d) (hC : ∀ i, C i → C' i) (hv : d'.sampler = d.sampler)
    (hm : d'.messages = d.messages) (hl : d'.limiter = d.limiter) : CInv C' d' := by
  refine ⟨?_, ?_⟩
  · rw [hv, hm]
    exact fun i w n got g1 g2 g3 => hC i (h.1 i w n got g1 g2 g3)
  · rw [hv, hl]
    intro g1 g2
    obtain ⟨i, q⟩ := h.2 g1 g2
    exact ⟨i, hC i q⟩

theorem Reach.cause {c : DatasetCfg} {now : Int} {evs : List Event} {d : DataIter} (h : Reach c now evs d) :
    CInv (Caused c now evs) d := by
  induction h with
  | init =>
    refine ⟨?_, ?_⟩
    · intro i w n got hw hp
      have : w ∈ (ClientSampler.init c.sampler now).workers := List.mem_of_getElem? hw
      simp only [ClientSampler.init, List.mem_replicate] at this
      rw [this.2] at hp
      cases hp
    · intro g; cases g
  | @step evs e d d' h0 hh hs ih =>
    have hC : ∀ i, Caused c now evs i → Caused c now (evs ++ [e]) i := fun i g => g.mono e
    have hcall : ∀ {d d' : DataIter} {r : Bool}, CInv (Caused c now evs) d → begin c d r = some d' → ∀ n,
        CInv (Caused c now (evs ++ [e])) { d' with callbacks := n } := by
      intro d d' r ih hb n
      obtain ⟨v, hv, rfl⟩ := begin_eq hb
      exact ih.sampled (m := false) (d' := { d with sampler := v, phase := .calling r, callbacks := n }) hC hv rfl rfl
        (fun i g => by rcases g with ⟨g, _⟩ | ⟨g, _⟩ | ⟨g, _⟩ <;> cases g)
    have hclose : ∀ {v : ClientSampler}, ClientSampler.step c.sampler d.sampler .close = some v → ∀ p mg,
        CInv (Caused c now (evs ++ [e])) { d with sampler := v, phase := p, manager := mg } := by
      intro v hv p mg
      exact ih.sampled (m := false) (d' := { d with sampler := v, phase := p, manager := mg }) hC hv rfl rfl
        (fun i g => by rcases g with ⟨g, _⟩ | ⟨g, _⟩ | ⟨g, _⟩ <;> cases g)
    cases e with
    | next =>
      have hs : d.next c = some d' := hs
      unfold DataIter.next at hs
      split at hs
      · split at hs
        · split at hs
          · cases hs
          · rename_i d1 hb
            cases hs
            exact hcall ih hb _
        · split at hs
          · exact hcall ih hs d'.callbacks
          · split at hs
            · cases hs
            · rename_i v hv
              cases hs
              exact hclose hv _ _
      · cases hs
    | closed =>
      have hs : d.closed c = some d' := hs
      unfold DataIter.closed at hs
      split at hs
      · split at hs
        · exact hcall ih hs d'.callbacks
        · cases hs
      · cases hs
    | cancel =>
      have hs : d.cancel c = some d' := hs
      unfold DataIter.cancel at hs
      split at hs
      · split at hs
        · cases hs
          exact ih.same hC rfl rfl rfl
        · split at hs
          · cases hs
          · rename_i v hv
            cases hs
            exact hclose hv _ _
      · cases hs
    | cancelled =>
      have hs : d.cancelled = some d' := hs
      unfold DataIter.cancelled at hs
      split at hs
      · cases hs
        exact ih.same hC rfl rfl rfl
      · cases hs
    | inside e m =>
      rcases inside_other hs with rfl | ⟨h1, h2, h3, v, hv, rfl⟩
      · obtain ⟨r, v, hp, hv, ⟨_, rfl⟩ | ⟨o, _, _, rfl⟩⟩ := finish_inside (m := m) hs <;>
        exact ih.sampled (m := false) (e := .finish 0) hC hv rfl rfl (fun i g => by rcases g with ⟨g, _⟩ | ⟨g, _⟩ | ⟨g, _⟩ <;> cases g)
      · refine ih.sampled (m := m) (e := e) hC hv rfl rfl ?_
        have hwait : 1 ≤ d.sampler.waitingToPop → Waiting d := by
          intro g
          obtain ⟨x, k, t, hx⟩ := ClientSampler.waits_of_waitingToPop g
          have := (h0.inv.only x _ hx).1
          subst this
          exact ⟨k, t, hx⟩
        intro i g
        refine ⟨evs, .inside e m, [], d, rfl, h0, ?_⟩
        rcases g with ⟨rfl, rfl⟩ | ⟨rfl, g⟩ | ⟨rfl, g⟩
        · exact .inr ⟨rfl, rfl, rfl⟩
        · exact .inl ⟨⟨rfl, rfl, rfl⟩, hwait g⟩
        · exact .inl ⟨⟨rfl, rfl⟩, hwait g⟩
    | leave =>
      simp only [DataIter.move] at hs
      split at hs
      · cases hs
      · obtain ⟨r, o, hp, io, s, n, rfl, _⟩ := leave_cases hs
        exact ih.same hC rfl rfl rfl

end DataIter
end Verif
