import Verif.Proofs.Ext
/-
The calls of one thread of a table with asynchronous extensions (C60).
-/
namespace Verif
namespace Ext

open Table (Op Reply)

/-- What a waiting thread waits for, and the call it has made. -/
def CallsInv (tid : Nat) (trace : List Entry) : Option Thread → Prop
  | none => Calls tid trace none
  | some (.limiter w) => ∃ op w0, Calls tid trace (some op) ∧ op.waiting = some w0 ∧ (w = w0 ∨ again w0 w)
  | some .reset => Calls tid trace (some .reset)
  | some (.buffer op' ..) => ∃ op, Calls tid trace (some op) ∧ Follows op op'

theorem waiting_follows {op op' w : Op} (h : Follows op op') (hw : op'.waiting = some w) :
    ∃ w0, op.waiting = some w0 ∧ (w = w0 ∨ again w0 w) := by
  rcases h with rfl | ⟨w0, h1, h2⟩
  · exact ⟨w, hw, .inl rfl⟩
  · refine ⟨w0, h1, .inr ?_⟩
    cases w0 <;> cases op' <;> simp_all [again, Op.waiting] <;> subst hw <;> simp [again]

theorem again_trans {a b c : Op} (h1 : again a b) (h2 : again b c) : again a c := by
  cases a <;> cases b <;> cases c <;> simp_all [again]

theorem CallsInv.other {tid' : Nat} {tr : List Entry} {th : Option Thread} (h : CallsInv tid' tr th) {e : Entry}
    (he : ∀ o, Calls tid' tr o → Calls tid' (tr ++ [e]) o) : CallsInv tid' (tr ++ [e]) th := by
  match th, h with
  | none, h => exact he _ h
  | some (.limiter w), ⟨op, w0, h1, h2⟩ => exact ⟨op, w0, he _ h1, h2⟩
  | some .reset, h => exact he _ h
  | some (.buffer ..), ⟨op, h1, h2⟩ => exact ⟨op, he _ h1, h2⟩

/-- `go` ends in one of these ways. -/
theorem go_ends (c : Cfg) (tid : Nat) (op : Op) (p : Prog Reply) (s s' : State) (h : go c tid op p s = some s') :
    ∃ s1 : State, s1.threads = s.threads ∧ s1.trace = s.trace ∧ ((∃ t r, s' = s1.finish tid op t r) ∨
      ∃ t kind key next, s' = { s1 with
        t := t
        threads := s1.threads.insert tid (.buffer op false kind key next) }) := by
  induction p generalizing s with
  | ret t r =>
    cases r with
    | died => cases h
    | ok a => exact ⟨s, rfl, rfl, .inl ⟨t, _, (Option.some.inj h).symm⟩⟩
    | err a => exact ⟨s, rfl, rfl, .inl ⟨t, _, (Option.some.inj h).symm⟩⟩
  | ext t kind key next ih =>
    rw [go] at h
    split at h
    · split at h
      · exact ⟨s, rfl, rfl, .inr ⟨t, kind, key, next, (Option.some.inj h).symm⟩⟩
      · split at h
        · cases h
        · exact (ih t _ h :)
    · split at h
      · cases h
      · exact (ih t _ h :)

theorem go_calls {c : Cfg} {tid : Nat} {op op' : Op} {p : Prog Reply} {s s' : State} (h : go c tid op' p s = some s')
    (hc : Calls tid s.trace (some op)) (hf : Follows op op') (ho : ∀ tid', tid' ≠ tid → CallsInv tid' s.trace (s.threads.get? tid')) :
    ∀ tid', CallsInv tid' s'.trace (s'.threads.get? tid') := by
  obtain ⟨s1, h1, h2, h3⟩ := go_ends c tid op' p s s' h
  rw [← h2] at hc
  rw [← h1, ← h2] at ho
  intro tid'
  rcases h3 with ⟨t, r, rfl⟩ | ⟨t, kind, key, next, rfl⟩
  · unfold State.finish
    split
    · rename_i w hw
      have hw : op'.waiting = some w := by
        split at hw
        · exact hw
        · cases hw
      simp only [AMap.get?_insert]
      split
      · rename_i he
        subst he
        obtain ⟨w0, a, b⟩ := waiting_follows hf hw
        exact ⟨op, w0, hc, a, b⟩
      · exact ho tid' (by assumption)
    · simp only [AMap.get?_erase]
      split
      · rename_i he
        subst he
        exact .ret hc hf
      · rename_i hne
        exact (ho tid' hne).other fun o h => .otherRet h (Ne.symm hne)
  · simp only [AMap.get?_insert]
    split
    · rename_i he
      subst he
      exact ⟨op, hc, hf⟩
    · exact ho tid' (by assumption)

theorem signal_calls {s s' : State} {who : Nat} (hs : s.signal who = some s') (h : ∀ tid, CallsInv tid s.trace (s.threads.get? tid)) :
    ∀ tid, CallsInv tid s'.trace (s'.threads.get? tid) := by
  obtain ⟨op, awake, kind, key, next, hg, rfl⟩ := signal_spec hs
  intro tid
  simp only [AMap.get?_insert]
  split
  · rename_i he
    subst he
    have := h tid
    rw [hg] at this
    exact this
  · exact h tid

theorem take_calls {c : Cfg} {s s' : State} {who : Option Nat} (hs : s.take c who = some s')
    (h : ∀ tid, CallsInv tid s.trace (s.threads.get? tid)) : ∀ tid, CallsInv tid s'.trace (s'.threads.get? tid) := by
  unfold State.take at hs
  dsimp only at hs
  split at hs
  · split at hs
    · exact signal_calls hs h
    · split at hs
      · cases hs
      · cases hs; exact h
  · split at hs
    · cases hs
    · cases hs; exact h

theorem Outcome.of_next {o : Option State} {s : State} (h : Outcome.of o = .next s) : o = some s := by
  cases o with
  | none => cases h
  | some s' => cases h; rfl

theorem Outcome.guard_next {o : Option State} {s : State} (h : Outcome.guard o = .next s) : o = some s := by
  cases o with
  | none => cases h
  | some s' => cases h; rfl

theorem step_calls {c : Cfg} {s s' : State} {e : Event} (hs : step c s e = .next s') (h : ∀ tid, CallsInv tid s.trace (s.threads.get? tid)) :
    ∀ tid, CallsInv tid s'.trace (s'.threads.get? tid) := by
  cases e with
  | call tid op =>
    have oth : ∀ op tid', tid' ≠ tid → CallsInv tid' (s.trace ++ [.call tid op]) (s.threads.get? tid') := fun op tid' hne =>
      (h tid').other fun o h => .otherCall h (Ne.symm hne)
    rw [step] at hs
    split at hs
    · cases hs
    · rename_i hg
      have h0 : Calls tid s.trace none := by have := h tid; rw [hg] at this; exact this
      dsimp only at hs
      split at hs
      · cases hs
      · cases hs
      · split at hs
        · exact go_calls (Outcome.of_next hs) (.call h0) (.inl rfl) (oth _)
        · cases hs
          intro tid'
          simp only [AMap.get?_insert]
          split
          · rename_i he
            subst he
            exact .call h0
          · exact oth _ tid' (by assumption)
      · exact go_calls (Outcome.of_next hs) (.call h0) (.inl rfl) (oth _)
  | resume tid op =>
    rw [step] at hs
    split at hs
    · rename_i op0 hg
      split at hs
      · rename_i hag
        have := h tid
        rw [hg] at this
        obtain ⟨op1, w0, a, b, d⟩ := this
        refine go_calls (Outcome.of_next hs) a (.inr ⟨w0, b, ?_⟩) (fun tid' _ => h tid')
        rcases d with rfl | d
        · exact hag
        · exact again_trans d hag
      · cases hs
    · cases hs
  | timeout tid =>
    rw [step] at hs
    split at hs
    · rename_i op0 hg
      cases hs
      intro tid'
      simp only [AMap.get?_erase]
      split
      · rename_i he
        subst he
        have := h tid'
        rw [hg] at this
        obtain ⟨op1, w0, a, b, d⟩ := this
        exact .timeout a (by rw [b]; rfl)
      · rename_i hne
        exact (h tid').other fun o h => .otherTimeout h (Ne.symm hne)
    · cases hs
  | drained tid =>
    rw [step] at hs
    split at hs
    · rename_i hg
      split at hs
      · have := h tid
        rw [hg] at this
        exact go_calls (Outcome.of_next hs) this (.inl rfl) (fun tid' _ => h tid')
      · cases hs
    · cases hs
  | push tid =>
    rw [step] at hs
    split at hs
    · rename_i op kind key next hg
      have := h tid
      rw [hg] at this
      obtain ⟨op1, a, b⟩ := this
      exact go_calls (Outcome.of_next hs) a b (fun tid' _ => h tid')
    · cases hs
  | spurious tid => exact signal_calls (Outcome.guard_next hs) h
  | read =>
    cases hs
    exact fun tid => (h tid).other fun o h => .read h
  | start =>
    rw [step] at hs
    split at hs
    · cases hs; exact h
    · cases hs
  | check =>
    rw [step] at hs
    split at hs
    · cases hs; exact h
    · cases hs
  | lock who =>
    unfold step at hs
    dsimp only at hs
    split at hs
    · split at hs
      · split at hs
        · cases hs
        · cases hs; exact h
      · exact take_calls (Outcome.guard_next hs) h
    · split at hs
      · exact take_calls (Outcome.guard_next hs) h
      · cases hs
  | handle =>
    rw [step] at hs
    split at hs
    · cases hs; exact h
    · cases hs
  | stop => cases hs; exact h
  | signalAll =>
    cases hs
    intro tid
    have := h tid
    simp only [AMap.get?_mapVals]
    revert this
    cases s.threads.get? tid with
    | none => exact id
    | some th => cases th <;> exact id

theorem run_calls {c : Cfg} (es : List Event) {s s' : State} (hs : run c s es = .next s')
    (h : ∀ tid, CallsInv tid s.trace (s.threads.get? tid)) : ∀ tid, CallsInv tid s'.trace (s'.threads.get? tid) := by
  induction es generalizing s with
  | nil => cases hs; exact h
  | cons e es ih =>
    rw [run] at hs
    split at hs
    · rename_i s1 hs1
      exact ih hs (step_calls hs1 h)
    · rename_i o hn
      exact absurd hs (hn s')

theorem CallsInv.calls {tid : Nat} {tr : List Entry} {th : Option Thread} (h : CallsInv tid tr th) : ∃ o, Calls tid tr o := by
  match th, h with
  | none, h => exact ⟨_, h⟩
  | some (.limiter w), ⟨op, w0, h1, h2⟩ => exact ⟨_, h1⟩
  | some .reset, h => exact ⟨_, h⟩
  | some (.buffer ..), ⟨op, h1, h2⟩ => exact ⟨_, h1⟩

end Ext
end Verif
