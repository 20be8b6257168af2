import Verif.Proofs.ExtCalls
/-
Which calls are made, who is in the buffer (C60, C75, C76).
-/
namespace Verif
namespace Ext

open Table (Op Reply)

/-- All calls that have returned or that wait in the buffer are of one kind. -/
structure Only (P : Op → Prop) (s : State) : Prop where
  ops : ∀ op ∈ s.ops, P op
  buf : ∀ tid op awake kind key next, s.threads.get? tid = some (.buffer op awake kind key next) → P op

theorem Only.same {P : Op → Prop} {s s' : State} (h : Only P s) (ht : returned s'.trace = returned s.trace)
    (hth : ∀ tid op awake kind key next, s'.threads.get? tid = some (.buffer op awake kind key next) →
      ∃ tid awake kind key next, s.threads.get? tid = some (.buffer op awake kind key next)) : Only P s' :=
  ⟨by simpa only [State.ops, ht] using h.ops, fun tid op awake kind key next hg =>
    match hth tid op awake kind key next hg with
    | ⟨_, _, _, _, _, h1⟩ => h.buf _ _ _ _ _ _ h1⟩

theorem go_only {P : Op → Prop} {c : Cfg} {tid : Nat} {op : Op} {p : Prog Reply} {s s' : State} (hs : go c tid op p s = some s')
    (h : Only P s) (hp : P op) : Only P s' := by
  obtain ⟨s1, h1, h2, h3⟩ := go_ends c tid op p s s' hs
  have h' : Only P s1 := h.same (by rw [h2]) (fun tid op awake kind key next hg => ⟨tid, awake, kind, key, next, by rw [← h1]; exact hg⟩)
  rcases h3 with ⟨t, r, rfl⟩ | ⟨t, kind, key, next, rfl⟩
  · unfold State.finish
    split
    · refine h'.same rfl fun tid' op' awake' kind' key' next' hg => ?_
      simp only [AMap.get?_insert] at hg
      split at hg
      · cases hg
      · exact ⟨_, _, _, _, _, hg⟩
    · refine ⟨?_, fun tid' op' awake' kind' key' next' hg => ?_⟩
      · intro o ho
        simp only [State.ops, returned_append, List.map_append, List.mem_append] at ho
        rcases ho with ho | ho
        · exact h'.ops o ho
        · simp [returned] at ho
          rw [ho]; exact hp
      · simp only [AMap.get?_erase] at hg
        split at hg
        · cases hg
        · exact h'.buf _ _ _ _ _ _ hg
  · refine ⟨h'.ops, fun tid' op' awake' kind' key' next' hg => ?_⟩
    simp only [AMap.get?_insert] at hg
    split at hg
    · cases hg; exact hp
    · exact h'.buf _ _ _ _ _ _ hg

theorem signal_only {P : Op → Prop} {s s' : State} {who : Nat} (hs : s.signal who = some s') (h : Only P s) : Only P s' := by
  obtain ⟨op, awake, kind, key, next, hg, rfl⟩ := signal_spec hs
  refine h.same rfl fun tid' op' awake' kind' key' next' hg' => ?_
  simp only [AMap.get?_insert] at hg'
  split at hg'
  · cases hg'; exact ⟨_, _, _, _, _, hg⟩
  · exact ⟨_, _, _, _, _, hg'⟩

theorem take_only {P : Op → Prop} {c : Cfg} {s s' : State} {who : Option Nat} (hs : s.take c who = some s') (h : Only P s) : Only P s' := by
  have key : Only P { s with taken := s.reqs, reqs := [], phase := .busy } := ⟨h.ops, h.buf⟩
  unfold State.take at hs
  dsimp only at hs
  split at hs
  · split at hs
    · exact signal_only hs key
    · split at hs
      · cases hs
      · cases hs; exact key
  · split at hs
    · cases hs
    · cases hs; exact key

theorem step_only {P : Op → Prop} {c : Cfg} {s s' : State} {e : Event} (hs : step c s e = .next s') (h : Only P s)
    (he : ∀ op, e.op? = some op → P op) (hr : P .reset) : Only P s' := by
  cases e with
  | call tid op =>
    have key : ∀ op, Only P { s with trace := s.trace ++ [.call tid op] } := fun op =>
      h.same (by simp [returned]) (fun tid op awake kind key next hg => ⟨tid, awake, kind, key, next, hg⟩)
    rw [step] at hs
    split at hs
    · cases hs
    · dsimp only at hs
      split at hs
      · cases hs
      · cases hs
      · split at hs
        · exact go_only (Outcome.of_next hs) ⟨(key .reset).ops, (key .reset).buf⟩ hr
        · cases hs
          refine (key .reset).same rfl fun tid' op' awake' kind' key' next' hg => ?_
          simp only [AMap.get?_insert] at hg
          split at hg
          · cases hg
          · exact ⟨_, _, _, _, _, hg⟩
      · exact go_only (Outcome.of_next hs) (key _) (he _ rfl)
  | resume tid op =>
    rw [step] at hs
    split at hs
    · split at hs
      · exact go_only (Outcome.of_next hs) h (he _ rfl)
      · cases hs
    · cases hs
  | timeout tid =>
    rw [step] at hs
    split at hs
    · cases hs
      refine h.same (by simp [returned]) fun tid' op' awake' kind' key' next' hg => ?_
      simp only [AMap.get?_erase] at hg
      split at hg
      · cases hg
      · exact ⟨_, _, _, _, _, hg⟩
    · cases hs
  | drained tid =>
    rw [step] at hs
    split at hs
    · split at hs
      · exact go_only (Outcome.of_next hs) ⟨h.ops, h.buf⟩ hr
      · cases hs
    · cases hs
  | push tid =>
    rw [step] at hs
    split at hs
    · rename_i op kind key next hg
      exact go_only (Outcome.of_next hs) h (h.buf _ _ _ _ _ _ hg)
    · cases hs
  | spurious tid => exact signal_only (Outcome.guard_next hs) h
  | read =>
    cases hs
    exact h.same (by simp [returned]) fun tid' op' awake' kind' key' next' hg => ⟨_, _, _, _, _, hg⟩
  | start =>
    rw [step] at hs
    split at hs
    · cases hs; exact ⟨h.ops, h.buf⟩
    · cases hs
  | check =>
    rw [step] at hs
    split at hs
    · cases hs; exact ⟨h.ops, h.buf⟩
    · cases hs
  | lock who =>
    unfold step at hs
    dsimp only at hs
    split at hs
    · split at hs
      · split at hs
        · cases hs
        · cases hs; exact ⟨h.ops, h.buf⟩
      · exact take_only (Outcome.guard_next hs) h
    · split at hs
      · exact take_only (Outcome.guard_next hs) h
      · cases hs
  | handle =>
    rw [step] at hs
    split at hs
    · cases hs; exact ⟨h.ops, h.buf⟩
    · cases hs
  | stop => cases hs; exact ⟨h.ops, h.buf⟩
  | signalAll =>
    cases hs
    refine h.same rfl fun tid' op' awake' kind' key' next' hg => ?_
    simp only [AMap.get?_mapVals] at hg
    obtain ⟨th, e1, e2⟩ := Option.map_eq_some_iff.mp hg
    cases th <;> simp only [Thread.wake] at e2 <;> cases e2
    exact ⟨_, _, _, _, _, e1⟩

theorem init_only (P : Op → Prop) (t : Table) : Only P (init t) :=
  ⟨fun op h => (by simp [State.ops, init, returned] at h), fun tid op awake kind key next h => (by simp [init] at h)⟩

/-- If calls of one kind do not kill the table when they come one after the other, no run apart does. -/
theorem run_alive {P : Op → Prop} {c : Cfg} {t0 : Table} (hr : P .reset)
    (hd : ∀ ops tb op, (∀ o ∈ ops, P o) → t0.run ops = some tb → P op → (tb.step op).2 ≠ .died) (es : List Event) {s : State} (h : Inv c t0 s)
    (ho : Only P s) (ha : Apart c s es) (he : ∀ e ∈ es, ∀ op, e.op? = some op → P op) :
    run c s es ≠ .died ∧ ∀ s', run c s es = .next s' → Only P s' := by
  induction es generalizing s with
  | nil => exact ⟨fun h => (by cases h), fun s' hs => (by cases hs; exact ho)⟩
  | cons e es ih =>
    have hg := step_apart h e ha.1
    rw [run]
    split
    · rename_i s1 hs1
      rw [hs1] at hg
      exact ih hg (step_only hs1 ho (he e (List.mem_cons_self ..)) hr) (ha.2 s1 hs1) (fun e' h' => he e' (List.mem_cons_of_mem _ h'))
    · rename_i o hn
      refine ⟨fun hs => ?_, fun s' hs => absurd hs (hn s')⟩
      rw [hs] at hg
      obtain ⟨tb, op, a, b, d⟩ := hg
      refine hd _ tb op ho.ops a ?_ b
      rcases d with d | ⟨tid, awake, kind, key, next, d⟩
      · exact he e (List.mem_cons_self ..) op d
      · exact ho.buf _ _ _ _ _ _ d

/-! Who may be in the buffer. -/

/-- After a step, waiting callers waited before, or it was their step. -/
theorem go_threads {c : Cfg} {tid : Nat} {op : Op} {p : Prog Reply} {s s' : State} (hs : go c tid op p s = some s') (tid' : Nat)
    (h : tid' ≠ tid) : s'.threads.get? tid' = s.threads.get? tid' := by
  obtain ⟨s1, h1, h2, h3⟩ := go_ends c tid op p s s' hs
  rcases h3 with ⟨t, r, rfl⟩ | ⟨t, kind, key, next, rfl⟩
  · unfold State.finish
    split
    · simp only [AMap.get?_insert, if_neg h, h1]
    · simp only [AMap.get?_erase, if_neg h, h1]
  · simp only [AMap.get?_insert, if_neg h, h1]

theorem go_off {c : Cfg} (hw : c.worker = false) {tid : Nat} {op : Op} {p : Prog Reply} {s s' : State} (hs : go c tid op p s = some s')
    (h : s.Quiet) : s'.Quiet := by
  induction p generalizing s with
  | ret t r =>
    cases r with
    | died => cases hs
    | ok a => cases hs; exact finish_quiet (Quiet.only h tid) _ _ _
    | err a => cases hs; exact finish_quiet (Quiet.only h tid) _ _ _
  | ext t kind key next ih =>
    rw [go] at hs
    split at hs
    · rename_i hk
      simp [Cfg.enqueues, hw] at hk
    · split at hs
      · cases hs
      · exact (ih t hs h :)

theorem signal_waits {s s' : State} {who : Nat} (hs : s.signal who = some s') (tid : Nat) (th' : Thread) (hg : s'.threads.get? tid = some th') :
    ∃ th, s.threads.get? tid = some th ∧ th.inBuffer = th'.inBuffer := by
  obtain ⟨op, awake, kind, key, next, h1, rfl⟩ := signal_spec hs
  simp only [AMap.get?_insert] at hg
  split at hg
  · rename_i he
    subst he
    cases hg
    exact ⟨_, h1, rfl⟩
  · exact ⟨th', hg, rfl⟩

theorem take_waits {c : Cfg} {s s' : State} {who : Option Nat} (hs : s.take c who = some s') (tid : Nat) (th' : Thread)
    (hg : s'.threads.get? tid = some th') : ∃ th, s.threads.get? tid = some th ∧ th.inBuffer = th'.inBuffer := by
  unfold State.take at hs
  dsimp only at hs
  split at hs
  · split at hs
    · obtain ⟨th, a, b⟩ := signal_waits hs tid th' hg
      exact ⟨th, a, b⟩
    · split at hs
      · cases hs
      · cases hs; exact ⟨th', hg, rfl⟩
  · split at hs
    · cases hs
    · cases hs; exact ⟨th', hg, rfl⟩

/-- The callers that do not move, see only signals. -/
theorem step_threads {c : Cfg} {s s' : State} {e : Event} (hs : step c s e = .next s') (tid : Nat) (th' : Thread)
    (hg : s'.threads.get? tid = some th') : e.tid? = some tid ∨ ∃ th, s.threads.get? tid = some th ∧ th.inBuffer = th'.inBuffer := by
  by_cases ht : e.tid? = some tid
  · exact .inl ht
  refine .inr ?_
  cases e with
  | call tid1 op =>
    have hne : tid ≠ tid1 := fun h => ht (by rw [h]; rfl)
    rw [step] at hs
    split at hs
    · cases hs
    · dsimp only at hs
      split at hs
      · cases hs
      · cases hs
      · split at hs
        · rw [go_threads (Outcome.of_next hs) tid hne] at hg
          exact ⟨th', hg, rfl⟩
        · cases hs
          simp only [AMap.get?_insert, if_neg hne] at hg
          exact ⟨th', hg, rfl⟩
      · rw [go_threads (Outcome.of_next hs) tid hne] at hg
        exact ⟨th', hg, rfl⟩
  | resume tid1 op =>
    have hne : tid ≠ tid1 := fun h => ht (by rw [h]; rfl)
    rw [step] at hs
    split at hs
    · split at hs
      · rw [go_threads (Outcome.of_next hs) tid hne] at hg
        exact ⟨th', hg, rfl⟩
      · cases hs
    · cases hs
  | timeout tid1 =>
    have hne : tid ≠ tid1 := fun h => ht (by rw [h]; rfl)
    rw [step] at hs
    split at hs
    · cases hs
      simp only [AMap.get?_erase, if_neg hne] at hg
      exact ⟨th', hg, rfl⟩
    · cases hs
  | drained tid1 =>
    have hne : tid ≠ tid1 := fun h => ht (by rw [h]; rfl)
    rw [step] at hs
    split at hs
    · split at hs
      · rw [go_threads (Outcome.of_next hs) tid hne] at hg
        exact ⟨th', hg, rfl⟩
      · cases hs
    · cases hs
  | push tid1 =>
    have hne : tid ≠ tid1 := fun h => ht (by rw [h]; rfl)
    rw [step] at hs
    split at hs
    · rw [go_threads (Outcome.of_next hs) tid hne] at hg
      exact ⟨th', hg, rfl⟩
    · cases hs
  | spurious tid1 => exact signal_waits (Outcome.guard_next hs) tid th' hg
  | read => cases hs; exact ⟨th', hg, rfl⟩
  | start =>
    rw [step] at hs
    split at hs
    · cases hs; exact ⟨th', hg, rfl⟩
    · cases hs
  | check =>
    rw [step] at hs
    split at hs
    · cases hs; exact ⟨th', hg, rfl⟩
    · cases hs
  | lock who =>
    unfold step at hs
    dsimp only at hs
    split at hs
    · split at hs
      · split at hs
        · cases hs
        · cases hs; exact ⟨th', hg, rfl⟩
      · exact take_waits (Outcome.guard_next hs) tid th' hg
    · split at hs
      · exact take_waits (Outcome.guard_next hs) tid th' hg
      · cases hs
  | handle =>
    rw [step] at hs
    split at hs
    · cases hs; exact ⟨th', hg, rfl⟩
    · cases hs
  | stop => cases hs; exact ⟨th', hg, rfl⟩
  | signalAll =>
    cases hs
    simp only [AMap.get?_mapVals] at hg
    obtain ⟨th, e1, rfl⟩ := Option.map_eq_some_iff.mp hg
    exact ⟨th, e1, by cases th <;> rfl⟩

theorem step_off {c : Cfg} (hw : c.worker = false) {s s' : State} {e : Event} (hs : step c s e = .next s') (h : s.Quiet) : s'.Quiet := by
  intro tid th' hg
  rcases step_threads hs tid th' hg with ht | ⟨th, h1, h2⟩
  · cases e with
    | call tid1 op =>
      rw [step] at hs
      split at hs
      · cases hs
      · dsimp only at hs
        split at hs
        · cases hs
        · cases hs
        · split at hs
          · exact go_off hw (Outcome.of_next hs) h tid th' hg
          · cases hs
            cases ht
            simp only [AMap.get?_insert, if_true] at hg
            cases hg
            rfl
        · exact go_off hw (Outcome.of_next hs) h tid th' hg
    | resume tid1 op =>
      rw [step] at hs
      split at hs
      · split at hs
        · exact go_off hw (Outcome.of_next hs) h tid th' hg
        · cases hs
      · cases hs
    | timeout tid1 =>
      rw [step] at hs
      split at hs
      · cases hs
        simp only [AMap.get?_erase] at hg
        split at hg
        · cases hg
        · exact h tid th' hg
      · cases hs
    | drained tid1 =>
      rw [step] at hs
      split at hs
      · split at hs
        · exact go_off hw (Outcome.of_next hs) h tid th' hg
        · cases hs
      · cases hs
    | push tid1 =>
      rw [step] at hs
      split at hs
      · exact go_off hw (Outcome.of_next hs) h tid th' hg
      · cases hs
    | spurious tid1 =>
      obtain ⟨th, a, b⟩ := signal_waits (Outcome.guard_next hs) tid th' hg
      rw [← b]; exact h tid th a
    | _ => cases ht
  · rw [← h2]; exact h tid th h1

theorem apart_off {c : Cfg} (hw : c.worker = false) (es : List Event) {s : State} (h : s.Quiet) : Apart c s es := by
  induction es generalizing s with
  | nil => trivial
  | cons e es ih => exact ⟨fun _ _ => h, fun s' hs => ih (step_off hw hs h)⟩

/-- One caller is apart from itself. -/
theorem apart_single {c : Cfg} (tid : Nat) (es : List Event) (he : ∀ e ∈ es, e ≠ .read ∧ ∀ tid', e.tid? = some tid' → tid' = tid) {s : State}
    (h : ∀ tid' th, s.threads.get? tid' = some th → tid' = tid) : Apart c s es := by
  induction es generalizing s with
  | nil => trivial
  | cons e es ih =>
    obtain ⟨hr, ht⟩ := he e (List.mem_cons_self ..)
    refine ⟨fun hen hi => ?_, fun s' hs => ih (fun e' h' => he e' (List.mem_cons_of_mem _ h')) fun tid' th hg => ?_⟩
    · intro tid' th hg
      have := h tid' th hg
      subst this
      cases hb : th.inBuffer with
      | false => rfl
      | true =>
        exfalso
        cases th with
        | limiter => cases hb
        | reset => cases hb
        | buffer op awake kind key next =>
          cases e with
          | call t1 op =>
            have := ht t1 rfl
            subst this
            exact hi (by rw [step, hg])
          | resume t1 op =>
            have := ht t1 rfl
            subst this
            exact hi (by rw [step, hg])
          | drained t1 =>
            have := ht t1 rfl
            subst this
            exact hi (by rw [step, hg])
          | read => exact hr rfl
          | _ => cases hen
    · rcases step_threads hs tid' th hg with h1 | ⟨th1, h1, _⟩
      · exact ht tid' h1
      · exact h tid' th1 h1

/-- A caller that waits has not been signalled, and nobody is left to do so. -/
structure Stranded (s : State) (tid : Nat) : Prop where
  phase : s.phase = .asleep
  only : ∀ tid' th, s.threads.get? tid' = some th → tid' = tid
  waits : s.Unsignalled tid

theorem Stranded.stays {c : Cfg} {s : State} {tid : Nat} (h : Stranded s tid) (es : List Event)
    (he : ∀ e ∈ es, e.op? = none ∧ e ≠ .signalAll ∧ e ≠ .spurious tid) (s' : State) (hs : run c s es = .next s') : Stranded s' tid := by
  induction es generalizing s with
  | nil => cases hs; exact h
  | cons e es ih =>
    obtain ⟨h1, h2, h3⟩ := he e (List.mem_cons_self ..)
    rw [run] at hs
    split at hs
    · rename_i s1 hs1
      refine ih ?_ (fun e' h' => he e' (List.mem_cons_of_mem _ h')) hs
      obtain ⟨th, hg, hu⟩ := h.waits
      have none : ∀ t1, t1 ≠ tid → s.threads.get? t1 = Option.none := fun t1 hne =>
        Classical.byContradiction fun hn =>
          match Option.ne_none_iff_exists'.mp hn with
          | ⟨th', h'⟩ => hne (h.only t1 th' h')
      cases th with
      | limiter => cases hu
      | reset => cases hu
      | buffer op awake kind key next =>
        simp [Thread.unsignalled] at hu
        subst hu
        cases e with
        | call => cases h1
        | resume => cases h1
        | timeout t1 =>
          by_cases hne : t1 = tid
          · subst hne; rw [step, hg] at hs1; cases hs1
          · rw [step, none t1 hne] at hs1; cases hs1
        | drained t1 =>
          by_cases hne : t1 = tid
          · subst hne; rw [step, hg] at hs1; cases hs1
          · rw [step, none t1 hne] at hs1; cases hs1
        | push t1 =>
          by_cases hne : t1 = tid
          · subst hne; rw [step, hg] at hs1; cases hs1
          · rw [step, none t1 hne] at hs1; cases hs1
        | spurious t1 =>
          by_cases hne : t1 = tid
          · subst hne; exact absurd rfl h3
          · rw [step, State.signal, none t1 hne] at hs1; cases hs1
        | read => cases hs1; exact ⟨h.phase, h.only, h.waits⟩
        | start => rw [step, h.phase] at hs1; simp at hs1
        | check => rw [step, h.phase] at hs1; simp at hs1
        | lock who => unfold step at hs1; simp [h.phase] at hs1
        | handle => rw [step, h.phase] at hs1; simp at hs1
        | stop => cases hs1; exact ⟨h.phase, h.only, h.waits⟩
        | signalAll => exact absurd rfl h2
    · rename_i o hn
      exact absurd hs (hn s')

/-- How many steps the extension worker has to make when `stop_worker_` is set. -/
def State.left (s : State) : Nat :=
  match s.phase with
  | .starting => 2
  | .top => 1
  | .checked => 3
  | .asleep => 0
  | .woken => 3
  | .busy => 2
  | .ended => 0

theorem take_facts {c : Cfg} {s s' : State} {who : Option Nat} (hs : s.take c who = some s') : s'.phase = .busy ∧ s'.stop = s.stop := by
  unfold State.take at hs
  dsimp only at hs
  split at hs
  · split at hs
    · obtain ⟨_, _, _, _, _, _, rfl⟩ := signal_spec hs
      exact ⟨rfl, rfl⟩
    · split at hs
      · cases hs
      · cases hs; exact ⟨rfl, rfl⟩
  · split at hs
    · cases hs
    · cases hs; exact ⟨rfl, rfl⟩

theorem Ends.step {c : Cfg} {s s' : State} {e : Event} (h : s.Ends) (he : e.ofWorker = true) (hs : Ext.step c s e = .next s') :
    s'.Ends ∧ s'.left < s.left := by
  obtain ⟨h1, h2, h3⟩ := h
  cases e with
  | start =>
    rw [Ext.step] at hs
    split at hs
    · rename_i hp; cases hs; exact ⟨⟨h1, by simp, by simp⟩, by simp [State.left, hp.2]⟩
    · cases hs
  | check =>
    rw [Ext.step] at hs
    split at hs
    · rename_i hp; cases hs; rw [h1]; exact ⟨⟨rfl, by simp, by simp⟩, by simp [State.left, hp]⟩
    · cases hs
  | lock who =>
    have key : s.phase = .checked ∨ s.phase = .woken → s.take c who = some s' → s'.Ends ∧ s'.left < s.left := fun hp ht => by
      obtain ⟨a, b⟩ := take_facts ht
      refine ⟨⟨b.trans h1, by rw [a]; simp, by rw [a]; simp⟩, ?_⟩
      rcases hp with hp | hp <;> simp [State.left, a, hp]
    unfold Ext.step at hs
    dsimp only at hs
    split at hs
    · rename_i hp
      rw [if_neg (h3 hp)] at hs
      exact key (.inl hp) (Outcome.guard_next hs)
    · split at hs
      · rename_i hp
        exact key (.inr hp) (Outcome.guard_next hs)
      · cases hs
  | handle =>
    rw [Ext.step] at hs
    split at hs
    · rename_i hp; cases hs; exact ⟨⟨h1, by simp, by simp⟩, by simp [State.left, hp]⟩
    · cases hs
  | _ => cases he

theorem take_some (c : Cfg) (s : State) : ∃ who s', s.take c who = some s' := by
  unfold State.take
  dsimp only
  split
  · by_cases h : s.threads.entries.any (fun p => p.2.unsignalled) = true
    · obtain ⟨⟨tid, th⟩, hm, hu⟩ := List.any_eq_true.mp h
      have hg := (AMap.mem_entries_iff _ _ _).mp hm
      cases th with
      | limiter => cases hu
      | reset => cases hu
      | buffer op awake kind key next =>
        refine ⟨some tid, { s with taken := s.reqs, reqs := [], phase := .busy, threads := s.threads.insert tid (.buffer op true kind key next) }, ?_⟩
        simp only [State.signal, hg]
    · exact ⟨none, _, by simp only [if_neg h]; rfl⟩
  · exact ⟨none, _, rfl⟩

/-- A caller waits for room that nobody will make. -/
structure Abandoned (c : Cfg) (s : State) (tid : Nat) : Prop where
  ended : s.phase = .ended
  full : c.maxOps ≤ s.reqs.length
  only : ∀ tid' th, s.threads.get? tid' = some th → tid' = tid
  waits : ∃ op awake kind key next, s.threads.get? tid = some (.buffer op awake kind key next) ∧ c.enqueues kind = true

theorem Abandoned.step {c : Cfg} {s s' : State} {tid : Nat} (h : Abandoned c s tid) {e : Event} (he : e.op? = none)
    (hs : Ext.step c s e = .next s') : Abandoned c s' tid := by
  obtain ⟨hp, hf, ho, op, awake, kind, key, next, hg, hk⟩ := h
  have none : ∀ t1, t1 ≠ tid → s.threads.get? t1 = Option.none := fun t1 hne =>
    Classical.byContradiction fun hn =>
      match Option.ne_none_iff_exists'.mp hn with
      | ⟨th', h'⟩ => hne (ho t1 th' h')
  cases e with
  | call => cases he
  | resume => cases he
  | timeout t1 =>
    by_cases hne : t1 = tid
    · subst hne; rw [Ext.step, hg] at hs; cases hs
    · rw [Ext.step, none t1 hne] at hs; cases hs
  | drained t1 =>
    by_cases hne : t1 = tid
    · subst hne; rw [Ext.step, hg] at hs; cases hs
    · rw [Ext.step, none t1 hne] at hs; cases hs
  | push t1 =>
    by_cases hne : t1 = tid
    · subst hne
      cases awake with
      | false => rw [Ext.step, hg] at hs; cases hs
      | true =>
        rw [Ext.step, hg] at hs
        dsimp only at hs
        rw [go, if_pos hk, if_pos hf] at hs
        cases hs
        refine ⟨hp, hf, fun tid' th h' => ?_, op, false, kind, key, next, AMap.get?_insert_self _ _ _, hk⟩
        simp only [AMap.get?_insert] at h'
        split at h'
        · assumption
        · exact ho tid' th h'
    · rw [Ext.step, none t1 hne] at hs; cases hs
  | spurious t1 =>
    obtain ⟨op1, awake1, kind1, key1, next1, h1, rfl⟩ := signal_spec (Outcome.guard_next hs)
    have := ho t1 _ h1
    subst this
    rw [hg] at h1
    cases h1
    refine ⟨hp, hf, fun tid' th h' => ?_, op, true, kind, key, next, AMap.get?_insert_self _ _ _, hk⟩
    simp only [AMap.get?_insert] at h'
    split at h'
    · assumption
    · exact ho tid' th h'
  | read => cases hs; exact ⟨hp, hf, ho, op, awake, kind, key, next, hg, hk⟩
  | start => rw [Ext.step, hp] at hs; simp at hs
  | check => rw [Ext.step, hp] at hs; simp at hs
  | lock who => unfold Ext.step at hs; simp [hp] at hs
  | handle => rw [Ext.step, hp] at hs; simp at hs
  | stop => cases hs; exact ⟨hp, hf, ho, op, awake, kind, key, next, hg, hk⟩
  | signalAll =>
    cases hs
    refine ⟨by simp [hp], hf, fun tid' th h' => ?_, op, true, kind, key, next, by rw [AMap.get?_mapVals, hg]; rfl, hk⟩
    rw [AMap.get?_mapVals] at h'
    obtain ⟨th1, h1, _⟩ := Option.map_eq_some_iff.mp h'
    exact ho tid' th1 h1

end Ext
end Verif
