import Verif.Spec.TaskWorker
import Verif.Proofs.Executor
/-
The invariant of the task worker.
-/
namespace Verif.TaskWorker

/-- What a step is for the thread pool. -/
def Act.under : Act → List Executor.Act
  | .schedule t => [.schedule t]
  | .pop i => [.pop i]
  | .count i => [.done i]
  | .close => [.close]
  | .closePop => [.closePop]
  | .closeRet => [.closeDone]
  | .join => [.join]
  | _ => []

/-- A task that has been taken and whose callback has not been called. -/
def Stage.waiting : Stage → List Nat
  | .popped t => [t]
  | .starting t => [t]
  | _ => []

/-- The thread pool and the stage agree. -/
def Agree : Stage → Executor.Worker → Prop
  | .out, wk => wk = .idle ∨ wk = .exited
  | .popped t, wk => wk = .running t
  | .starting t, wk => wk = .running t
  | .running t, wk => wk = .running t
  | .ended t, wk => wk = .running t

/-- What the statistics of a thread tell. `k` is the number of callbacks it has called. -/
def Tells (s : Stats) (k : Nat) : Stage → Prop
  | .out => s.current + 1 = s.processed ∧ k = s.processed
  | .popped _ => s.current + 1 = s.processed ∧ k = s.processed
  | .starting t => s.current = s.processed ∧ k = s.processed ∧ s.info = some t
  | .running t => s.current = s.processed ∧ k = s.processed + 1 ∧ s.info = some t
  | .ended t => s.current = s.processed ∧ k = s.processed + 1 ∧ s.info = some t

theorem flat_set {α β : Type} {l : List α} {i : Nat} {a b : α} (h : l[i]? = some a) (f : α → List β) :
    (f a ++ (l.set i b).flatMap f).Perm (f b ++ l.flatMap f) := by
  induction l generalizing i with
  | nil => simp at h
  | cons c l ih =>
    cases i with
    | zero =>
      simp only [List.getElem?_cons_zero, Option.some.injEq] at h
      subst h
      simp only [List.set_cons_zero, List.flatMap_cons]
      rw [← List.append_assoc, ← List.append_assoc]
      exact List.Perm.append_right _ List.perm_append_comm
    | succ n =>
      simp only [List.getElem?_cons_succ] at h
      simp only [List.set_cons_succ, List.flatMap_cons]
      refine (List.perm_append_comm_assoc _ _ _).trans ?_
      refine List.Perm.trans ?_ (List.perm_append_comm_assoc _ _ _)
      exact (ih h).append_left _

/-- The invariant. -/
structure J (n : Nat) (as : List Act) (w : W) : Prop where
  pool : Executor.run (Executor.init n) (as.flatMap Act.under) = some w.pool
  stages : w.stage.length = n
  stats : w.stats.length = n
  agree : ∀ (i : Nat) st, w.stage[i]? = some st → ∃ wk, w.pool.workers[i]? = some wk ∧ Agree st wk
  calls : (called w ++ w.stage.flatMap Stage.waiting).Perm w.pool.started
  tells : ∀ (i : Nat) st s, w.stage[i]? = some st → w.stats[i]? = some s → Tells s (callsOf w i) st
  status : ∀ c ∈ w.log, (c.thread.isSome = true → c.ok = true) ∧ (c.thread = none → c.ok = false ∧ c.room = false)

theorem J.init (n : Nat) (max : Int) : J n [] (init n max) := by
  refine ⟨rfl, by simp [TaskWorker.init], by simp [TaskWorker.init], ?_, ?_, ?_, ?_⟩
  · intro i st h
    simp only [TaskWorker.init, List.getElem?_replicate] at h
    split at h
    · rename_i hi
      cases h
      exact ⟨.idle, by simp [TaskWorker.init, Executor.init, List.getElem?_replicate, hi], .inl rfl⟩
    · cases h
  · simp [TaskWorker.init, called, Executor.init, Stage.waiting]
  · intro i st s h h'
    simp only [TaskWorker.init, List.getElem?_replicate] at h h'
    by_cases hi : i < n
    · rw [if_pos hi] at h h'
      cases h; cases h'
      exact ⟨rfl, rfl⟩
    · rw [if_neg hi] at h
      cases h
  · intro c hc
    cases hc

theorem pool_snoc {n : Nat} {as : List Act} {p p' : Executor.E} {a : Act} {b : Executor.Act}
    (h : Executor.run (Executor.init n) (as.flatMap Act.under) = some p) (ha : a.under = [b]) (hs : Executor.step p b = some p') :
    Executor.run (Executor.init n) ((as ++ [a]).flatMap Act.under) = some p' := by
  rw [List.flatMap_append, Executor.run_append, h]
  simp [ha, Executor.run, hs]

theorem pool_same {n : Nat} {as : List Act} {p : Executor.E} {a : Act}
    (h : Executor.run (Executor.init n) (as.flatMap Act.under) = some p) (ha : a.under = []) :
    Executor.run (Executor.init n) ((as ++ [a]).flatMap Act.under) = some p := by
  rw [List.flatMap_append, Executor.run_append, h]
  simp [ha, Executor.run]

/-- Steps that leave the threads alone. -/
theorem J.same {n : Nat} {as : List Act} {w w' : W} {a : Act} (h : J n as w)
    (hp : Executor.run (Executor.init n) ((as ++ [a]).flatMap Act.under) = some w'.pool) (hst : w'.stage = w.stage) (hs : w'.stats = w.stats)
    (hw : w'.pool.workers = w.pool.workers) (hr : w'.pool.started = w.pool.started) (hl : w'.log = w.log) : J n (as ++ [a]) w' := by
  refine ⟨hp, by rw [hst]; exact h.stages, by rw [hs]; exact h.stats, by rw [hst, hw]; exact h.agree, ?_, ?_, by rw [hl]; exact h.status⟩
  · unfold called
    rw [hst, hr, hl]
    exact h.calls
  · unfold callsOf
    rw [hst, hs, hl]
    exact h.tells

/-- Steps of thread `i`. -/
theorem J.thread {n : Nat} {as : List Act} {w w' : W} {a : Act} {i : Nat} {st st' : Stage} {s s' : Stats} {wk : Executor.Worker} (h : J n as w)
    (hi : w.stage[i]? = some st) (hsi : w.stats[i]? = some s)
    (hp : Executor.run (Executor.init n) ((as ++ [a]).flatMap Act.under) = some w'.pool) (hst : w'.stage = w.stage.set i st')
    (hs : w'.stats = w.stats.set i s') (hw : w'.pool.workers = w.pool.workers.set i wk) (hag : Agree st' wk)
    (hl : ∃ new, w'.log = w.log ++ new ∧ (∀ c ∈ new, c.thread = some i ∧ c.ok = true) ∧
      (∃ more, w'.pool.started = w.pool.started ++ more ∧ (new.map Call.task ++ st'.waiting).Perm (st.waiting ++ more)) ∧
      Tells s' (callsOf w i + new.length) st') : J n (as ++ [a]) w' := by
  obtain ⟨new, hl1, hl2, ⟨more, hm1, hm2⟩, hl3⟩ := hl
  obtain ⟨wk0, hwk0, _⟩ := h.agree i st hi
  refine ⟨hp, by rw [hst]; simpa using h.stages, by rw [hs]; simpa using h.stats, ?_, ?_, ?_, ?_⟩
  · intro j st1 hj
    rw [hst, List.getElem?_set] at hj
    rw [hw, List.getElem?_set]
    have hlt : i < w.stage.length := (List.getElem?_eq_some_iff.mp hi).1
    have hlt' : i < w.pool.workers.length := (List.getElem?_eq_some_iff.mp hwk0).1
    by_cases hij : i = j
    · subst hij
      rw [if_pos rfl, if_pos hlt] at hj
      cases hj
      exact ⟨wk, by rw [if_pos rfl, if_pos hlt'], hag⟩
    · rw [if_neg hij] at hj
      rw [if_neg hij]
      exact h.agree j st1 hj
  · unfold called
    rw [hl1, hst, hm1, List.map_append]
    have h1 := flat_set (b := st') hi Stage.waiting
    have h2 := h.calls
    unfold called at h2
    -- everything is a matter of counting
    refine List.perm_iff_count.mpr fun x => ?_
    have e1 := List.perm_iff_count.mp h1 x
    have e2 := List.perm_iff_count.mp h2 x
    have e3 := List.perm_iff_count.mp hm2 x
    simp only [List.count_append] at e1 e2 e3 ⊢
    omega
  · intro j st1 s1 hj hsj
    have hlt : i < w.stage.length := (List.getElem?_eq_some_iff.mp hi).1
    have hlt' : i < w.stats.length := (List.getElem?_eq_some_iff.mp hsi).1
    rw [hst, List.getElem?_set] at hj
    rw [hs, List.getElem?_set] at hsj
    by_cases hij : i = j
    · subst hij
      rw [if_pos rfl, if_pos hlt] at hj
      rw [if_pos rfl, if_pos hlt'] at hsj
      cases hj; cases hsj
      have : callsOf w' i = callsOf w i + new.length := by
        unfold callsOf
        rw [hl1, List.countP_append]
        congr 1
        rw [List.countP_eq_length]
        intro c hc
        simp [(hl2 c hc).1]
      rw [this]
      exact hl3
    · rw [if_neg hij] at hj hsj
      have : callsOf w' j = callsOf w j := by
        unfold callsOf
        rw [hl1, List.countP_append]
        have : new.countP (fun c => decide (c.thread = some j)) = 0 := by
          rw [List.countP_eq_zero]
          intro c hc
          simp [(hl2 c hc).1, hij]
        omega
      rw [this]
      exact h.tells j st1 s1 hj hsj
  · intro c hc
    rw [hl1] at hc
    rcases List.mem_append.mp hc with g | g
    · exact h.status c g
    · obtain ⟨g1, g2⟩ := hl2 c g
      exact ⟨fun _ => g2, fun e => by rw [g1] at e; cases e⟩

theorem stats_at {n : Nat} {as : List Act} {w : W} {i : Nat} {st : Stage} (h : J n as w) (hi : w.stage[i]? = some st) :
    ∃ s, w.stats[i]? = some s := by
  have hlt : i < w.stage.length := (List.getElem?_eq_some_iff.mp hi).1
  rw [h.stages, ← h.stats] at hlt
  exact ⟨_, List.getElem?_eq_getElem hlt⟩

theorem set_self {α : Type} {l : List α} {i : Nat} {a : α} (h : l[i]? = some a) : l.set i a = l := by
  apply List.ext_getElem?
  intro j
  rw [List.getElem?_set]
  split
  · rename_i e
    subst e
    split
    · exact h.symm
    · rename_i hl
      exact absurd (List.getElem?_eq_some_iff.mp h).1 hl
  · rfl

theorem J.step {n : Nat} {as : List Act} {w w' : W} {a : Act} (h : J n as w) (hs : step w a = some w') : J n (as ++ [a]) w' := by
  cases a with
  | schedule t =>
    simp only [TaskWorker.step] at hs
    split at hs
    · cases hs
    · rw [Option.map_eq_some_iff] at hs
      obtain ⟨p, hp, rfl⟩ := hs
      have hp' := hp
      simp only [Executor.step, Option.some.injEq] at hp
      subst hp
      exact h.same (pool_snoc h.pool rfl hp') rfl rfl rfl rfl rfl
  | pop i =>
    simp only [TaskWorker.step] at hs
    split at hs
    · cases hs
    · rw [Option.map_eq_some_iff] at hs
      obtain ⟨p, hp, rfl⟩ := hs
      have hp' := pool_snoc (a := .pop i) h.pool rfl hp
      simp only [Executor.step] at hp
      split at hp
      · rename_i q t hwk hq
        have hlt : i < w.pool.workers.length := (List.getElem?_eq_some_iff.mp hwk).1
        cases hp
        have hn := Executor.length_run _ h.pool
        simp only [Executor.init, List.length_replicate] at hn
        have hi : i < w.stage.length := by rw [h.stages]; omega
        obtain ⟨wk, g1, g2⟩ := h.agree i _ (List.getElem?_eq_getElem hi)
        rw [hwk] at g1
        cases g1
        have hout : w.stage[i] = .out := by
          revert g2
          cases w.stage[i] <;> simp [Agree]
        have hst : w.stage[i]? = some .out := by rw [List.getElem?_eq_getElem hi, hout]
        obtain ⟨s, hsi⟩ := stats_at h hst
        have ht := h.tells i _ s hst hsi
        refine h.thread (st' := .popped t) (s' := s) (wk := .running t) hst hsi hp' ?_ (by simp [set_self hsi]) rfl rfl
          ⟨[], by simp, by simp, ⟨[t], rfl, by simp [Stage.waiting]⟩, ht⟩
        simp only [List.getElem?_set]
        simp [hlt]
      · rename_i q hwk hq
        have hlt : i < w.pool.workers.length := (List.getElem?_eq_some_iff.mp hwk).1
        cases hp
        have hn := Executor.length_run _ h.pool
        simp only [Executor.init, List.length_replicate] at hn
        have hi : i < w.stage.length := by rw [h.stages]; omega
        obtain ⟨wk, g1, g2⟩ := h.agree i _ (List.getElem?_eq_getElem hi)
        rw [hwk] at g1
        cases g1
        have hout : w.stage[i] = .out := by
          revert g2
          cases w.stage[i] <;> simp [Agree]
        have hst : w.stage[i]? = some .out := by rw [List.getElem?_eq_getElem hi, hout]
        obtain ⟨s, hsi⟩ := stats_at h hst
        have ht := h.tells i _ s hst hsi
        refine h.thread (st' := .out) (s' := s) (wk := .exited) hst hsi hp' ?_ (by simp [set_self hsi]) rfl (.inr rfl)
          ⟨[], by simp, by simp, ⟨[], by simp, by simp [Stage.waiting]⟩, ht⟩
        simp only [List.getElem?_set]
        simp [hlt]
      · cases hp
  | begin_ i now =>
    simp only [TaskWorker.step] at hs
    split at hs
    · rename_i t s hd hst hsi
      cases hs
      obtain ⟨wk, g1, g2⟩ := h.agree i _ hst
      have ht := h.tells i _ s hst hsi
      refine h.thread (st' := .starting t) (wk := wk) hst hsi (pool_same h.pool rfl) rfl rfl (by simp [set_self g1]) g2
        ⟨[], by simp, by simp, ⟨[], by simp, by simp [Stage.waiting]⟩, ?_⟩
      simp only [Tells, List.length_nil, Nat.add_zero] at ht ⊢
      exact ⟨ht.1, ht.2, trivial⟩
    · cases hs
  | call i =>
    simp only [TaskWorker.step] at hs
    split at hs
    · rename_i t hd hst
      cases hs
      obtain ⟨wk, g1, g2⟩ := h.agree i _ hst
      obtain ⟨s, hsi⟩ := stats_at h hst
      have ht := h.tells i _ s hst hsi
      refine h.thread (st' := .running t) (wk := wk) (s' := s) hst hsi (pool_same h.pool rfl) rfl (by simp [set_self hsi]) (by simp [set_self g1]) g2
        ⟨_, rfl, by simp, ⟨[], by simp, by simp [Stage.waiting]⟩, ?_⟩
      simp only [Tells, List.length_cons, List.length_nil] at ht ⊢
      exact ⟨ht.1, by omega, ht.2.2⟩
    · cases hs
  | ret i =>
    simp only [TaskWorker.step] at hs
    split at hs
    · rename_i t hd hst
      cases hs
      obtain ⟨wk, g1, g2⟩ := h.agree i _ hst
      obtain ⟨s, hsi⟩ := stats_at h hst
      have ht := h.tells i _ s hst hsi
      exact h.thread (st' := .ended t) (wk := wk) (s' := s) hst hsi (pool_same h.pool rfl) rfl (by simp [set_self hsi]) (by simp [set_self g1]) g2
        ⟨[], by simp, by simp, ⟨[], by simp, by simp [Stage.waiting]⟩, ht⟩
    · cases hs
  | count i =>
    simp only [TaskWorker.step] at hs
    split at hs
    · rename_i t s hd hst hsi
      rw [Option.map_eq_some_iff] at hs
      obtain ⟨p, hp, rfl⟩ := hs
      have hp' := pool_snoc (a := .count i) h.pool rfl hp
      obtain ⟨wk, g1, g2⟩ := h.agree i _ hst
      simp only [Agree] at g2
      subst g2
      simp only [Executor.step, g1, Option.some.injEq] at hp
      subst hp
      have ht := h.tells i _ s hst hsi
      refine h.thread (st' := .out) (wk := .idle) hst hsi hp' rfl rfl rfl (.inl rfl)
        ⟨[], by simp, by simp, ⟨[], by simp, by simp [Stage.waiting]⟩, ?_⟩
      simp only [Tells, List.length_nil, Nat.add_zero] at ht ⊢
      exact ⟨by omega, ht.2.1⟩
    · cases hs
  | close =>
    simp only [TaskWorker.step] at hs
    split at hs
    · cases hs
    · rw [Option.map_eq_some_iff] at hs
      obtain ⟨p, hp, rfl⟩ := hs
      have hp' := hp
      simp only [Executor.step] at hp
      split at hp <;> cases hp
      exact h.same (pool_snoc h.pool rfl hp') rfl rfl rfl rfl rfl
  | closePop =>
    simp only [TaskWorker.step] at hs
    split at hs
    · cases hs
    · rw [Option.map_eq_some_iff] at hs
      obtain ⟨p, hp, rfl⟩ := hs
      have hp' := pool_snoc (a := .closePop) h.pool rfl hp
      simp only [Executor.step] at hp
      split at hp
      · rename_i q t _ _
        cases hp
        refine ⟨hp', h.stages, h.stats, h.agree, ?_, ?_, ?_⟩
        · unfold called
          simp only [List.map_append, List.map_cons, List.map_nil]
          have h2 := h.calls
          unfold called at h2
          refine List.perm_iff_count.mpr fun x => ?_
          have e2 := List.perm_iff_count.mp h2 x
          simp only [List.count_append] at e2 ⊢
          omega
        · intro j st s hj hsj
          have := h.tells j st s hj hsj
          unfold callsOf at this ⊢
          simpa using this
        · intro c hc
          rcases List.mem_append.mp hc with g | g
          · exact h.status c g
          · simp only [List.mem_singleton] at g
            subst g
            exact ⟨by simp, fun _ => ⟨rfl, rfl⟩⟩
      · cases hp
        exact h.same hp' rfl rfl rfl rfl (by simp)
      · cases hp
  | closeRet =>
    simp only [TaskWorker.step] at hs
    split at hs
    · cases hs
    · rw [Option.map_eq_some_iff] at hs
      obtain ⟨p, hp, rfl⟩ := hs
      have hp' := hp
      simp only [Executor.step] at hp
      split at hp <;> cases hp
      exact h.same (pool_snoc h.pool rfl hp') rfl rfl rfl rfl rfl
  | join =>
    simp only [TaskWorker.step] at hs
    split at hs
    · cases hs
    · rw [Option.map_eq_some_iff] at hs
      obtain ⟨p, hp, rfl⟩ := hs
      have hp' := hp
      simp only [Executor.step] at hp
      split at hp <;> cases hp
      exact h.same (pool_snoc h.pool rfl hp') rfl rfl rfl rfl rfl
  | check =>
    simp only [TaskWorker.step] at hs
    split at hs <;> cases hs
    exact h.same (pool_same h.pool rfl) rfl rfl rfl rfl rfl
  | read =>
    simp only [TaskWorker.step] at hs
    split at hs
    · split at hs <;> cases hs
      exact h.same (pool_same h.pool rfl) rfl rfl rfl rfl rfl
    · cases hs
  | judge now =>
    simp only [TaskWorker.step] at hs
    split at hs
    · split at hs
      · cases hs
      · split at hs <;> cases hs <;> exact h.same (pool_same h.pool rfl) rfl rfl rfl rfl rfl
    · cases hs

theorem run_append (w : W) (as bs : List Act) : run w (as ++ bs) = (run w as).bind fun w' => run w' bs := by
  induction as generalizing w with
  | nil => rfl
  | cons a as ih =>
    simp only [List.cons_append, run]
    cases TaskWorker.step w a with
    | none => rfl
    | some w' => exact ih w'

theorem J.run_from {n : Nat} {as bs : List Act} {w w' : W} (h : J n as w) (hr : run w bs = some w') : J n (as ++ bs) w' := by
  induction bs generalizing as w with
  | nil => cases hr; simpa using h
  | cons b bs ih =>
    simp only [run] at hr
    cases hs : TaskWorker.step w b with
    | none => rw [hs] at hr; cases hr
    | some w1 =>
      rw [hs] at hr
      have := ih (h.step hs) hr
      simpa using this

theorem J.run {n : Nat} {max : Int} {as : List Act} {w : W} (h : run (TaskWorker.init n max) as = some w) : J n as w := by
  simpa using (J.init n max).run_from h

theorem accepted_under (as : List Act) : Executor.acceptedTasks (as.flatMap Act.under) = accepted as := by
  induction as with
  | nil => rfl
  | cons a as ih =>
    cases a <;> simp_all [accepted, Act.under, Executor.acceptedTasks]

end Verif.TaskWorker
