import Verif.Proofs.Executor
/-
C59: `TaskExecutor`.
-/
namespace Verif
open Executor (E Act)
open Executor (acceptedTasks closeCalled running)

/-- C59: whatever the number of threads and however they are scheduled, the tasks started are, in order and once each, the
first of those scheduled before `Close`; nothing else is ever started. -/
theorem C59_order {n : Nat} {as : List Act} {e : E} (h : Executor.run (Executor.init n) as = some e) :
    ∃ rest, acceptedTasks as = e.started ++ rest :=
  ⟨_, (Executor.inv_run as e h).fifo⟩

/-- C59: when `Close` has returned, exactly the tasks scheduled before it have been started, and all of them have
finished. -/
theorem C59_close {n : Nat} {as : List Act} {e : E} (h : Executor.run (Executor.init n) as = some e) (hc : e.closer = .closed) :
    e.started = acceptedTasks as ∧ e.finished.Perm (acceptedTasks as) := by
  have hi := Executor.inv_run as e h
  have hb := (hi.closed.mp (hi.joining (.inr hc))).2
  have hs : acceptedTasks as = e.started := by rw [hi.fifo, hb, List.append_nil]
  refine ⟨hs.symm, ?_⟩
  have hr : running e = [] := by
    have hw := hi.joined hc
    simp only [running, Executor.Closer.tasks, hc, List.append_nil, List.flatMap_eq_nil_iff]
    intro w hm
    rw [hw w hm]; rfl
  have := hi.fin
  rw [hr, List.append_nil] at this
  rw [hs]
  exact this

/-- C59: `Close` does not get stuck: until it has returned, a task is being run or one of the threads can go on. -/
theorem C59_progress {n : Nat} {as : List Act} {e : E} (h : Executor.run (Executor.init n) as = some e)
    (hc : closeCalled as = true) : e.closer = .closed ∨ running e ≠ [] ∨
      ∃ a e', (a = .closePop ∨ a = .join ∨ ∃ i, a = .pop i) ∧ Executor.step e a = some e' := by
  have hi := Executor.inv_run as e h
  have hpop : (∃ q t, UQueue.pop e.queue = some (q, some (some t))) ∨ ∃ q, UQueue.pop e.queue = some (q, none) := by
    cases hcl : e.queue.closed with
    | true => exact .inr ⟨e.queue, by simp [UQueue.pop, hcl]⟩
    | false =>
      cases hb : e.queue.buffer with
      | nil =>
        have := hi.closed.mpr ⟨hc, hb⟩
        simp [hcl] at this
      | cons t l =>
        refine .inl ⟨_, t, by simp [UQueue.pop, hcl, hi.size, hb]; rfl⟩
  cases hcl : e.closer with
  | open_ => have := hi.open_.mp hcl; simp [hc] at this
  | closed => exact .inl rfl
  | running t => exact .inr (.inl (by simp [running, Executor.Closer.tasks, hcl]))
  | draining =>
    refine .inr (.inr ⟨.closePop, ?_⟩)
    rcases hpop with ⟨q, t, hp⟩ | ⟨q, hp⟩
    · exact ⟨_, .inl rfl, by simp [Executor.step, hcl, hp]; rfl⟩
    · exact ⟨_, .inl rfl, by simp [Executor.step, hcl, hp]; rfl⟩
  | joining =>
    by_cases hall : ∀ w ∈ e.workers, w = .exited
    · exact .inr (.inr ⟨.join, _, .inr (.inl rfl), by simp only [Executor.step]; rw [if_pos ⟨hcl, hall⟩]⟩)
    · simp only [Classical.not_forall] at hall
      obtain ⟨w, hm, hne⟩ := hall
      obtain ⟨i, hw⟩ := List.mem_iff_getElem?.mp hm
      cases w with
      | exited => exact absurd rfl hne
      | running t =>
        refine .inr (.inl ?_)
        intro hr
        simp only [running, Executor.Closer.tasks, hcl, List.append_nil, List.flatMap_eq_nil_iff] at hr
        simpa [Executor.Worker.tasks] using hr _ hm
      | idle =>
        refine .inr (.inr ⟨.pop i, ?_⟩)
        rcases hpop with ⟨q, t, hp⟩ | ⟨q, hp⟩
        · exact ⟨_, .inr (.inr ⟨i, rfl⟩), by simp [Executor.step, hw, hp]; rfl⟩
        · exact ⟨_, .inr (.inr ⟨i, rfl⟩), by simp [Executor.step, hw, hp]; rfl⟩

/-- C59: after `Close` has been called the threads together take at most `3·(tasks) + 2·(threads) + 2` further steps; with
`C59_progress`, `Close` returns if the tasks end. Calls of `Schedule` in between make no difference. -/
theorem C59_bound {n : Nat} {as bs : List Act} {e : E} (h : Executor.run (Executor.init n) (as ++ .close :: bs) = some e)
    (hb : closeCalled bs = false) :
    bs.countP (·.works) ≤ 3 * (acceptedTasks as).length + 2 * n + 2 := by
  rw [show as ++ .close :: bs = (as ++ [.close]) ++ bs by simp, Executor.run_append] at h
  cases h1 : Executor.run (Executor.init n) (as ++ [.close]) with
  | none => simp [h1] at h
  | some e1 =>
    simp only [h1, Option.bind_some] at h
    have hi := Executor.inv_run _ _ h1
    have h2 := Executor.cost_run hi (by simp [closeCalled, Executor.Act.isClose]) bs h hb
    have h3 := Executor.cost_sum e1.workers
    have h4 := Executor.length_run _ h1
    have h5 : (acceptedTasks as).length = e1.started.length + e1.queue.buffer.length := by
      have := hi.fifo
      simp only [Executor.acceptedTasks_snoc, List.append_nil] at this
      rw [this]; simp
    have h6 : e1.closer = .draining := by
      rw [Executor.run_append] at h1
      cases h0 : Executor.run (Executor.init n) as with
      | none => simp [h0] at h1
      | some e0 =>
        simp only [h0, Option.bind_some, Executor.run, Executor.step] at h1
        split at h1
        · simp at h1
        · rename_i hx
          split at hx
          · cases hx; cases h1; rfl
          · simp at hx
    simp only [Executor.cost, h6, Executor.Closer.cost] at h2
    simp only [Executor.init, List.length_replicate] at h4
    omega

/-- Two threads, three tasks; `Close` is called while one runs and one waits; a task scheduled after that is dropped. -/
def poolActs : List Act :=
  [.schedule 1, .pop 0, .schedule 2, .schedule 3, .close, .schedule 4, .closePop, .pop 1, .closeDone, .done 0, .closePop,
   .pop 0, .done 1, .pop 1, .join]

/-- The hypotheses of the theorems above, and what they say. -/
example : ∃ e, Executor.run (Executor.init 2) poolActs = some e ∧ e.closer = .closed ∧ closeCalled poolActs = true ∧
    e.started = [1, 2, 3] ∧ e.finished = [2, 1, 3] ∧ acceptedTasks poolActs = [1, 2, 3] :=
  ⟨_, rfl, rfl, rfl, rfl, rfl, rfl⟩

end Verif
