import Verif.Spec.Executor
import Verif.Proofs.Queues
namespace Verif.Executor

theorem acceptedTasks_snoc (as : List Act) (a : Act) : acceptedTasks (as ++ [a]) = acceptedTasks as ++
    (match a with
    | .schedule t => if closeCalled as then [] else [t]
    | _ => []) := by
  induction as with
  | nil => cases a <;> simp [acceptedTasks, closeCalled]
  | cons b as ih => cases b <;> simp_all [acceptedTasks, closeCalled, Act.isClose] <;> cases a <;> simp

theorem run_append (s : E) (as bs : List Act) : run s (as ++ bs) = (run s as).bind fun s' => run s' bs := by
  induction as generalizing s with
  | nil => rfl
  | cons a as ih =>
    simp only [List.cons_append, run]
    cases step s a with
    | none => rfl
    | some s' => exact ih s'

structure Inv (as : List Act) (e : E) : Prop where
  fifo : acceptedTasks as = e.started ++ e.queue.buffer
  size : e.queue.size = e.queue.buffer.length
  last : e.queue.last = true ↔ closeCalled as = true
  closed : e.queue.closed = true ↔ closeCalled as = true ∧ e.queue.buffer = []
  open_ : e.closer = .open_ ↔ closeCalled as = false
  joining : e.closer = .joining ∨ e.closer = .closed → e.queue.closed = true
  joined : e.closer = .closed → ∀ w ∈ e.workers, w = .exited
  exited : .exited ∈ e.workers → e.queue.closed = true
  fin : (e.finished ++ running e).Perm e.started

theorem Inv.init (n : Nat) : Inv [] (init n) := by
  constructor <;> simp [Executor.init, acceptedTasks, UQueue.init, closeCalled, running, Worker.tasks, Closer.tasks]

theorem flat_set {ws : List Worker} {i : Nat} {w w' : Worker} (h : ws[i]? = some w) (f : Worker → List Nat) :
    (f w ++ (ws.set i w').flatMap f).Perm (f w' ++ ws.flatMap f) := by
  induction ws generalizing i with
  | nil => simp at h
  | cons a ws ih =>
    cases i with
    | zero =>
      simp only [List.getElem?_cons_zero, Option.some.injEq] at h
      subst h
      simp only [List.set_cons_zero, List.flatMap_cons]
      rw [← List.append_assoc, ← List.append_assoc]
      exact List.Perm.append_right _ List.perm_append_comm
    | succ n =>
      simp only [List.getElem?_cons_succ] at h
      simp only [List.set_cons_succ, List.flatMap_cons]
      have := ih h
      refine (List.perm_append_comm_assoc _ _ _).trans ?_
      refine List.Perm.trans ?_ (List.perm_append_comm_assoc _ _ _)
      exact this.append_left _

/-- What `Pop` does. -/
theorem pop_cases {q q' : UQueue.S Nat} {r : Option (Option Nat)} (hs : q.size = q.buffer.length) (h : UQueue.pop q = some (q', r)) :
    (r = none ∧ q' = q ∧ q.closed = true) ∨
    ∃ t l, r = some (some t) ∧ q.closed = false ∧ q.buffer = t :: l ∧ q'.buffer = l ∧ q'.size = l.length ∧ q'.last = q.last ∧
      (q'.closed = true ↔ l = [] ∧ q.last = true) := by
  unfold UQueue.pop at h
  split at h
  · split at h
    · cases h; rename_i hc; exact .inl ⟨rfl, rfl, hc⟩
    · rename_i h1 h2
      simp only [h2, Bool.false_or, decide_eq_true_eq, hs] at h1
      cases hb : q.buffer with
      | nil => simp [hb] at h1
      | cons t l =>
        simp only [Option.some.injEq, Prod.mk.injEq] at h
        obtain ⟨rfl, rfl⟩ := h
        refine .inr ⟨t, l, by rw [hb]; rfl, by simpa using h2, rfl, ?_⟩
        have hcl : q.closed = false := by simpa using h2
        by_cases h3 : (q.buffer.tail.isEmpty && q.last) = true
        · rw [if_pos h3]
          simp only [hb, List.tail_cons, Bool.and_eq_true, List.isEmpty_iff] at h3
          simp [hs, hb, h3]
        · rw [if_neg h3]
          simp only [hb, List.tail_cons, Bool.and_eq_true, List.isEmpty_iff] at h3
          simp [hs, hb, h3, hcl]
  · simp at h

theorem Inv.step {as : List Act} {e e' : E} {a : Act} (h : Inv as e) (hs : step e a = some e') : Inv (as ++ [a]) e' := by
  have hcc : closeCalled (as ++ [a]) = (closeCalled as || a.isClose) := by
    simp [closeCalled]
  cases a with
  | schedule t =>
    simp only [Executor.step, Option.some.injEq] at hs
    subst hs
    have hcc : closeCalled (as ++ [.schedule t]) = closeCalled as := by simp [hcc, Act.isClose]
    simp only [UQueue.push]
    split
    · rename_i hx
      have hcl : closeCalled as = true := by
        simp only [Bool.or_eq_true] at hx
        rcases hx with hx | hx
        · exact (h.closed.mp hx).1
        · exact h.last.mp hx
      exact ⟨by simp [acceptedTasks_snoc, hcl, h.fifo], h.size, by rw [hcc]; exact h.last, by rw [hcc]; exact h.closed,
        by rw [hcc]; exact h.open_, h.joining, h.joined, h.exited, h.fin⟩
    · rename_i hx
      simp only [Bool.or_eq_true, not_or, Bool.not_eq_true] at hx
      have hcl : closeCalled as = false := by
        cases hy : closeCalled as with
        | false => rfl
        | true => have := h.last.mpr hy; simp [hx.2] at this
      refine ⟨by simp [acceptedTasks_snoc, hcl, h.fifo], by simp [h.size], by rw [hcc]; exact h.last, ?_,
        by rw [hcc]; exact h.open_, h.joining, h.joined, h.exited, h.fin⟩
      rw [hcc]; simp [hx.1, hcl]
  | pop i =>
    have hcc : closeCalled (as ++ [.pop i]) = closeCalled as := by simp [hcc, Act.isClose]
    have hacc : acceptedTasks (as ++ [.pop i]) = acceptedTasks as := by simp [acceptedTasks_snoc]
    simp only [Executor.step] at hs
    split at hs
    · rename_i q t hw hp
      cases hs
      rcases pop_cases h.size hp with ⟨h1, _⟩ | ⟨t', l, h1, h2, h3, h4, h5, h6, h7⟩
      · simp at h1
      · simp only [Option.some.injEq] at h1
        subst h1
        have hmem : .exited ∈ e.workers.set i (.running t) → False := by
          intro hm
          have := List.mem_or_eq_of_mem_set hm
          rcases this with hm | hm
          · have := h.exited hm; simp [h2] at this
          · simp at hm
        refine ⟨?_, by simp [h4, h5], by rw [hcc, h6]; exact h.last, ?_, by rw [hcc]; exact h.open_, ?_, ?_, ?_, ?_⟩
        · rw [hacc, h.fifo, h3, h4]; simp
        · rw [hcc, h7, h4, ← h.last, and_comm]
        · intro hj; have := h.joining hj; simp [h2] at this
        · intro hj; have := h.joining (.inr hj); simp [h2] at this
        · intro hm; exact (hmem hm).elim
        · have hf := flat_set (w' := .running t) hw Worker.tasks
          simp only [Worker.tasks, List.nil_append] at hf
          simp only [running]
          refine List.Perm.trans ?_ (h.fin.append_right [t])
          simp only [running]
          refine List.Perm.trans (List.Perm.append_left _ (hf.append_right _)) ?_
          simp only [List.append_assoc, List.singleton_append, List.cons_append]
          refine List.Perm.append_left _ ?_
          refine List.Perm.trans (List.perm_middle (l₁ := [])).symm ?_
          simp only [List.nil_append]
          refine (List.perm_append_singleton _ _).symm.trans ?_
          simp
    · rename_i q hw hp
      cases hs
      rcases pop_cases h.size hp with ⟨_, rfl, h2⟩ | ⟨t', l, h1, _⟩
      · refine ⟨by rw [hacc]; exact h.fifo, h.size, by rw [hcc]; exact h.last, by rw [hcc]; exact h.closed,
          by rw [hcc]; exact h.open_, h.joining, ?_, fun _ => h2, ?_⟩
        · intro hj w hm
          rcases List.mem_or_eq_of_mem_set hm with hm | hm
          · exact h.joined hj w hm
          · exact hm
        · have hf := flat_set (w' := .exited) hw Worker.tasks
          simp only [Worker.tasks, List.nil_append] at hf
          exact (List.Perm.append_left _ (hf.append_right _)).trans h.fin
      · simp at h1
    · simp at hs
  | done i =>
    have hcc : closeCalled (as ++ [.done i]) = closeCalled as := by simp [hcc, Act.isClose]
    have hacc : acceptedTasks (as ++ [.done i]) = acceptedTasks as := by simp [acceptedTasks_snoc]
    simp only [Executor.step] at hs
    split at hs
    · rename_i t hw
      cases hs
      refine ⟨by rw [hacc]; exact h.fifo, h.size, by rw [hcc]; exact h.last, by rw [hcc]; exact h.closed,
          by rw [hcc]; exact h.open_, h.joining, ?_, ?_, ?_⟩
      · intro hj
        have := h.joined hj _ (List.mem_of_getElem? hw)
        simp at this
      · intro hm
        rcases List.mem_or_eq_of_mem_set hm with hm | hm
        · exact h.exited hm
        · simp at hm
      · have hf := flat_set (w' := .idle) hw Worker.tasks
        simp only [Worker.tasks, List.nil_append] at hf
        refine List.Perm.trans ?_ h.fin
        simp only [running, List.append_assoc]
        refine List.Perm.append_left _ ?_
        rw [← List.append_assoc]
        exact hf.append_right _
    · simp at hs
  | close =>
    have hcc : closeCalled (as ++ [.close]) = true := by simp [hcc, Act.isClose]
    have hacc : acceptedTasks (as ++ [.close]) = acceptedTasks as := by simp [acceptedTasks_snoc]
    simp only [Executor.step] at hs
    split at hs
    · rename_i hc
      cases hs
      have hrun : running { e with queue := UQueue.setLast e.queue, closer := .draining } = running e := by
        rcases hc with hc | hc <;> simp [running, Closer.tasks, hc]
      have hb : (UQueue.setLast e.queue).buffer = e.queue.buffer ∧ (UQueue.setLast e.queue).size = e.queue.size ∧
          (UQueue.setLast e.queue).last = true ∧
          ((UQueue.setLast e.queue).closed = true ↔ e.queue.closed = true ∨ e.queue.buffer = []) := by
        unfold UQueue.setLast
        simp only
        split
        · rename_i hx; simp only [List.isEmpty_iff] at hx; simp [hx]
        · rename_i hx; simp only [List.isEmpty_iff] at hx; simp [hx]
      obtain ⟨h1, h2, h3, h4⟩ := hb
      refine ⟨by rw [hacc, h.fifo]; simp [h1], by simp [h1, h2, h.size], by simp [hcc, h3], ?_, by simp [hcc], by simp, by simp, ?_, ?_⟩
      · simp only [hcc, true_and, h1, h4]
        constructor
        · rintro (hx | hx)
          · exact (h.closed.mp hx).2
          · exact hx
        · exact .inr
      · intro hm
        exact h4.mpr (.inl (h.exited hm))
      · rw [hrun]; exact h.fin
    · simp at hs
  | closePop =>
    have hcc : closeCalled (as ++ [.closePop]) = closeCalled as := by simp [hcc, Act.isClose]
    have hacc : acceptedTasks (as ++ [.closePop]) = acceptedTasks as := by simp [acceptedTasks_snoc]
    simp only [Executor.step] at hs
    split at hs
    · rename_i q t hw hp
      cases hs
      rcases pop_cases h.size hp with ⟨h1, _⟩ | ⟨t', l, h1, h2, h3, h4, h5, h6, h7⟩
      · simp at h1
      · simp only [Option.some.injEq] at h1
        subst h1
        refine ⟨?_, by simp [h4, h5], by rw [hcc, h6]; exact h.last, ?_, ?_, by simp, by simp, ?_, ?_⟩
        · rw [hacc, h.fifo, h3, h4]; simp
        · rw [hcc, h7, h4, ← h.last, and_comm]
        · have := h.open_
          rw [hw] at this
          rw [hcc]
          simpa using this
        · intro hm; have := h.exited hm; simp [h2] at this
        · have := h.fin
          simp only [running, Closer.tasks, hw, List.append_nil] at this
          simp only [running]
          rw [← List.append_assoc]
          exact this.append_right _
    · rename_i q hw hp
      cases hs
      rcases pop_cases h.size hp with ⟨_, rfl, h2⟩ | ⟨t', l, h1, _⟩
      · refine ⟨by rw [hacc]; exact h.fifo, h.size, by rw [hcc]; exact h.last, by rw [hcc]; exact h.closed,
          ?_, fun _ => h2, by simp, h.exited, ?_⟩
        · have := h.open_
          rw [hw] at this
          rw [hcc]
          simpa using this
        · have := h.fin
          simp only [running, Closer.tasks, hw] at this
          exact this
      · simp at h1
    · simp at hs
  | closeDone =>
    have hcc : closeCalled (as ++ [.closeDone]) = closeCalled as := by simp [hcc, Act.isClose]
    have hacc : acceptedTasks (as ++ [.closeDone]) = acceptedTasks as := by simp [acceptedTasks_snoc]
    simp only [Executor.step] at hs
    split at hs
    · rename_i t hw
      cases hs
      refine ⟨by rw [hacc]; exact h.fifo, h.size, by rw [hcc]; exact h.last, by rw [hcc]; exact h.closed,
          ?_, by simp, by simp, h.exited, ?_⟩
      · have := h.open_
        rw [hw] at this
        rw [hcc]
        simpa using this
      · have := h.fin
        simp only [running, Closer.tasks, hw] at this
        refine List.Perm.trans ?_ this
        simp only [running, Closer.tasks, List.append_nil, List.append_assoc]
        exact List.Perm.append_left _ List.perm_append_comm
    · simp at hs
  | join =>
    have hcc : closeCalled (as ++ [.join]) = closeCalled as := by simp [hcc, Act.isClose]
    have hacc : acceptedTasks (as ++ [.join]) = acceptedTasks as := by simp [acceptedTasks_snoc]
    simp only [Executor.step] at hs
    split at hs
    · rename_i hw
      cases hs
      refine ⟨by rw [hacc]; exact h.fifo, h.size, by rw [hcc]; exact h.last, by rw [hcc]; exact h.closed,
          ?_, fun _ => h.joining (.inl hw.1), fun _ => hw.2, h.exited, ?_⟩
      · have := h.open_
        rw [hw.1] at this
        rw [hcc]
        simpa using this
      · have := h.fin
        simp only [running, Closer.tasks, hw.1] at this
        exact this
    · simp at hs

theorem inv_run {n : Nat} : ∀ as e, run (init n) as = some e → Inv as e := by
  intro as
  generalize hl : as.length = k
  induction k generalizing as with
  | zero =>
    intro e h
    cases List.length_eq_zero_iff.mp hl
    cases h
    exact .init n
  | succ k ih =>
    intro e h
    rcases List.eq_nil_or_concat as with rfl | ⟨bs, a, rfl⟩
    · simp at hl
    · rw [List.concat_eq_append] at h hl ⊢
      rw [run_append] at h
      cases hb : run (init n) bs with
      | none => simp [hb] at h
      | some e1 =>
        simp only [hb, Option.bind_some, run] at h
        split at h
        · simp at h
        · rename_i e2 h2
          cases h
          exact (ih bs (by simpa using hl) e1 hb).step h2

def Worker.cost : Worker → Nat
  | .idle => 1
  | .running _ => 2
  | .exited => 0

def Closer.cost : Closer → Nat
  | .draining => 2
  | .running _ => 3
  | .joining => 1
  | _ => 0

/-- What is left to do. -/
def cost (e : E) : Nat := 3 * e.queue.buffer.length + (e.workers.map Worker.cost).sum + e.closer.cost

theorem cost_set {ws : List Worker} {i : Nat} {w w' : Worker} (h : ws[i]? = some w) :
    ((ws.set i w').map Worker.cost).sum + w.cost = (ws.map Worker.cost).sum + w'.cost := by
  induction ws generalizing i with
  | nil => simp at h
  | cons a ws ih =>
    cases i with
    | zero =>
      simp only [List.getElem?_cons_zero, Option.some.injEq] at h
      subst h
      simp; omega
    | succ n =>
      simp only [List.getElem?_cons_succ] at h
      have := ih h
      simp [-List.map_set]; omega

theorem cost_step {as : List Act} {e e' : E} {a : Act} (h : Inv as e) (hc : closeCalled as = true)
    (hs : step e a = some e') (ha : a.isClose = false) : cost e' + (if a.works then 1 else 0) ≤ cost e := by
  cases a with
  | schedule t =>
    simp only [Executor.step, Option.some.injEq] at hs
    subst hs
    have := h.last.mpr hc
    simp [UQueue.push, this, Act.works]
  | close => simp [Act.isClose] at ha
  | pop i =>
    simp only [Executor.step] at hs
    split at hs
    · rename_i q t hw hp
      cases hs
      rcases pop_cases h.size hp with ⟨h1, _⟩ | ⟨t', l, h1, h2, h3, h4, _⟩
      · simp at h1
      · have := cost_set (w' := .running t) hw
        simp only [Worker.cost] at this
        simp [cost, Act.works, h3, h4, -List.map_set]; omega
    · rename_i q hw hp
      cases hs
      rcases pop_cases h.size hp with ⟨_, rfl, h2⟩ | ⟨t', l, h1, _⟩
      · have := cost_set (w' := .exited) hw
        simp only [Worker.cost] at this
        simp [cost, Act.works, -List.map_set]; omega
      · simp at h1
    · simp at hs
  | done i =>
    simp only [Executor.step] at hs
    split at hs
    · rename_i t hw
      cases hs
      have := cost_set (w' := .idle) hw
      simp only [Worker.cost] at this
      simp [cost, Act.works, -List.map_set]; omega
    · simp at hs
  | closePop =>
    simp only [Executor.step] at hs
    split at hs
    · rename_i q t hw hp
      cases hs
      rcases pop_cases h.size hp with ⟨h1, _⟩ | ⟨t', l, h1, h2, h3, h4, _⟩
      · simp at h1
      · simp [cost, Act.works, h3, h4, hw, Closer.cost]; omega
    · rename_i q hw hp
      cases hs
      rcases pop_cases h.size hp with ⟨_, rfl, h2⟩ | ⟨t', l, h1, _⟩
      · simp [cost, Act.works, hw, Closer.cost]
      · simp at h1
    · simp at hs
  | closeDone =>
    simp only [Executor.step] at hs
    split at hs
    · rename_i t hw
      cases hs
      simp [cost, Act.works, hw, Closer.cost]
    · simp at hs
  | join =>
    simp only [Executor.step] at hs
    split at hs
    · rename_i hw
      cases hs
      simp [cost, Act.works, hw.1, Closer.cost]
    · simp at hs

theorem cost_run {as : List Act} {e : E} (h : Inv as e) (hc : closeCalled as = true) :
    ∀ (bs : List Act) {e' : E}, run e bs = some e' → closeCalled bs = false → cost e' + bs.countP (·.works) ≤ cost e := by
  intro bs
  induction bs generalizing as e with
  | nil => intro e' hr _; cases hr; simp
  | cons b bs ih =>
    intro e' hr hb
    simp only [run] at hr
    simp only [closeCalled, List.any_cons, Bool.or_eq_false_iff] at hb
    cases hs : step e b with
    | none => simp [hs] at hr
    | some e1 =>
      simp only [hs] at hr
      have h1 := cost_step h hc hs hb.1
      have h2 := ih (h.step hs) (by simp [closeCalled] at hc ⊢; simp [hc]) hr hb.2
      rw [List.countP_cons]
      omega

theorem length_step {e e' : E} {a : Act} (hs : step e a = some e') : e'.workers.length = e.workers.length := by
  cases a <;> simp only [Executor.step] at hs <;> (repeat' split at hs) <;> first | (cases hs; simp) | simp at hs

theorem length_run {e e' : E} : ∀ as, run e as = some e' → e'.workers.length = e.workers.length := by
  intro as
  induction as generalizing e with
  | nil => intro h; cases h; rfl
  | cons a as ih =>
    intro h
    simp only [run] at h
    cases hs : step e a with
    | none => simp [hs] at h
    | some e1 =>
      simp only [hs] at h
      rw [ih h, length_step hs]

theorem cost_sum (ws : List Worker) : (ws.map Worker.cost).sum ≤ 2 * ws.length := by
  induction ws with
  | nil => simp
  | cons w ws ih =>
    have : w.cost ≤ 2 := by cases w <;> simp [Worker.cost]
    simp; omega


end Verif.Executor
