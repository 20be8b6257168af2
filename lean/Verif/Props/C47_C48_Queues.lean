import Verif.Proofs.Queues
/-
C47: `internal::Queue`. C48: `internal::UnboundedQueue`. The histories list completed calls in the order in which they took
effect, from any number of threads.
-/
namespace Verif
open QEvent (accepted delivered pending hasClose hasLast)
variable {α : Type}

/-! ### C47 -/

/-- C47: first in first out, exactly once, within the capacity; what is delivered is a real item. -/
theorem C47_fifo {cap : Nat} {es : List (QEvent α)} {s : BQueue.S α} (h : BQueue.Runs cap es s) :
    accepted es = delivered es ++ pending es ∧ (pending es).length ≤ cap ∧ BQueue.size s = (pending es).length ∧
      ∀ x ∈ delivered es, x.isSome := by
  have hi := h.inv
  obtain ⟨h1, h2⟩ := hi.pending
  refine ⟨?_, ?_, h2.symm, ?_⟩
  · rw [h1, hi.del, List.take_append_drop]
  · have := hi.buf.room
    omega
  · intro x hx
    rw [hi.del] at hx
    exact hi.real x (List.mem_of_mem_take hx)

/-- C47: when `Push` succeeds, is refused, and waits. -/
theorem C47_push {cap : Nat} {es : List (QEvent α)} {s : BQueue.S α} (h : BQueue.Runs cap es s) (x : α) :
    (hasClose es ∨ hasLast es → BQueue.push s x = some (s, false)) ∧
    (¬ hasClose es → ¬ hasLast es → (pending es).length < cap → ∃ s', BQueue.push s x = some (s', true)) ∧
    (¬ hasClose es → ¬ hasLast es → (pending es).length = cap → BQueue.push s x = none) := by
  have hi := h.inv
  obtain ⟨_, h2⟩ := hi.pending
  have hcl : ¬ hasClose es → ¬ hasLast es → s.closed = false ∧ s.last = false := by
    intro a b
    constructor
    · cases hx : s.closed with
      | false => rfl
      | true => rcases hi.closed.mp hx with c | ⟨c, _⟩ <;> contradiction
    · cases hx : s.last with
      | false => rfl
      | true => exact absurd (hi.last.mp hx) b
  refine ⟨fun hc => ?_, fun a b c => ?_, fun a b c => ?_⟩
  · have : (s.closed || s.last) = true := by
      rcases hc with hc | hc
      · simp [hi.closed.mpr (.inl hc)]
      · simp [hi.last.mpr hc]
    simp [BQueue.push, this]
  · obtain ⟨d, e⟩ := hcl a b
    rw [h2] at c
    simp [BQueue.push, d, e, hi.buf.cap_eq, c]
  · obtain ⟨d, e⟩ := hcl a b
    rw [h2] at c
    simp [BQueue.push, d, e, hi.buf.cap_eq]
    omega

/-- C47: `Pop` delivers the next item unless `Close` was called; it fails after `Close` and when everything is
delivered after `SetLastItemPushed`; else it waits. -/
theorem C47_pop {cap : Nat} {es : List (QEvent α)} {s : BQueue.S α} (h : BQueue.Runs cap es s) :
    (hasClose es → BQueue.pop s = some (s, none)) ∧
    (¬ hasClose es → ∀ x rest, pending es = x :: rest → ∃ s', BQueue.pop s = some (s', some x)) ∧
    (¬ hasClose es → pending es = [] → hasLast es → BQueue.pop s = some (s, none)) ∧
    (¬ hasClose es → pending es = [] → ¬ hasLast es → BQueue.pop s = none) := by
  have hi := h.inv
  obtain ⟨h1, h2⟩ := hi.pending
  refine ⟨fun a => ?_, fun a x rest b => ?_, fun a b c => ?_, fun a b c => ?_⟩
  · simp [BQueue.pop, hi.closed.mpr (.inl a)]
  · have hlt : s.pops < s.pushes := by
      rw [b] at h2
      simp only [List.length_cons] at h2
      omega
    have hcl : s.closed = false := by
      cases hx : s.closed with
      | false => rfl
      | true =>
        rcases hi.closed.mp hx with c | ⟨_, c⟩
        · contradiction
        · omega
    obtain ⟨b1, _⟩ := hi.buf.pop hlt
    have hx : x = s.buffer (s.pops % s.cap) := by
      obtain ⟨hl, he⟩ := List.getElem?_eq_some_iff.mp b1
      rw [h1, List.drop_eq_getElem_cons hl, he] at b
      simpa using (List.cons.inj b).1.symm
    simp only [BQueue.pop, hcl, Bool.false_or, decide_eq_true_eq, hlt, if_true, Bool.false_eq_true, if_false, ← hx]
    exact ⟨_, rfl⟩
  · have : s.pushes = s.pops := by
      rw [b] at h2
      have := hi.buf.le
      simp only [List.length_nil] at h2
      omega
    simp [BQueue.pop, hi.closed.mpr (.inr ⟨c, this⟩)]
  · have hcl : s.closed = false := by
      cases hx : s.closed with
      | false => rfl
      | true =>
        rcases hi.closed.mp hx with d | ⟨d, _⟩ <;> contradiction
    rw [b] at h2
    simp only [List.length_nil] at h2
    simp [BQueue.pop, hcl]
    omega

/-- C47, `PopBatch`. Missing: after `SetLastItemPushed`, where the code refuses even if enough items are there
(`C47_popBatch_after_last`). The next `n` items are delivered, in order, if there are that many. -/
theorem C47_popBatch_partial {cap : Nat} {es : List (QEvent α)} {s : BQueue.S α} (h : BQueue.Runs cap es s) (n : Nat)
    (expired : Bool) :
    (cap < n → BQueue.popBatch s n expired = some (s, .err .invalidArgument)) ∧
    (n ≤ cap → hasClose es → BQueue.popBatch s n expired = some (s, .err .cancelled)) ∧
    (n ≤ cap → ¬ hasClose es → ¬ hasLast es → n ≤ (pending es).length →
      ∃ s', BQueue.popBatch s n expired = some (s', .ok ((pending es).take n))) ∧
    (n ≤ cap → ¬ hasClose es → ¬ hasLast es → (pending es).length < n →
      BQueue.popBatch s n expired = if expired then some (s, .err .deadlineExceeded) else none) ∧
    (n ≤ cap → ¬ hasClose es → hasLast es → BQueue.popBatch s n expired =
      some (s, .err (if pending es = [] then .cancelled else .resourceExhausted))) := by
  have hi := h.inv
  obtain ⟨h1, h2⟩ := hi.pending
  have hle := hi.buf.le
  have hcl : ¬ hasClose es → ¬ hasLast es → s.closed = false ∧ s.last = false := by
    intro a b
    constructor
    · cases hx : s.closed with
      | false => rfl
      | true => rcases hi.closed.mp hx with c | ⟨c, _⟩ <;> contradiction
    · cases hx : s.last with
      | false => rfl
      | true => exact absurd (hi.last.mp hx) b
  have hn : n ≤ cap → ¬ s.cap < n := fun a => by rw [hi.buf.cap_eq]; omega
  refine ⟨fun a => ?_, fun a b => ?_, fun a b c d => ?_, fun a b c d => ?_, fun a b c => ?_⟩
  · simp [BQueue.popBatch, hi.buf.cap_eq, a]
  · simp [BQueue.popBatch, hn a, hi.closed.mpr (.inl b)]
  · obtain ⟨e, f⟩ := hcl b c
    rw [h2] at d
    obtain ⟨t1, t2, t3, t4, t5, t6⟩ := hi.buf.takeBatch n (by omega)
    simp only [BQueue.popBatch, if_neg (hn a), e, f, d, t6, decide_true, Bool.or_true, Bool.or_false, Bool.not_true,
      Bool.false_and, Bool.false_eq_true, if_false, and_false]
    exact ⟨_, by rw [h1, ← t1]⟩
  · obtain ⟨e, f⟩ := hcl b c
    rw [h2] at d
    have : ¬ n ≤ s.pushes - s.pops := by omega
    cases expired <;> simp [BQueue.popBatch, hn a, e, f, this]
  · have f := hi.last.mpr c
    by_cases hp : pending es = []
    · rw [hp] at h2
      simp only [List.length_nil] at h2
      have e := hi.closed.mpr (.inr ⟨c, by omega⟩)
      simp [BQueue.popBatch, hn a, e, hp]
    · have e : s.closed = false := by
        cases hx : s.closed with
        | false => rfl
        | true =>
          rcases hi.closed.mp hx with d | ⟨_, d⟩
          · contradiction
          · have := List.length_pos_iff.mpr hp
            omega
      simp [BQueue.popBatch, hn a, e, f, hp]

/-- Two pushes, a full queue, a pop, a push, the end, pops until the queue is drained. -/
def queueRun : List (QEvent Nat) :=
  [.push 1 true, .push 2 true, .pop (some (some 1)), .push 3 true, .setLast, .push 4 false, .pop (some (some 2)),
   .pop (some (some 3)), .pop none]

/-- The hypothesis of the theorems above. -/
example : ∃ s, BQueue.Runs 2 queueRun s ∧ pending queueRun = [] ∧ accepted queueRun = [some 1, some 2, some 3] := by
  refine ⟨_, .snoc (.snoc (.snoc (.snoc (.snoc (.snoc (.snoc (.snoc (.snoc .nil (.push rfl)) (.push rfl)) (.pop rfl)) (.push rfl))
    .setLast) (.push rfl)) (.pop rfl)) (.pop rfl)) (.pop rfl), by decide, by decide⟩

/-- The batch is there and `PopBatch` refuses to deliver it. -/
theorem C47_popBatch_after_last : ∃ s : BQueue.S Nat, BQueue.Runs 2 [.push 1 true, .push 2 true, .setLast] s ∧
    pending [QEvent.push 1 true, .push 2 true, .setLast] = [some 1, some 2] ∧
    BQueue.popBatch s 2 false = some (s, .err .resourceExhausted) :=
  ⟨_, .snoc (.snoc (.snoc .nil (.push rfl)) (.push rfl)) .setLast, by decide, rfl⟩

/-- Before `SetLastItemPushed` it does. -/
example : ∃ s s' : BQueue.S Nat, BQueue.Runs 2 [.push 1 true, .push 2 true] s ∧
    BQueue.popBatch s 2 false = some (s', .ok [some 1, some 2]) :=
  ⟨_, _, .snoc (.snoc .nil (.push rfl)) (.push rfl), rfl⟩

/-! ### C48 -/

/-- C48: first in first out, exactly once. -/
theorem C48_fifo {es : List (QEvent α)} {s : UQueue.S α} (h : UQueue.Runs es s) :
    accepted es = delivered es ++ pending es ∧ s.size = (pending es).length ∧ ∀ x ∈ delivered es, x.isSome := by
  have hi := h.inv
  refine ⟨by rw [hi.pending, hi.acc], by rw [hi.pending, hi.size]; simp, fun x hx => ?_⟩
  have : ∀ y ∈ accepted es, y.isSome := by
    intro y hy
    simp only [accepted, List.mem_flatMap] at hy
    obtain ⟨e, _, he⟩ := hy
    split at he
    · simp only [List.mem_singleton] at he; subst he; rfl
    · simp at he
  exact this x (by rw [hi.acc]; exact List.mem_append_left _ hx)

/-- C48: `Push` succeeds exactly before `Close` and `SetLastItemPushed`. -/
theorem C48_push {es : List (QEvent α)} {s : UQueue.S α} (h : UQueue.Runs es s) (x : α) :
    (UQueue.push s x).2 = true ↔ ¬ hasClose es ∧ ¬ hasLast es := by
  have hi := h.inv
  simp only [UQueue.push]
  split
  · rename_i hx
    simp only [Bool.or_eq_true] at hx
    simp only [Bool.false_eq_true, false_iff, not_and, Classical.not_not]
    intro hc
    rcases hx with hx | hx
    · rcases hi.closed.mp hx with d | ⟨d, _⟩
      · contradiction
      · exact d
    · exact hi.last.mp hx
  · rename_i hx
    simp only [Bool.or_eq_true, not_or] at hx
    simp only [true_iff]
    exact ⟨fun hc => hx.1 (hi.closed.mpr (.inl hc)), fun hl => hx.2 (hi.last.mpr hl)⟩

/-- C48: `Pop` delivers the next item unless `Close` was called, fails after `Close` and when everything is delivered after
`SetLastItemPushed`, and else waits. -/
theorem C48_pop {es : List (QEvent α)} {s : UQueue.S α} (h : UQueue.Runs es s) :
    (hasClose es → UQueue.pop s = some (s, none)) ∧
    (¬ hasClose es → ∀ x rest, pending es = x :: rest → ∃ s', UQueue.pop s = some (s', some x)) ∧
    (¬ hasClose es → pending es = [] → hasLast es → UQueue.pop s = some (s, none)) ∧
    (¬ hasClose es → pending es = [] → ¬ hasLast es → UQueue.pop s = none) := by
  have hi := h.inv
  have hp := hi.pending
  refine ⟨fun a => ?_, fun a x rest b => ?_, fun a b c => ?_, fun a b c => ?_⟩
  · simp [UQueue.pop, hi.closed.mpr (.inl a)]
  · rw [hp] at b
    cases hb : s.buffer with
    | nil => simp [hb] at b
    | cons y l =>
      rw [hb] at b
      simp only [List.map_cons, List.cons.injEq] at b
      have hcl : s.closed = false := by
        cases hx : s.closed with
        | false => rfl
        | true =>
          rcases hi.closed.mp hx with c | ⟨_, c⟩
          · contradiction
          · simp [hb] at c
      have hs := hi.size
      rw [hb] at hs
      simp only [UQueue.pop, hcl, hs, hb, List.length_cons, List.head?_cons, b.1]
      simp
  · rw [hp] at b
    simp only [List.map_eq_nil_iff] at b
    simp [UQueue.pop, hi.closed.mpr (.inr ⟨c, b⟩)]
  · rw [hp] at b
    simp only [List.map_eq_nil_iff] at b
    have hcl : s.closed = false := by
      cases hx : s.closed with
      | false => rfl
      | true =>
        rcases hi.closed.mp hx with d | ⟨d, _⟩ <;> contradiction
    simp [UQueue.pop, hcl, hi.size, b]

example : ∃ s, UQueue.Runs queueRun s ∧ ¬ hasClose queueRun ∧ hasLast queueRun := by
  refine ⟨_, .snoc (.snoc (.snoc (.snoc (.snoc (.snoc (.snoc (.snoc (.snoc .nil .push) .push) (.pop rfl)) .push)
    .setLast) .push) (.pop rfl)) (.pop rfl)) (.pop rfl), by simp [hasClose, queueRun], by simp [hasLast, queueRun]⟩

end Verif
