import Verif.Proofs.WorkerLive
/-
How many inserts can be pending.
-/
namespace Verif.Worker
open Table (Op)

theorem run_ind' {w0 : W} (P : List Act → W → Prop) (h0 : P [] w0)
    (hs : ∀ as w a w', run w0 as = some w → P as w → step w a = some w' → P (as ++ [a]) w') :
    ∀ as w, run w0 as = some w → P as w := by
  intro as w hr
  have : run w0 as = some w ∧ P as w := by
    refine run_ind (fun as w => run w0 as = some w ∧ P as w) ⟨rfl, h0⟩ ?_ as w hr
    intro as w a w' ⟨h1, h2⟩ h3
    refine ⟨?_, hs as w a w' h1 h2 h3⟩
    rw [run_append, h1]
    simp [run, h3]
  exact this.2

/-- The callbacks called with OK. -/
def okCalls (out : List Out) : List Nat := ((callbacks out).filter fun c => c.2 = none).map Prod.fst

/-- The callbacks called with an error. -/
def badCalls (out : List Out) : List Nat := ((callbacks out).filter fun c => !decide (c.2 = none)).map Prod.fst

/-- The streams that have been told to stop and not yet to go on, without those that will be at the next step. -/
def W.stopped (w : W) : List Nat := badCalls w.out ++ (if w.cancelSeen then w.notify else []) ++ w.notifyList

/-- The bound for the number of pending inserts. -/
structure Bound (w : W) : Prop where
  pos : 0 < w.maxEnqueued
  len : w.pendingInserts.length < w.maxEnqueued + w.stopped.length
  bad : w.cancelSeen = false → badCalls w.out = []

theorem badCalls_append (a b : List Out) : badCalls (a ++ b) = badCalls a ++ badCalls b := by
  simp [badCalls, callbacks_append]

theorem okCalls_append (a b : List Out) : okCalls (a ++ b) = okCalls a ++ okCalls b := by
  simp [okCalls, callbacks_append]

theorem okCalls_answer (l : List Req) (s : Status) : okCalls (l.map (Out.answer · s)) = [] := by
  simp [okCalls, callbacks_answer]

theorem badCalls_answer (l : List Req) (s : Status) : badCalls (l.map (Out.answer · s)) = [] := by
  simp [badCalls, callbacks_answer]

theorem calls_notify (l : List Nat) (s : Status) :
    okCalls (l.map (Out.notify · s)) = (if s = none then l else []) ∧
    badCalls (l.map (Out.notify · s)) = (if s = none then [] else l) := by
  simp only [okCalls, badCalls, callbacks_notify]
  by_cases h : s = none
  · subst h
    constructor
    · rw [List.filter_eq_self.mpr (by simp)]; simp [Function.comp_def]
    · rw [List.filter_eq_nil_iff.mpr (by simp)]; rfl
  · constructor
    · rw [List.filter_eq_nil_iff.mpr (by simp [h])]; simp [h]
    · rw [List.filter_eq_self.mpr (by simp [h])]; simp [h, Function.comp_def]

theorem Bound.step {w w' : W} {a : Act} (h : Bound w) (hca : Calls w) (hs : step w a = some w') : Bound w' := by
  obtain ⟨hd, ht⟩ := tr_of_step hs
  obtain ⟨h0, h1, h2⟩ := h
  have hlk : ∀ now, w.pc = .queues → w.pendingInserts.length < w.maxEnqueued + (looked w now).stopped.length := by
    intro now hpc
    have hn := hca.none (by simp [hpc]) (by simp [hpc])
    refine Nat.lt_of_lt_of_le h1 (Nat.add_le_add_left ?_ _)
    simp only [W.stopped, looked, hn]
    cases w.table.limiter.cancelled <;> cases hcs : w.cancelSeen <;> simp [hcs]
  cases ht
  case insertOk hlt => exact ⟨h0, by simp only [List.length_append, List.length_singleton]; omega, h2⟩
  case insertFull =>
    refine ⟨h0, ?_, h2⟩
    simp only [W.stopped, List.length_append, List.length_singleton] at h1 ⊢
    omega
  case top hpc =>
    refine ⟨h0, ?_, ?_⟩
    · simp only [W.stopped, badCalls_append, (calls_notify _ _).2, W.insertStatus, List.length_append] at h1 ⊢
      cases hcs : w.cancelSeen <;> simp [hcs] at h1 ⊢ <;> omega
    · intro e
      simp only at e
      simp [badCalls_append, (calls_notify _ _).2, W.insertStatus, e, h2 e]
  case smpFull =>
    refine ⟨h0, ?_, ?_⟩
    · simpa [W.stopped, badCalls_append, badCalls, callbacks] using h1
    · simpa [badCalls_append, badCalls, callbacks] using h2
  case swapI => exact ⟨h0, by simp only [List.length_nil]; omega, h2⟩
  case swapB => exact ⟨h0, by simp only [List.length_nil]; omega, h2⟩
  case idleStop now d hpc _ _ _ _ _ _ => 
    refine ⟨h0, hlk now hpc, fun e => h2 ?_⟩
    simp only [looked, Bool.or_eq_false_iff] at e; exact e.1
  case idleWait now d hpc _ _ _ _ _ _ => 
    refine ⟨h0, hlk now hpc, fun e => h2 ?_⟩
    simp only [looked, Bool.or_eq_false_iff] at e; exact e.1
  case idleFinish now d hpc _ _ _ _ => 
    refine ⟨h0, hlk now hpc, fun e => h2 ?_⟩
    simp only [looked, Bool.or_eq_false_iff] at e; exact e.1
  case finish =>
    refine ⟨h0, ?_, ?_⟩
    · simpa [W.stopped, badCalls_append, badCalls_answer] using h1
    · simpa [badCalls_append, badCalls_answer] using h2
  all_goals exact ⟨h0, h1, h2⟩

theorem Bound.init (t0 : Table) : Bound (init t0) := by
  have : 0 < maxEnqueuedInserts t0.maxSize := by unfold maxEnqueuedInserts; omega
  refine ⟨this, ?_, ?_⟩
  · simp [Worker.init, W.stopped, badCalls, callbacks]; exact this
  · simp [Worker.init, badCalls, callbacks]

/-- How often a stream was told to stop, and to go on. -/
theorem refused_count {w : W} (h : Calls w) (x : Nat) :
    w.refused.count x = (okCalls w.out).count x + (badCalls w.out).count x + w.notify.count x + w.notifyList.count x := by
  rw [h.all]
  have : ∀ l : List (Nat × Status), (l.map Prod.fst).count x =
      ((l.filter fun c => c.2 = none).map Prod.fst).count x + ((l.filter fun c => !decide (c.2 = none)).map Prod.fst).count x := by
    intro l
    induction l with
    | nil => rfl
    | cons c l ih =>
      by_cases hc : c.2 = none
      · simp only [List.map_cons, List.count_cons, List.filter_cons, hc, decide_true, if_true, Bool.not_true, Bool.false_eq_true, if_false]
        omega
      · simp only [List.map_cons, List.count_cons, List.filter_cons, hc, decide_false, Bool.not_false, Bool.false_eq_true, if_false, if_true]
        omega
  rw [List.count_append, List.count_append, this]
  rfl

/-- A stream inserts only when it has been told to go on as often as to stop. -/
def Obeys (streams : List Nat) (w0 : W) (as : List Act) : Prop :=
  ∀ as1 i cb as2 w, as = as1 ++ .insert i cb :: as2 → run w0 as1 = some w →
    cb ∈ streams ∧ w.refused.count cb = (okCalls w.out).count cb

theorem Obeys.init {streams : List Nat} {w0 : W} {as : List Act} {a : Act} (h : Obeys streams w0 (as ++ [a])) :
    Obeys streams w0 as := by
  intro as1 i cb as2 w he hr
  exact h as1 i cb (as2 ++ [a]) w (by simp [he]) hr

theorem refused_step {w w' : W} {a : Act} (hs : step w a = some w') :
    (w'.refused = w.refused ∨ ∃ i cb, a = .insert i cb ∧ w'.refused = w.refused ++ [cb]) ∧
    (∀ x, (okCalls w.out).count x ≤ (okCalls w'.out).count x) := by
  obtain ⟨hd, ht⟩ := tr_of_step hs
  cases ht
  case insertFull => exact ⟨.inr ⟨_, _, rfl, rfl⟩, fun _ => Nat.le_refl _⟩
  case top => exact ⟨.inl rfl, fun x => by simp [okCalls_append]⟩
  case smpFull => exact ⟨.inl rfl, fun x => by simp [okCalls_append]⟩
  case finish => exact ⟨.inl rfl, fun x => by simp [okCalls_append]⟩
  all_goals exact ⟨.inl rfl, fun _ => Nat.le_refl _⟩

theorem refused_streams {streams : List Nat} {t0 : Table} : ∀ as w, run (init t0) as = some w →
    Obeys streams (init t0) as → (∀ x ∈ w.refused, x ∈ streams) ∧
      ∀ x, w.refused.count x ≤ (okCalls w.out).count x + 1 := by
  refine run_ind' _ ?_ ?_
  · intro _; simp [Worker.init]
  · intro as w a w' hr ih hs hob
    obtain ⟨h1, h2⟩ := ih hob.init
    obtain ⟨h3, h4⟩ := refused_step hs
    rcases h3 with h3 | ⟨i, cb, rfl, h3⟩
    · rw [h3]
      exact ⟨h1, fun x => Nat.le_trans (h2 x) (Nat.add_le_add_right (h4 x) 1)⟩
    · obtain ⟨h5, h6⟩ := hob as i cb [] w rfl hr
      rw [h3]
      constructor
      · intro x hx
        rcases List.mem_append.mp hx with hx | hx
        · exact h1 x hx
        · rw [List.mem_singleton.mp hx]; exact h5
      · intro x
        have := h2 x
        have := h4 x
        rw [List.count_append]
        by_cases e : cb = x
        · subst e; simp; omega
        · simp [e]; omega

theorem length_le_of_count {l s : List Nat} (h : ∀ x, l.count x ≤ 1) (hs : ∀ x ∈ l, x ∈ s) : l.length ≤ s.length := by
  induction l generalizing s with
  | nil => simp
  | cons a l ih =>
    have ha : a ∈ s := hs a (by simp)
    have hn : a ∉ l := by
      intro hm
      have := h a
      rw [List.count_cons_self] at this
      have := List.count_pos_iff.mpr hm
      omega
    have : l.length ≤ (s.erase a).length := by
      refine ih (fun x => ?_) (fun x hx => ?_)
      · have := h x; rw [List.count_cons] at this; omega
      · have hne : x ≠ a := fun e => hn (e ▸ hx)
        exact (List.mem_erase_of_ne hne).mpr (hs x (List.mem_cons_of_mem _ hx))
    rw [List.length_erase_of_mem ha] at this
    have := List.length_pos_of_mem ha
    simp only [List.length_cons]
    omega

theorem stopped_le {streams : List Nat} {w : W} (hca : Calls w) (h1 : ∀ x ∈ w.refused, x ∈ streams)
    (h2 : ∀ x, w.refused.count x ≤ (okCalls w.out).count x + 1) : w.stopped.length ≤ streams.length := by
  have hc : ∀ x, w.stopped.count x ≤ w.refused.count x - (okCalls w.out).count x := by
    intro x
    have := refused_count hca x
    simp only [W.stopped, List.count_append]
    cases w.cancelSeen
    · simp only [Bool.false_eq_true, if_false, List.count_nil]; omega
    · simp only [if_true]; omega
  refine length_le_of_count (fun x => ?_) (fun x hx => h1 x ?_)
  · have := hc x; have := h2 x; omega
  · have := hc x
    have : 0 < w.stopped.count x := List.count_pos_iff.mpr hx
    exact List.count_pos_iff.mp (by omega)

end Verif.Worker
