import Verif.Model.Worker
import Verif.Proofs.TableReach
/-
Runs of the table worker: induction, and what a step can do.
-/
namespace Verif
open Table (Op)

namespace Table

theorem deleteItem_cancelled (t : Table) (k : Key) :
    (t.deleteItem k).1.limiter.cancelled = t.limiter.cancelled := by
  unfold deleteItem
  split
  · rfl
  · split
    · rfl
    · simp only
      split <;> rfl

theorem updateItem_cancelled (t : Table) (k : Key) (p : Pri) :
    (t.updateItem k p).1.limiter = t.limiter := by
  unfold updateItem
  split
  · rfl
  · simp only
    split
    · split <;> rfl
    · rfl

theorem insertNew_cancelled (t : Table) (i : Item) (now : Int) (d : Draw) :
    (t.insertNew i now d).1.limiter.cancelled = t.limiter.cancelled := by
  unfold insertNew
  simp only
  split
  · split
    · split
      · split
        · split
          · simp only [Limiter.insert, deleteItem_cancelled]
          · simp only [deleteItem_cancelled]
        · rfl
        · rfl
      · rfl
    · rfl
  · rfl

theorem reply_fst (r : Table × Res Unit) : (reply r).1 = r.1 := by
  unfold reply; split <;> rfl

theorem deleteAll_cancelled (ks : List Key) : ∀ t : Table,
    (t.deleteAll ks).1.limiter.cancelled = t.limiter.cancelled := by
  induction ks with
  | nil => intro t; rfl
  | cons k ks ih =>
    intro t
    simp only [deleteAll]
    split
    · rw [ih, deleteItem_cancelled]
    · exact deleteItem_cancelled t k

theorem updateAll_cancelled (us : List (Key × Pri)) : ∀ t : Table,
    (t.updateAll us).1.limiter = t.limiter := by
  induction us with
  | nil => intro t; rfl
  | cons u us ih =>
    intro t
    simp only [updateAll]
    split
    · rw [ih, updateItem_cancelled]
    · exact updateItem_cancelled t u.1 u.2

theorem sampleOne_cancelled (t : Table) (rl : Bool) (d : Draw) :
    (t.sampleOne rl d).1.limiter.cancelled = t.limiter.cancelled := by
  unfold sampleOne
  split
  · rfl
  · rfl
  · split
    · rfl
    · simp only
      split
      · split <;> simp only [deleteItem_cancelled]
      · rfl

theorem maybeCommit_cancelled {l l' : Limiter} (h : l.maybeCommitSample = some l') : l'.cancelled = l.cancelled := by
  unfold Limiter.maybeCommitSample at h
  split at h <;> simp at h
  rw [← h]

theorem sampleMore_cancelled (rl : Bool) (more : Nat) : ∀ (t : Table) (acc : List Sampled) (ds : Nat → Draw),
    (t.sampleMore rl acc more ds).1.limiter.cancelled = t.limiter.cancelled := by
  induction more with
  | zero => intro t acc ds; rfl
  | succ n ih =>
    intro t acc ds
    simp only [sampleMore]
    split
    · rfl
    · rename_i l hl
      have := maybeCommit_cancelled hl
      split
      · rw [ih, sampleOne_cancelled]; exact this
      · rw [sampleOne_cancelled]; exact this
      · rw [sampleOne_cancelled]; exact this

theorem sampleLoop_cancelled (t : Table) (rl : Bool) (batch : Nat) (ds : Nat → Draw) :
    (t.sampleLoop rl batch ds).1.limiter.cancelled = t.limiter.cancelled := by
  unfold sampleLoop
  simp only
  split
  · split <;> simp only [sampleMore_cancelled, sampleOne_cancelled]
  · exact sampleOne_cancelled ..
  · exact sampleOne_cancelled ..

theorem insertResume_cancelled (t : Table) (i : Item) (now : Int) (d : Draw) :
    (t.insertResume i now d).1.limiter.cancelled = t.limiter.cancelled := by
  unfold insertResume
  split
  · rfl
  · rfl
  · split
    · rw [reply_fst, updateItem_cancelled]
    · rw [reply_fst, insertNew_cancelled]

theorem sampleResume_cancelled (t : Table) (n : Nat) (ds : Nat → Draw) :
    (t.sampleResume n ds).1.limiter.cancelled = t.limiter.cancelled := by
  unfold sampleResume
  split
  · rfl
  · rfl
  · rw [sampleLoop_cancelled]

/-- Only `Close` sets the cancellation flag, and nothing clears it. -/
theorem step_cancelled (t : Table) (op : Op) :
    (t.step op).1.limiter.cancelled = true ↔ t.limiter.cancelled = true ∨ op = .close := by
  cases op with
  | insert i now d =>
    simp only [step, insertOrAssign]
    split
    · simp
    · split
      · rw [reply_fst, updateItem_cancelled]; simp
      · rw [insertResume_cancelled]; simp
  | insertResume i now d => simp [step, insertResume_cancelled]
  | workerInsert i now d =>
    simp only [step, workerInsert]
    split
    · rw [reply_fst]
      unfold insertInternal
      split
      · rw [updateItem_cancelled]; simp
      · rw [insertNew_cancelled]; simp
    · simp
  | mutate us ds =>
    simp only [step, mutateItems]
    split
    · rw [reply_fst, updateAll_cancelled, deleteAll_cancelled]; simp
    · simp [deleteAll_cancelled]
    · simp [deleteAll_cancelled]
  | sample n ds =>
    simp only [step, sampleBatch]
    split
    · rename_i l hl
      rw [sampleLoop_cancelled]; simp [maybeCommit_cancelled hl]
    · simp [sampleResume_cancelled]
  | sampleResume n ds => simp [step, sampleResume_cancelled]
  | workerSample rl d =>
    simp only [step, workerSample]
    split
    · simp
    · rename_i l hl
      have := maybeCommit_cancelled hl
      split <;> simp [sampleOne_cancelled, this]
  | reset => simp [step, reset, Limiter.reset]
  | close => simp [step, close, Limiter.cancel]

theorem run_snoc {t t' : Table} {ops : List Op} {op : Op} (h : t.run ops = some t') :
    t.run (ops ++ [op]) = match (t'.step op).2 with | .died => none | _ => some (t'.step op).1 := by
  induction ops generalizing t with
  | nil =>
    simp only [run, Option.some.injEq] at h
    subst h
    simp only [List.nil_append, run]
    split <;> simp_all
  | cons o ops ih =>
    simp only [run, List.cons_append] at h ⊢
    split at h
    · simp at h
    · rw [← ih h]

end Table

namespace Worker

theorem run_append {w : W} {as bs : List Act} : run w (as ++ bs) = (run w as).bind (run · bs) := by
  induction as generalizing w with
  | nil => simp [run]
  | cons a as ih =>
    simp only [List.cons_append, run]
    cases step w a with
    | none => rfl
    | some w' => simp [ih]

/-- Induction over schedules: `P as w` for the state `w` after the schedule `as`. -/
theorem run_ind {w0 : W} (P : List Act → W → Prop) (h0 : P [] w0)
    (hs : ∀ as w a w', P as w → step w a = some w' → P (as ++ [a]) w') :
    ∀ as w, run w0 as = some w → P as w := by
  suffices h : ∀ bs as w1 w, P as w1 → run w1 bs = some w → P (as ++ bs) w by
    intro as w hr
    simpa using h as [] w0 w h0 hr
  intro bs
  induction bs with
  | nil => intro as w1 w hP hr; simp only [run, Option.some.injEq] at hr; subst hr; simpa using hP
  | cons b bs ih =>
    intro as w1 w hP hr
    simp only [run] at hr
    cases hb : step w1 b with
    | none => simp [hb] at hr
    | some w2 =>
      simp only [hb] at hr
      have := ih (as ++ [b]) w2 w (hs as w1 b w2 hP hb) hr
      simpa using this

/-- As `run_ind`, for properties of the state alone that hold for schedules of allowed actions. -/
theorem run_inv {w0 : W} (P : W → Prop) (ok : Act → Prop) (h0 : P w0)
    (hs : ∀ w a w', P w → ok a → step w a = some w' → P w') {as : List Act} {w : W} (hok : ∀ a ∈ as, ok a)
    (hr : run w0 as = some w) : P w := by
  refine run_ind (fun as w => (∀ a ∈ as, ok a) → P w) (fun _ => h0) ?_ as w hr hok
  intro as w a w' h hst ha
  exact hs w a w' (h fun x hx => ha x (List.mem_append_left _ hx)) (ha a (by simp)) hst

/-- The critical section of an action of another thread. -/
def Act.op : Act → Option Op
  | .mutate us ds => some (.mutate us ds)
  | .reset => some .reset
  | .close => some .close
  | _ => none

/-- The worker looks at the queues, `c` being the cancellation flag: state after lines 300-322. -/
def looked (w : W) (now : Int) : W :=
  let c := w.table.limiter.cancelled
  let p := expired c now
  { w with
    cancelSeen := w.cancelSeen || c
    notify := if c = true ∧ w.notify = [] then w.notifyList else w.notify
    notifyList := if c = true ∧ w.notify = [] then [] else w.notifyList
    inserts := if c then [] else w.inserts
    terminate := w.terminate ++ takeExpired p w.sampling ++ takeExpired p w.pendingSampling
    sampling := keepUnexpired p w.sampling
    pendingSampling := keepUnexpired p w.pendingSampling }

/-- The program counter at the end of a pass of the inner loop. -/
def nextPc (again : Bool) : Pc := if again then .tryInsert else .queues

/-- The steps, one by one. -/
inductive Tr : W → Act → W → Prop
  | insertBad {w i cb} : Table.itemValid i = false → Tr w (.insert i cb) w
  | insertOk {w i cb} : Table.itemValid i = true → w.pendingInserts.length + 1 < w.maxEnqueued →
      Tr w (.insert i cb) { w with
        pendingInserts := w.pendingInserts ++ [i]
        accepted := w.accepted ++ [i]
        woken := w.woken || decide (w.pc = .waiting) }
  | insertFull {w i cb} : Table.itemValid i = true → w.maxEnqueued ≤ w.pendingInserts.length + 1 →
      Tr w (.insert i cb) { w with
        pendingInserts := w.pendingInserts ++ [i]
        accepted := w.accepted ++ [i]
        woken := w.woken || decide (w.pc = .waiting)
        notifyList := w.notifyList ++ [cb]
        refused := w.refused ++ [cb] }
  | request {w id num dl} : Tr w (.request id num dl) { w with
        pendingSampling := w.pendingSampling ++ [some ⟨id, num, dl, []⟩]
        asked := w.asked ++ [⟨id, num, dl, []⟩]
        woken := w.woken || decide (w.pc = .waiting) }
  | sectionOk {w a op r} : a.op = some op → w.locked = false → (w.table.step op).2 = .ok r →
      Tr w a { w with
        table := (w.table.step op).1
        trace := w.trace ++ [op]
        signals := w.signals + 1 }
  | sectionErr {w a op e} : a.op = some op → w.locked = false → (w.table.step op).2 = .err e →
      Tr w a { w with
        table := (w.table.step op).1
        trace := w.trace ++ [op] }
  | sectionDied {w a op} : a.op = some op → w.locked = false → (w.table.step op).2 = .died →
      Tr w a { w with
        table := (w.table.step op).1
        trace := w.trace ++ [op]
        dead := true }
  | signal {w} : w.signals ≠ 0 → Tr w .signal { w with
        signals := w.signals - 1
        woken := w.woken || decide (w.pc = .waiting) }
  | stop {w} : Tr w .stop { w with
        stop := true
        woken := w.woken || decide (w.pc = .waiting) }
  | wake {w} : w.pc = .waiting → Tr w .wake { w with pc := .finish }
  | top {w now d} : w.pc = .top → Tr w (.work now d) { w with
        out := w.out ++ w.notify.map (Out.notify · w.insertStatus)
        notify := []
        again := false
        pc := .tryInsert }
  | insNone {w now d} : w.pc = .tryInsert → (w.inserts ≠ [] → w.table.limiter.canInsert 1 = false) →
      Tr w (.work now d) { w with pc := .trySample }
  | insOk {w now d i rest r} : w.pc = .tryInsert → w.inserts = i :: rest → w.table.limiter.canInsert 1 = true →
      (w.table.step (.workerInsert i now d)).2 = .ok r →
      Tr w (.work now d) { w with
        table := (w.table.step (.workerInsert i now d)).1
        inserts := rest
        trace := w.trace ++ [.workerInsert i now d]
        progress := true
        again := true
        pc := .trySample }
  | insErr {w now d i rest e} : w.pc = .tryInsert → w.inserts = i :: rest → w.table.limiter.canInsert 1 = true →
      (w.table.step (.workerInsert i now d)).2 = .err e →
      Tr w (.work now d) { w with
        table := (w.table.step (.workerInsert i now d)).1
        inserts := rest
        trace := w.trace ++ [.workerInsert i now d]
        pc := .exited }
  | insDied {w now d i rest} : w.pc = .tryInsert → w.inserts = i :: rest → w.table.limiter.canInsert 1 = true →
      (w.table.step (.workerInsert i now d)).2 = .died →
      Tr w (.work now d) { w with
        table := (w.table.step (.workerInsert i now d)).1
        inserts := rest
        trace := w.trace ++ [.workerInsert i now d]
        dead := true }
  | smpNone {w now d} : w.pc = .trySample → (∀ o ∈ w.sampling, o = none) →
      Tr w (.work now d) { w with
        sampling := []
        again := false
        pc := nextPc w.again }
  | smpBlocked {w now d nulls r rest} : w.pc = .trySample → w.sampling = nulls ++ some r :: rest →
      (∀ o ∈ nulls, o = none) → w.table.limiter.canSample 1 = false →
      Tr w (.work now d) { w with
        sampling := some r :: rest
        again := false
        pc := nextPc w.again }
  | smpFull {w now d nulls r rest l} : w.pc = .trySample → w.sampling = nulls ++ some r :: rest →
      (∀ o ∈ nulls, o = none) → w.table.limiter.canSample 1 = true →
      (w.table.step (.workerSample w.rateLimited d)).2 = .ok (.samples l) → (r.samples ++ l).length = r.want →
      Tr w (.work now d) { w with
        table := (w.table.step (.workerSample w.rateLimited d)).1
        trace := w.trace ++ [.workerSample w.rateLimited d]
        sampling := rest
        out := w.out ++ [Out.answer { r with samples := r.samples ++ l } none]
        progress := true
        again := false
        pc := .tryInsert }
  | smpMore {w now d nulls r rest l} : w.pc = .trySample → w.sampling = nulls ++ some r :: rest →
      (∀ o ∈ nulls, o = none) → w.table.limiter.canSample 1 = true →
      (w.table.step (.workerSample w.rateLimited d)).2 = .ok (.samples l) → (r.samples ++ l).length ≠ r.want →
      Tr w (.work now d) { w with
        table := (w.table.step (.workerSample w.rateLimited d)).1
        trace := w.trace ++ [.workerSample w.rateLimited d]
        sampling := some { r with samples := r.samples ++ l } :: rest
        progress := true
        again := true }
  | smpErr {w now d nulls r rest e} : w.pc = .trySample → w.sampling = nulls ++ some r :: rest →
      (∀ o ∈ nulls, o = none) → w.table.limiter.canSample 1 = true →
      (w.table.step (.workerSample w.rateLimited d)).2 = .err e →
      Tr w (.work now d) { w with
        table := (w.table.step (.workerSample w.rateLimited d)).1
        trace := w.trace ++ [.workerSample w.rateLimited d]
        sampling := some r :: rest
        progress := true
        again := true
        pc := .exited }
  | smpDied {w now d nulls r rest} : w.pc = .trySample → w.sampling = nulls ++ some r :: rest →
      (∀ o ∈ nulls, o = none) → w.table.limiter.canSample 1 = true →
      ((w.table.step (.workerSample w.rateLimited d)).2 = .died ∨
        ∃ x, (∀ l, x ≠ .samples l) ∧ (w.table.step (.workerSample w.rateLimited d)).2 = .ok x) →
      Tr w (.work now d) { w with
        table := (w.table.step (.workerSample w.rateLimited d)).1
        trace := w.trace ++ [.workerSample w.rateLimited d]
        sampling := some r :: rest
        progress := true
        again := true
        dead := true }
  | moreWork {w now d} : w.pc = .queues → (w.inserts = [] → w.pendingInserts = []) →
      (w.sampling = [] → w.pendingSampling = []) → w.progress = true →
      Tr w (.work now d) { w with
        progress := false
        pc := .top }
  | swapI {w now d} : w.pc = .queues → w.inserts = [] → w.pendingInserts ≠ [] →
      (w.sampling = [] → w.pendingSampling = []) →
      Tr w (.work now d) { w with
        inserts := w.pendingInserts
        pendingInserts := []
        notify := w.notifyList
        notifyList := w.notify
        progress := false
        pc := .top }
  | swapS {w now d} : w.pc = .queues → (w.inserts = [] → w.pendingInserts = []) → w.sampling = [] →
      w.pendingSampling ≠ [] →
      Tr w (.work now d) { w with
        sampling := w.pendingSampling
        pendingSampling := []
        rateLimited := false
        progress := false
        pc := .top }
  | swapB {w now d} : w.pc = .queues → w.inserts = [] → w.pendingInserts ≠ [] → w.sampling = [] →
      w.pendingSampling ≠ [] →
      Tr w (.work now d) { w with
        inserts := w.pendingInserts
        pendingInserts := []
        notify := w.notifyList
        notifyList := w.notify
        sampling := w.pendingSampling
        pendingSampling := []
        rateLimited := false
        progress := false
        pc := .top }
  | idleStop {w now d} : w.pc = .queues → (w.inserts = [] → w.pendingInserts = []) →
      (w.sampling = [] → w.pendingSampling = []) → w.progress = false →
      (looked w now).terminate = [] → (looked w now).notify = [] → w.stop = true →
      Tr w (.work now d) { looked w now with pc := .exited }
  | idleWait {w now d} : w.pc = .queues → (w.inserts = [] → w.pendingInserts = []) →
      (w.sampling = [] → w.pendingSampling = []) → w.progress = false →
      (looked w now).terminate = [] → (looked w now).notify = [] → w.stop = false →
      Tr w (.work now d) { looked w now with
        rateLimited := !(looked w now).sampling.isEmpty
        woken := false
        wakeAt := nextDeadline (looked w now).pendingSampling (nextDeadline (looked w now).sampling none)
        pc := .waiting }
  | idleFinish {w now d} : w.pc = .queues → (w.inserts = [] → w.pendingInserts = []) →
      (w.sampling = [] → w.pendingSampling = []) → w.progress = false →
      ((looked w now).terminate ≠ [] ∨ (looked w now).notify ≠ []) →
      Tr w (.work now d) { looked w now with pc := .finish }
  | finish {w now d} : w.pc = .finish → Tr w (.work now d) { w with
        out := w.out ++ w.terminate.map (Out.answer · w.samplingStatus)
        terminate := []
        pc := .top }

theorem dropWhile_none (l : List (Option Req)) :
    (l.dropWhile Option.isNone = [] ∧ ∀ o ∈ l, o = none) ∨
    ∃ nulls r rest, l.dropWhile Option.isNone = some r :: rest ∧ l = nulls ++ some r :: rest ∧ ∀ o ∈ nulls, o = none := by
  induction l with
  | nil => left; simp
  | cons o l ih =>
    cases o with
    | none =>
      rcases ih with ⟨h1, h2⟩ | ⟨nulls, r, rest, h1, h2, h3⟩
      · left; simp [List.dropWhile, h1]; exact h2
      · right
        refine ⟨none :: nulls, r, rest, by simp [List.dropWhile, h1], by simp [h2], ?_⟩
        intro o ho
        rcases List.mem_cons.mp ho with rfl | ho
        · rfl
        · exact h3 o ho
    | some r => right; exact ⟨[], r, l, by simp [List.dropWhile], by simp, by simp⟩

theorem endPass_eq (w : W) : endPass w = { w with
    again := false
    pc := nextPc w.again } := by
  cases w
  simp only [endPass, nextPc]
  split <;> simp_all

theorem tr_of_step {w w' : W} {a : Act} (h : step w a = some w') : w.dead = false ∧ Tr w a w' := by
  unfold step at h
  split at h
  · simp at h
  · rename_i hd
    refine ⟨by simpa using hd, ?_⟩
    have hsec : ∀ op, a.op = some op → tableSection w op = some w' → Tr w a w' := by
      intro op ho h
      unfold tableSection at h
      split at h
      · simp at h
      · rename_i hl
        have hl : w.locked = false := by simpa using hl
        simp only at h
        split at h
        · cases h; exact .sectionOk ho hl (by assumption)
        · cases h; exact .sectionErr ho hl (by assumption)
        · cases h; exact .sectionDied ho hl (by assumption)
    cases a with
    | insert i cb =>
      simp only [enqueueInsert, signalled, Option.some.injEq] at h
      by_cases hv : Table.itemValid i = true
      · rw [if_pos hv] at h
        by_cases hlt : w.pendingInserts.length + 1 < w.maxEnqueued
        · rw [if_pos hlt] at h
          cases h; exact .insertOk hv (by simpa using hlt)
        · rw [if_neg hlt] at h
          cases h; exact .insertFull hv (by simpa using hlt)
      · rw [if_neg hv] at h
        cases h; exact .insertBad (by simpa using hv)
    | request id num dl =>
      simp only [enqueueSample, signalled] at h
      cases h; exact .request
    | mutate us ds => exact hsec _ rfl h
    | reset => exact hsec _ rfl h
    | close => exact hsec _ rfl h
    | signal =>
      simp only [signalled] at h
      split at h
      · simp at h
      · cases h; exact .signal (by assumption)
    | stop => simp only [signalled] at h; cases h; exact .stop
    | wake =>
      simp only at h
      split at h
      · cases h; exact .wake (by assumption)
      · simp at h
    | work now d =>
      simp only [work] at h
      split at h
      · cases h; exact .top (by assumption)
      · rename_i hpc
        simp only [workInsert, Option.some.injEq] at h
        split at h
        · cases h; exact .insNone hpc (by simp_all)
        · rename_i i rest hi
          split at h
          · rename_i hc
            split at h
            · cases h; exact .insOk hpc hi hc (by assumption)
            · cases h; exact .insErr hpc hi hc (by assumption)
            · cases h; exact .insDied hpc hi hc (by assumption)
          · cases h; exact .insNone hpc (by simp_all)
      · rename_i hpc
        simp only [workSample, Option.some.injEq] at h
        rcases dropWhile_none w.sampling with ⟨h1, h2⟩ | ⟨nulls, r, rest, h1, h2, h3⟩
        · simp only [h1, endPass_eq] at h
          cases h; exact .smpNone hpc h2
        · simp only [h1, endPass_eq] at h
          split at h
          · rename_i hc
            split at h
            · rename_i l hl
              split at h
              · rename_i hlen
                cases h; exact .smpFull hpc h2 h3 hc hl hlen
              · rename_i hlen
                cases h; exact .smpMore hpc h2 h3 hc hl hlen
            · rename_i x hne hx
              cases h; refine .smpDied hpc h2 h3 hc (.inr ⟨_, ?_, hx⟩)
              intro l e; exact hne l e
            · cases h; exact .smpErr hpc h2 h3 hc (by assumption)
            · cases h; exact .smpDied hpc h2 h3 hc (.inl (by assumption))
          · cases h; exact .smpBlocked hpc h2 h3 (by simp_all)
      · rename_i hpc
        have hdone : ∀ now, collect (seeCancel w) now =
            if (looked w now).terminate = [] ∧ (looked w now).notify = [] then
              if w.stop then { looked w now with pc := .exited }
              else { looked w now with
                rateLimited := !(looked w now).sampling.isEmpty
                woken := false
                wakeAt := nextDeadline (looked w now).pendingSampling (nextDeadline (looked w now).sampling none)
                pc := .waiting }
            else { looked w now with pc := .finish } := by
          intro now
          by_cases hc : w.table.limiter.cancelled = true
          · simp only [collect, seeCancel, looked, hc, if_true, true_and, Bool.or_true]
          · have hc : w.table.limiter.cancelled = false := by simpa using hc
            simp only [collect, seeCancel, looked, hc, if_false, false_and, Bool.or_false, Bool.false_eq_true]
        simp only [workQueues, Option.some.injEq] at h
        by_cases hi : w.inserts = [] ∧ w.pendingInserts ≠ []
        · by_cases hs : w.sampling = [] ∧ w.pendingSampling ≠ []
          · simp only [swapInserts, swapSampling, hi, hs, and_self, if_true, not_false_eq_true, ne_eq] at h
            cases h; exact .swapB hpc hi.1 hi.2 hs.1 hs.2
          · simp only [swapInserts, swapSampling, hi, and_self, hs, if_true, not_false_eq_true, ne_eq] at h
            cases h; exact .swapI hpc hi.1 hi.2 (fun e => Classical.byContradiction fun e' => hs ⟨e, e'⟩)
        · have hi' : w.inserts = [] → w.pendingInserts = [] :=
            fun e => Classical.byContradiction fun e' => hi ⟨e, e'⟩
          have e1 : swapInserts w = w := by simp only [swapInserts, hi, if_false]
          rw [e1] at h
          by_cases hs : w.sampling = [] ∧ w.pendingSampling ≠ []
          · simp only [swapSampling, hs, and_self, if_true, not_false_eq_true, ne_eq] at h
            cases h; exact .swapS hpc hi' hs.1 hs.2
          · have hs' : w.sampling = [] → w.pendingSampling = [] :=
              fun e => Classical.byContradiction fun e' => hs ⟨e, e'⟩
            have e2 : swapSampling w = w := by simp only [swapSampling, hs, if_false]
            rw [e2] at h
            by_cases hp : w.progress = true
            · rw [if_pos hp] at h
              cases h; exact .moreWork hpc hi' hs' hp
            · rw [if_neg hp, hdone] at h
              have hp : w.progress = false := by simpa using hp
              split at h
              · rename_i hq
                split at h
                · cases h; exact .idleStop hpc hi' hs' hp hq.1 hq.2 (by assumption)
                · cases h; exact .idleWait hpc hi' hs' hp hq.1 hq.2 (by simp_all)
              · rename_i hq
                cases h
                refine .idleFinish hpc hi' hs' hp ?_
                by_cases ht : (looked w now).terminate = []
                · exact .inr fun e => hq ⟨ht, e⟩
                · exact .inl ht
      · cases h; exact .finish (by assumption)
      · simp at h
      · simp at h

end Worker
end Verif
