import Verif.Proofs.WorkerLive
/-
The worker on its own gets to waiting after finitely many steps.
-/
namespace Verif.Worker
open Table (Op)

/-- What is left to do for a request. -/
def Req.left (r : Req) : Nat := r.want - r.samples.length + 1

/-- What is left to do for the requests that the worker has taken over. -/
def leftNow : List (Option Req) → Nat
  | [] => 0
  | none :: l => leftNow l
  | some r :: l => r.left + leftNow l

/-- What is left to do for the requests that it has not. -/
def leftLater : List (Option Req) → Nat
  | [] => 0
  | none :: l => 1 + leftLater l
  | some r :: l => r.left + 1 + leftLater l

/-- Work left, without the steps that only lead from one piece of work to the next. -/
def W.work (w : W) : Nat :=
  w.inserts.length + 2 * w.pendingInserts.length + leftNow w.sampling + leftLater w.pendingSampling + w.notifyList.length

/-- Steps until the worker does a piece of work or waits. -/
def W.rank (w : W) : Nat :=
  match w.pc with
  | .waiting => 0
  | .exited => 0
  | .queues => if w.progress then 5 else 1
  | .trySample => (if w.progress then 6 else 2) + (if w.again then 2 else 0)
  | .tryInsert => (if w.progress then 7 else 3) + (if w.again then 2 else 0)
  | .top => if w.progress then 8 else 4
  | .finish => if w.progress then 9 else 5

theorem rank_lt (w : W) : w.rank < 16 := by
  unfold W.rank
  repeat' split
  all_goals omega

def W.measure (w : W) : Nat := 16 * w.work + w.rank

theorem leftNow_nulls {l : List (Option Req)} (h : ∀ o ∈ l, o = none) (l' : List (Option Req)) :
    leftNow (l ++ l') = leftNow l' := by
  induction l with
  | nil => rfl
  | cons o l ih =>
    rw [h o (by simp)]
    exact ih fun x hx => h x (List.mem_cons_of_mem _ hx)

theorem leftNow_later (l : List (Option Req)) : leftNow l + l.length = leftLater l := by
  induction l with
  | nil => rfl
  | cons o l ih => cases o <;> simp only [leftNow, leftLater, List.length_cons] <;> omega

theorem leftNow_keep (p : Req → Bool) (l : List (Option Req)) :
    leftNow (keepUnexpired p l) + (takeExpired p l).length ≤ leftNow l := by
  induction l with
  | nil => simp [keepUnexpired, leftNow, takeExpired]
  | cons o l ih =>
    have e : keepUnexpired p (o :: l) = (o.bind fun r => if p r then none else some r) :: keepUnexpired p l := rfl
    rw [takeExpired_eq] at ih ⊢
    cases o with
    | none => rw [e]; simpa [leftNow] using ih
    | some r =>
      rw [e]
      by_cases hp : p r = true
      · simp only [Option.bind_some, hp, if_true, leftNow, live_some, List.filter_cons, List.length_cons]
        simp only [Req.left]; omega
      · simp only [Option.bind_some, hp, if_false, leftNow, live_some, List.filter_cons, Bool.false_eq_true]
        omega

theorem keep_length (p : Req → Bool) (l : List (Option Req)) : (keepUnexpired p l).length = l.length := by
  simp [keepUnexpired]

theorem leftLater_keep (p : Req → Bool) (l : List (Option Req)) :
    leftLater (keepUnexpired p l) + (takeExpired p l).length ≤ leftLater l := by
  have := leftNow_keep p l
  have := leftNow_later l
  have := leftNow_later (keepUnexpired p l)
  have := keep_length p l
  omega

/-- Every step of the worker brings it closer to waiting. -/
theorem measure_work {c : Config} {w w' : W} {now : Int} {d : Draw} (hf : Fine c w) (hq : Seq c.init w) (hsv : Served w)
    (hca : Calls w) (hs : step w (.work now d) = some w') : w'.measure < w.measure := by
  obtain ⟨hd, ht⟩ := tr_of_step hs
  have hre := hf.reachable hq
  have big : ∀ {w' : W}, w'.work < w.work → w'.measure < w.measure := by
    intro w' h
    have := rank_lt w'
    unfold W.measure
    omega
  have small : ∀ {w' : W}, w'.work ≤ w.work → w'.rank < w.rank → w'.measure < w.measure := by
    intro w' h h'
    unfold W.measure
    omega
  have hlk : ∀ (w' : W), w'.inserts = (looked w now).inserts → w'.pendingInserts = w.pendingInserts →
      w'.sampling = (looked w now).sampling → w'.pendingSampling = (looked w now).pendingSampling →
      w'.notifyList = (looked w now).notifyList → w.pc = .queues →
      w'.work + (looked w now).terminate.length + (looked w now).notify.length ≤ w.work := by
    intro w' e1 e2 e3 e4 e5 hpc
    have hn := hca.none (by simp [hpc]) (by simp [hpc])
    have ht : w.terminate = [] := Classical.byContradiction fun e => by have := hsv.term e; simp [hpc] at this
    simp only [W.work, e1, e2, e3, e4, e5, looked, ht, hn]
    have := leftNow_keep (expired w.table.limiter.cancelled now) w.sampling
    have := leftLater_keep (expired w.table.limiter.cancelled now) w.pendingSampling
    generalize expired w.table.limiter.cancelled now = p at *
    cases w.table.limiter.cancelled <;> simp only [List.length_append, List.length_nil, and_self, and_true, if_true, if_false, Bool.false_eq_true, List.nil_append, Bool.true_eq_false] <;> omega
  cases ht
  case sectionOk ho => simp [Act.op] at ho
  case sectionErr ho => simp [Act.op] at ho
  case sectionDied ho => simp [Act.op] at ho
  case top hpc =>
    refine small (Nat.le_refl _) ?_
    simp only [W.rank, hpc]
    split <;> simp
  case insNone hpc _ =>
    refine small (Nat.le_refl _) ?_
    simp only [W.rank, hpc]
    repeat' split
    all_goals omega
  case insOk i rest r hpc hi hc e => exact big (by simp [W.work, hi])
  case insErr i rest r hpc hi hc e => exact big (by simp [W.work, hi])
  case insDied i rest hpc hi hc e => exact big (by simp [W.work, hi])
  case smpNone hpc hn =>
    have e := leftNow_nulls hn []
    simp only [List.append_nil] at e
    refine small (by simp [W.work, e]) ?_
    simp only [W.rank, hpc, nextPc]
    cases w.again <;> cases w.progress <;> simp
  case smpBlocked nulls r rest hpc he hn hc =>
    refine small (by simp [W.work, he, leftNow_nulls hn]) ?_
    simp only [W.rank, hpc, nextPc]
    cases w.again <;> cases w.progress <;> simp
  case smpFull nulls r rest l hpc he hn hc hl hlen =>
    refine big ?_
    simp only [W.work, he, leftNow_nulls hn, leftNow, Req.left]
    omega
  case smpMore nulls r rest l hpc he hn hc hlen hl =>
    refine big ?_
    have hsh := hsv.short r (.inr (.inl (by rw [he]; simp)))
    obtain ⟨s, rfl⟩ := workerSample_one hl
    simp only [W.work, he, leftNow_nulls hn, leftNow, Req.left, want_append, List.length_append, List.length_singleton]
    omega
  case smpErr nulls r rest e hpc he hn hc hl =>
    obtain ⟨s, hs'⟩ := workerSample_ok hre w.rateLimited d hc
    rw [hs'] at hl; cases hl
  case smpDied nulls r rest hpc he hn hc e =>
    obtain ⟨s, hs'⟩ := workerSample_ok hre w.rateLimited d hc
    rw [hs'] at e
    rcases e with e | ⟨x, hx, e⟩
    · cases e
    · cases e; exact absurd rfl (hx _)
  case moreWork hpc _ _ hp =>
    refine small (Nat.le_refl _) ?_
    simp [W.rank, hpc, hp]
  case swapI hpc hi hp hsm =>
    refine big ?_
    have hn := hca.none (by simp [hpc]) (by simp [hpc])
    have : 0 < w.pendingInserts.length := List.length_pos_iff.mpr hp
    simp only [W.work, hi, hn, List.length_nil]
    omega
  case swapS hpc hi hsm hp =>
    refine big ?_
    have : 0 < w.pendingSampling.length := List.length_pos_iff.mpr hp
    have := leftNow_later w.pendingSampling
    simp only [W.work, hsm, leftNow, leftLater]
    omega
  case swapB hpc hi hp hsm hp' =>
    refine big ?_
    have hn := hca.none (by simp [hpc]) (by simp [hpc])
    have : 0 < w.pendingSampling.length := List.length_pos_iff.mpr hp'
    have := leftNow_later w.pendingSampling
    simp only [W.work, hsm, hi, hn, leftNow, leftLater, List.length_nil]
    omega
  case idleStop hpc _ _ hp _ _ _ =>
    refine small ?_ (by simp [W.rank, hpc, hp])
    have := hlk { looked w now with pc := .exited } rfl rfl rfl rfl rfl hpc
    omega
  case idleWait hpc _ _ hp _ _ _ =>
    refine small ?_ (by simp [W.rank, hpc, hp])
    exact Nat.le_trans (by omega) (hlk { looked w now with
        rateLimited := !(looked w now).sampling.isEmpty
        woken := false
        wakeAt := nextDeadline (looked w now).pendingSampling (nextDeadline (looked w now).sampling none)
        pc := .waiting } rfl rfl rfl rfl rfl hpc)
  case idleFinish hpc _ _ hp hne =>
    refine big ?_
    have := hlk { looked w now with pc := .finish } rfl rfl rfl rfl rfl hpc
    have : 0 < (looked w now).terminate.length + (looked w now).notify.length := by
      rcases hne with h | h
      · have := List.length_pos_iff.mpr h; omega
      · have := List.length_pos_iff.mpr h; omega
    omega
  case finish hpc =>
    refine small (Nat.le_refl _) ?_
    simp only [W.rank, hpc]
    split <;> simp

/-- A worker that neither waits nor is gone can go on. -/
theorem work_enabled {w : W} (now : Int) (d : Draw) (hd : w.dead = false) (h1 : w.pc ≠ .waiting) (h2 : w.pc ≠ .exited) :
    ∃ w', step w (.work now d) = some w' := by
  simp only [step, hd, Bool.false_eq_true, if_false, work]
  split <;> simp_all

/-- All invariants that hold with admitted priorities. -/
structure Sound (c : Config) (w : W) : Prop where
  fine : Fine c w
  seq : Seq c.init w
  order : Order w
  calls : Calls w
  served : Served w
  waits : Waits w

theorem Sound.step {c : Config} {w w' : W} {a : Act} (h : Sound c w) (ha : a.Ok c) (hs : Worker.step w a = some w') :
    Sound c w' :=
  ⟨h.fine.step h.seq ha hs, h.seq.step hs, h.order.step hs, h.calls.step hs, h.served.step hs, h.waits.step h.calls hs⟩

theorem Sound.init (c : Config) : Sound c (init c.init) :=
  ⟨.init c, .init rfl, .init _, .init _, .init _, .init _⟩

theorem Sound.run {c : Config} {as : List Act} {w : W} (ha : ∀ a ∈ as, a.Ok c) (hr : run (Worker.init c.init) as = some w) :
    Sound c w :=
  run_inv (Sound c) (Act.Ok c) (Sound.init c) (fun _ _ _ h ha hs => h.step ha hs) ha hr

theorem Sound.settles {c : Config} : ∀ (n : Nat) (w : W), Sound c w → w.measure ≤ n → ∀ clock : Nat → Int × Draw,
    ∃ k w', Worker.run w ((List.range k).map fun i => .work (clock i).1 (clock i).2) = some w' ∧
      (w'.pc = .waiting ∨ w'.pc = .exited) := by
  intro n
  induction n with
  | zero =>
    intro w h hm clock
    by_cases hw : w.pc = .waiting ∨ w.pc = .exited
    · exact ⟨0, w, rfl, hw⟩
    · have hw' := not_or.mp hw
      obtain ⟨w', hs⟩ := work_enabled (clock 0).1 (clock 0).2 h.fine.alive hw'.1 hw'.2
      have := measure_work h.fine h.seq h.served h.calls hs
      omega
  | succ n ih =>
    intro w h hm clock
    by_cases hw : w.pc = .waiting ∨ w.pc = .exited
    · exact ⟨0, w, rfl, hw⟩
    · have hw' := not_or.mp hw
      obtain ⟨w', hs⟩ := work_enabled (clock 0).1 (clock 0).2 h.fine.alive hw'.1 hw'.2
      have := measure_work h.fine h.seq h.served h.calls hs
      obtain ⟨k, w2, hr, hp⟩ := ih w' (h.step (a := .work (clock 0).1 (clock 0).2) trivial hs) (by omega) (fun i => clock (i + 1))
      refine ⟨k + 1, w2, ?_, hp⟩
      rw [List.range_succ_eq_map]
      simp only [List.map_cons, List.map_map, Worker.run, hs]
      exact hr

end Verif.Worker
