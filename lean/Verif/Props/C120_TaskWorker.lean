import Verif.Proofs.TaskWorkerCheck
import Verif.Props.C59_Executor
/-
C120: `TaskWorker`, the thread pool with statistics and a deadlock checker.
-/
namespace Verif.TaskWorker

/-- C120: whatever the number of threads and however they are scheduled, tasks are taken in the order in which they were scheduled, each once,
and only those scheduled before `Close`; each callback is called at most once, and when `Close` has returned the callback of every one of them
has been called exactly once. -/
theorem C120_once {n : Nat} {max : Int} {as : List Act} {w : W} (h : run (init n max) as = some w) :
    (∃ rest, accepted as = w.pool.started ++ rest) ∧ (∃ rest, (called w ++ rest).Perm (accepted as)) ∧
      (w.pool.closer = .closed → (called w).Perm (accepted as)) := by
  have hj := J.run h
  obtain ⟨rest, hrest⟩ := C59_order hj.pool
  rw [accepted_under] at hrest
  refine ⟨⟨rest, hrest⟩, ⟨w.stage.flatMap Stage.waiting ++ rest, ?_⟩, fun hc => ?_⟩
  · rw [hrest, ← List.append_assoc]
    exact hj.calls.append_right _
  · have hst := (C59_close hj.pool hc).1
    rw [accepted_under] at hst
    have hi := Executor.inv_run _ _ hj.pool
    have hw := hi.joined hc
    have : w.stage.flatMap Stage.waiting = [] := by
      rw [List.flatMap_eq_nil_iff]
      intro st hm
      obtain ⟨i, hi'⟩ := List.mem_iff_getElem?.mp hm
      obtain ⟨wk, g1, g2⟩ := hj.agree i st hi'
      have := hw wk (List.mem_of_getElem? g1)
      subst this
      cases st <;> simp_all [Agree, Stage.waiting]
    have hp := hj.calls
    rw [this, List.append_nil, hst] at hp
    exact hp

/-- C120, the part that holds of "pending tasks will run with a cancelled status": a callback called by `Close` gets `Cancelled` and no room in
the queue, one called by a thread gets OK. Missing: that a task pending when `Close` is called is cancelled, see `C120_cancel_is_false`. -/
theorem C120_status_partial {n : Nat} {max : Int} {as : List Act} {w : W} (h : run (init n max) as = some w) (c : Call) (hc : c ∈ w.log) :
    (c.ok = false ↔ c.thread = none) ∧ (c.thread = none → c.room = false) := by
  obtain ⟨h1, h2⟩ := (J.run h).status c hc
  refine ⟨⟨fun ho => ?_, fun hn => (h2 hn).1⟩, fun hn => (h2 hn).2⟩
  cases ht : c.thread with
  | none => rfl
  | some i =>
    rw [h1 (by simp [ht])] at ho
    cases ho

/-- C120: until `Close` is called no callback is called with `Cancelled`. -/
theorem C120_cancelled_after_close {n : Nat} {max : Int} {as : List Act} {w : W} (h : run (init n max) as = some w) (c : Call) (hc : c ∈ w.log)
    (ho : c.ok = false) : Act.close ∈ as := by
  have : (∀ c ∈ w.log, c.ok = false → Act.close ∈ as) ∧ (w.pool.closer ≠ .open_ → Act.close ∈ as) := by
    refine run_induction (P := fun as w => (∀ c ∈ w.log, c.ok = false → Act.close ∈ as) ∧ (w.pool.closer ≠ .open_ → Act.close ∈ as))
      ⟨nofun, by simp [init, Executor.init]⟩ ?_ h
    intro as w a w' _ ih hs
    cases a with
    | close => exact ⟨fun _ _ _ => by simp, fun _ => by simp⟩
    | closePop =>
      simp only [step] at hs
      split at hs
      · cases hs
      · rw [Option.map_eq_some_iff] at hs
        obtain ⟨p, hp, rfl⟩ := hs
        have hne : w.pool.closer ≠ .open_ := by
          intro e
          simp [Executor.step, e] at hp
        have := ih.2 hne
        exact ⟨fun _ _ _ => by simp [this], fun _ => by simp [this]⟩
    | call i =>
      simp only [step] at hs
      split at hs <;> cases hs
      refine ⟨fun c hc ho => ?_, fun hn => by simpa using ih.2 hn⟩
      rcases List.mem_append.mp hc with g | g
      · simpa using ih.1 c g ho
      · simp only [List.mem_singleton] at g
        subst g
        cases ho
    | begin_ i now | ret i | check =>
      simp only [step] at hs
      split at hs <;> cases hs
      exact ⟨fun c hc ho => by simpa using ih.1 c hc ho, fun hn => by simpa using ih.2 hn⟩
    | count i =>
      simp only [step] at hs
      split at hs
      · rw [Option.map_eq_some_iff] at hs
        obtain ⟨p, hp, rfl⟩ := hs
        simp only [Executor.step] at hp
        split at hp <;> cases hp
        exact ⟨fun c hc ho => by simpa using ih.1 c hc ho, fun hn => by simpa using ih.2 hn⟩
      · cases hs
    | read =>
      simp only [step] at hs
      split at hs
      · split at hs <;> cases hs
        exact ⟨fun c hc ho => by simpa using ih.1 c hc ho, fun hn => by simpa using ih.2 hn⟩
      · cases hs
    | judge now =>
      simp only [step] at hs
      split at hs
      · split at hs
        · cases hs
        · split at hs <;> cases hs <;> exact ⟨fun c hc ho => by simpa using ih.1 c hc ho, fun hn => by simpa using ih.2 hn⟩
      · cases hs
    | schedule t =>
      simp only [step] at hs
      split at hs
      · cases hs
      · rw [Option.map_eq_some_iff] at hs
        obtain ⟨p, hp, rfl⟩ := hs
        simp only [Executor.step, Option.some.injEq] at hp
        subst hp
        exact ⟨fun c hc ho => by simpa using ih.1 c hc ho, fun hn => by simpa using ih.2 hn⟩
    | pop i =>
      simp only [step] at hs
      split at hs
      · cases hs
      · rw [Option.map_eq_some_iff] at hs
        obtain ⟨p, hp, rfl⟩ := hs
        simp only [Executor.step] at hp
        split at hp <;> cases hp <;> exact ⟨fun c hc ho => by simpa using ih.1 c hc ho, fun hn => by simpa using ih.2 hn⟩
    | closeRet =>
      simp only [step] at hs
      split at hs
      · cases hs
      · rw [Option.map_eq_some_iff] at hs
        obtain ⟨p, hp, rfl⟩ := hs
        simp only [Executor.step] at hp
        split at hp <;> cases hp
        rename_i t hcl
        have := ih.2 (by rw [hcl]; nofun)
        exact ⟨fun _ _ _ => by simp [this], fun _ => by simp [this]⟩
    | join =>
      simp only [step] at hs
      split at hs
      · cases hs
      · rw [Option.map_eq_some_iff] at hs
        obtain ⟨p, hp, rfl⟩ := hs
        simp only [Executor.step] at hp
        split at hp <;> cases hp
        rename_i hcl
        have := ih.2 (by rw [hcl.1]; nofun)
        exact ⟨fun _ _ _ => by simp [this], fun _ => by simp [this]⟩
  exact this.1 c hc ho

/-- How many tasks wait, whatever the limit. -/
theorem size_pending {n : Nat} {max : Int} {as : List Act} {w : W} (h : run (init n max) as = some w) : w.pool.queue.size = pending as w := by
  have hj := J.run h
  have hi := Executor.inv_run _ _ hj.pool
  have hf := hi.fifo
  rw [accepted_under] at hf
  unfold pending
  rw [hi.size, hf]
  simp

/-- C120: `Schedule` returns whether the number of tasks that wait, this one included, is at most the limit; a negative limit lets any number
below 2^63 wait. The same is what a thread passes to the callback. -/
theorem C120_room {n : Nat} {max : Int} {as : List Act} {w w' : W} (h : run (init n max) as = some w) :
    (∀ t, step w (.schedule t) = some w' → ∃ b, w'.replies = w.replies ++ [(pending (as ++ [.schedule t]) w', b)] ∧
      (0 ≤ max → max < 2 ^ 64 → (b = true ↔ (pending (as ++ [.schedule t]) w' : Int) ≤ max)) ∧
      (max < 0 → -2 ^ 63 ≤ max → pending (as ++ [.schedule t]) w' < 2 ^ 63 → b = true)) ∧
    (∀ i, step w (.call i) = some w' → ∃ t b, w'.log = w.log ++ [⟨some i, t, true, b⟩] ∧
      (0 ≤ max → max < 2 ^ 64 → (b = true ↔ (pending as w : Int) ≤ max)) ∧ (max < 0 → -2 ^ 63 ≤ max → pending as w < 2 ^ 63 → b = true)) := by
  have hm := (Times.run h).limit
  constructor
  · intro t hs
    have h' : run (init n max) (as ++ [.schedule t]) = some w' := by rw [run_append, h]; simp [run, hs]
    have hp := size_pending h'
    simp only [step] at hs
    split at hs
    · cases hs
    · rw [Option.map_eq_some_iff] at hs
      obtain ⟨p, hp', rfl⟩ := hs
      rw [← hp]
      refine ⟨_, rfl, ?_, ?_⟩
      · intro h0 h1
        simp only [W.roomLeft, decide_eq_true_eq, hm]
        omega
      · intro h0 h1 h2
        simp only [W.roomLeft, decide_eq_true_eq, hm]
        simp only at h2
        omega
  · intro i hs
    have hp := size_pending h
    simp only [step] at hs
    split at hs
    · rename_i t hd hst
      cases hs
      rw [← hp]
      refine ⟨t, _, rfl, ?_, ?_⟩
      · intro h0 h1
        simp only [W.roomLeft, decide_eq_true_eq, hm]
        omega
      · intro h0 h1 h2
        simp only [W.roomLeft, decide_eq_true_eq, hm]
        omega
    · cases hs

/-- C120: `GetThreadStats`. Of every thread the statistics tell how many tasks it has begun and when it began with the last one, how many
callbacks it has called, whether it is working on a task, and on which one. -/
theorem C120_stats {n : Nat} {max : Int} {as : List Act} {w : W} (h : run (init n max) as = some w) (i : Nat) (hi : i < n) :
    ∃ s, w.stats[i]? = some s ∧ s.current + 1 = begins i as ∧ s.started = begunAt i as ∧ (s.busy ↔ ∃ t, WorksOn w i t) ∧
      (∀ t, WorksOn w i t → s.info = some t) ∧ s.processed ≤ callsOf w i ∧ callsOf w i ≤ s.processed + 1 ∧
      ((∀ t, ¬ WorksOn w i t) → callsOf w i = s.processed ∧ s.processed = begins i as) := by
  have hj := J.run h
  have hlt : i < w.stats.length := by rw [hj.stats]; exact hi
  have hlt' : i < w.stage.length := by rw [hj.stages]; exact hi
  have ht := hj.tells i _ _ (List.getElem?_eq_getElem hlt') (List.getElem?_eq_getElem hlt)
  obtain ⟨h1, h2⟩ := (Times.run h).begun i _ (List.getElem?_eq_getElem hlt)
  refine ⟨w.stats[i], List.getElem?_eq_getElem hlt, h1, h2, ?_⟩
  unfold Stats.busy WorksOn
  rw [List.getElem?_eq_getElem hlt']
  generalize w.stage[i] = st at ht
  generalize w.stats[i] = s at ht h1
  cases st with
  | out =>
    obtain ⟨g1, g2⟩ := ht
    refine ⟨⟨fun e => by omega, by simp⟩, by simp, by omega, by omega, fun _ => ⟨g2, by omega⟩⟩
  | popped t =>
    obtain ⟨g1, g2⟩ := ht
    refine ⟨⟨fun e => by omega, by simp⟩, by simp, by omega, by omega, fun _ => ⟨g2, by omega⟩⟩
  | starting t =>
    obtain ⟨g1, g2, g3⟩ := ht
    refine ⟨⟨fun _ => ⟨t, by simp⟩, fun _ => g1⟩, by simpa using g3, by omega, by omega, fun hn => absurd (by simp) (hn t)⟩
  | running t =>
    obtain ⟨g1, g2, g3⟩ := ht
    refine ⟨⟨fun _ => ⟨t, by simp⟩, fun _ => g1⟩, by simpa using g3, by omega, by omega, fun hn => absurd (by simp) (hn t)⟩
  | ended t =>
    obtain ⟨g1, g2, g3⟩ := ht
    refine ⟨⟨fun _ => ⟨t, by simp⟩, fun _ => g1⟩, by simpa using g3, by omega, by omega, fun hn => absurd (by simp) (hn t)⟩

/-- C120: the deadlock checker warns of nothing else: if it warns at time `now`, then for every thread there was a moment at which the checker
read its statistics and at which the thread was working on a task that it had begun with at least 60 seconds before `now`. Missing: that all
threads were blocked at the same time, see `C120_warning_is_false`. -/
theorem C120_warning_partial {n : Nat} {max : Int} {as : List Act} {w : W} (h : run (init n max) as = some w) {snap : List Stats} {now : Int}
    (hw : (snap, now) ∈ w.warnings) : snap.length = n ∧ ∀ i < n, ∃ pre post w1 t, as = pre ++ post ∧ run (init n max) pre = some w1 ∧
      WorksOn w1 i t ∧ w1.stats[i]? = snap[i]? ∧ timeToWarn ≤ now - begunAt i pre := by
  obtain ⟨h1, h2⟩ := (K.run h).warned _ hw
  refine ⟨h1, fun i hi => ?_⟩
  have hlt : i < snap.length := by simp only at h1; omega
  obtain ⟨⟨pre, post, w1, h3, h4, h5⟩, h6, h7⟩ := h2 i _ (List.getElem?_eq_getElem hlt)
  obtain ⟨s, g1, g2, g3, g4, _⟩ := C120_stats h4 i hi
  rw [h5] at g1
  cases g1
  have hb : (snap[i]).busy := by
    have ht := (J.run h4).stages
    have hlt' : i < w1.stage.length := by rw [ht]; exact hi
    have hts := (J.run h4).tells i _ _ (List.getElem?_eq_getElem hlt') h5
    unfold Stats.busy
    unfold Stats.free at h6
    revert hts
    cases w1.stage[i] <;> simp only [Tells] <;> intro hts <;> omega
  obtain ⟨t, ht⟩ := g4.mp hb
  exact ⟨pre, post, w1, t, h3, h4, ht, by rw [h5, List.getElem?_eq_getElem hlt], by rw [← g3]; exact h7⟩

/-- C120: and it misses nothing: what it has read of the threads decides. If the statistics it has read are busy for all threads, with tasks
begun with at least 60 seconds ago, it warns; if one is free or has begun later, it does not. -/
theorem C120_decides {n : Nat} {max : Int} {as : List Act} {w w' : W} {now : Int} (h : run (init n max) as = some w) (hn : 0 < n)
    (hs : step w (.judge now) = some w') : ∃ snap, w.checker = some snap ∧ snap.length = n ∧
      ((∀ s ∈ snap, s.busy ∧ timeToWarn ≤ now - s.started) → w'.warnings = w.warnings ++ [(snap, now)]) ∧
      ((∃ s ∈ snap, ¬ s.busy ∨ now - s.started < timeToWarn) → w'.warnings = w.warnings) := by
  have hj := J.run h
  have hk := K.run h
  simp only [step] at hs
  split at hs
  · rename_i got hd hc
    split at hs
    · cases hs
    · have hlen : got.length = n := by
        have := (hk.got got hc).1
        have := hj.stats
        omega
      have hne : got ≠ [] := by
        rintro rfl
        simp at hlen
        omega
      -- what is read of a thread is one of two things
      have hfree : ∀ s ∈ got, s.free ↔ ¬ s.busy := by
        intro s hm
        obtain ⟨i, hi⟩ := List.mem_iff_getElem?.mp hm
        obtain ⟨pre, post, w1, h3, h4, h5⟩ := (hk.got got hc).2 i s hi
        have hlt : i < w1.stats.length := (List.getElem?_eq_some_iff.mp h5).1
        rw [(J.run h4).stats, ← (J.run h4).stages] at hlt
        have hts := (J.run h4).tells i _ _ (List.getElem?_eq_getElem hlt) h5
        unfold Stats.free Stats.busy
        revert hts
        cases w1.stage[i] <;> simp only [Tells] <;> intro hts <;> omega
      obtain ⟨b, hb, hiff⟩ := judge_iff (now := now) hne
      rw [hb] at hs
      simp only [Option.some.injEq] at hs
      subst hs
      refine ⟨got, hc, hlen, fun hall => ?_, fun hex => ?_⟩
      · have : b = true := hiff.mpr fun s hm => ⟨fun hf => (hfree s hm).mp hf (hall s hm).1, (hall s hm).2⟩
        simp [this]
      · have : b ≠ true := by
          intro hb'
          obtain ⟨s, hm, hor⟩ := hex
          obtain ⟨g1, g2⟩ := hiff.mp hb' s hm
          rcases hor with g | g
          · exact g1 ((hfree s hm).mpr g)
          · omega
        simp [this]
  · cases hs

/-- C120: a deadlock is noticed: if every thread is working on a task, and none begins or ends one from before a round of the checker to its
end, then the checker warns, provided the tasks were begun with at least 60 seconds before. -/
theorem C120_noticed {n : Nat} {max : Int} {as bs : List Act} {w w' : W} {now : Int} (h : run (init n max) as = some w) (hn : 0 < n)
    (hw : ∀ i < n, ∃ t, WorksOn w i t) (hb : bs.all Act.stuck = true) (hr : run w (.check :: bs ++ [.judge now]) = some w')
    (ht : ∀ i < n, timeToWarn ≤ now - begunAt i as) : w'.warnings.getLast? = some (w.stats, now) := by
  simp only [List.cons_append, run] at hr
  cases hc : step w .check with
  | none => rw [hc] at hr; cases hr
  | some w1 =>
    rw [hc] at hr
    simp only at hr
    have hc' := hc
    simp only [step] at hc
    split at hc <;> cases hc
    rw [run_append] at hr
    cases hbs : run { w with checker := some [] } bs with
    | none => rw [hbs] at hr; cases hr
    | some w2 =>
      rw [hbs] at hr
      simp only [Option.bind_some, run] at hr
      obtain ⟨h1, got, k, h2, h3⟩ := stuck_run hb hbs ⟨[], 0, rfl, by simp⟩
      simp only at h1 h3
      cases hj : step w2 (.judge now) with
      | none => rw [hj] at hr; cases hr
      | some w3 =>
        rw [hj] at hr
        cases hr
        have h2' : run (init n max) (as ++ (.check :: bs)) = some w2 := by
          rw [run_append, h]
          simp only [Option.bind_some, run, hc']
          exact hbs
        obtain ⟨snap, d1, d2, d3, _⟩ := C120_decides h2' hn hj
        rw [h2] at d1
        cases d1
        have hlen := (J.run h).stats
        have hg : w.stats.take k = w.stats := by
          apply List.take_of_length_le
          rw [h3, List.length_take] at d2
          omega
        rw [hg] at h3
        subst h3
        rw [d3]
        · simp
        · intro s hs
          obtain ⟨i, hi⟩ := List.mem_iff_getElem?.mp hs
          have hlt : i < n := by rw [← hlen]; exact (List.getElem?_eq_some_iff.mp hi).1
          obtain ⟨s', g1, _, g3, g4, _⟩ := C120_stats h i hlt
          rw [hi] at g1
          cases g1
          exact ⟨g4.mpr (hw i hlt), by rw [g3]; exact ht i hlt⟩

/-- C120: with at least one thread nothing undefined happens. -/
theorem C120_alive {n : Nat} {max : Int} {as : List Act} {w : W} (h : run (init n max) as = some w) (hn : 0 < n) : w.dead = false := by
  cases hd : w.dead with
  | false => rfl
  | true =>
    have := (K.run h).alive hd
    omega

theorem close_mem (as : List Act) : Executor.closeCalled (as.flatMap Act.under) = true ↔ Act.close ∈ as := by
  induction as with
  | nil => simp [Executor.closeCalled]
  | cons a as ih =>
    cases a <;> simp_all [Act.under, Executor.closeCalled, Executor.Act.isClose]

/-- C120: `Close` does not get stuck: until it has returned, a callback is being run or one of the threads, the checker or `Close` can go on. -/
theorem C120_progress {n : Nat} {max : Int} {as : List Act} {w : W} (h : run (init n max) as = some w) (hn : 0 < n) (hc : Act.close ∈ as) :
    w.pool.closer = .closed ∨ InCallback w ∨ ∃ a w', a.outside = false ∧ step w a = some w' := by
  have hj := J.run h
  have hd := C120_alive h hn
  cases hck : w.checker with
  | some got =>
    refine .inr (.inr ?_)
    by_cases hl : got.length < w.stats.length
    · exact ⟨.read, { w with checker := some (got ++ [w.stats[got.length]]) }, rfl, by simp [step, hd, hck, List.getElem?_eq_getElem hl]⟩
    · cases hju : judge got 0 with
      | none => exact ⟨.judge 0, { w with dead := true }, rfl, by simp [step, hd, hck, hl, hju]⟩
      | some b =>
        exact ⟨.judge 0, { w with checker := none, warnings := if b then w.warnings ++ [(got, 0)] else w.warnings }, rfl,
          by simp [step, hd, hck, hl, hju]⟩
  | none =>
    by_cases hall : ∀ st ∈ w.stage, st = .out
    · rcases C59_progress hj.pool ((close_mem as).mpr hc) with g | g | ⟨a, p, ha, hs⟩
      · exact .inl g
      · -- only `Close` can be running a callback
        refine .inr (.inl (.inr ?_))
        have hwk : w.pool.workers.flatMap Executor.Worker.tasks = [] := by
          rw [List.flatMap_eq_nil_iff]
          intro wk hm
          obtain ⟨i, hi⟩ := List.mem_iff_getElem?.mp hm
          have hlt : i < w.stage.length := by
            have h1 := (List.getElem?_eq_some_iff.mp hi).1
            have h2 := Executor.length_run _ hj.pool
            simp only [Executor.init, List.length_replicate] at h2
            rw [hj.stages]
            omega
          obtain ⟨wk', g1, g2⟩ := hj.agree i _ (List.getElem?_eq_getElem hlt)
          rw [hall _ (List.getElem_mem hlt)] at g2
          rw [hi] at g1
          cases g1
          rcases g2 with rfl | rfl <;> rfl
        simp only [Executor.running, hwk, List.nil_append] at g
        cases hcl : w.pool.closer with
        | running t => exact ⟨t, rfl⟩
        | _ => simp [hcl, Executor.Closer.tasks] at g
      · refine .inr (.inr ?_)
        rcases ha with rfl | rfl | ⟨i, rfl⟩
        · exact ⟨.closePop, _, rfl, by simp only [step, hd, hck, hs]; rfl⟩
        · exact ⟨.join, _, rfl, by simp only [step, hd, hs]; rfl⟩
        · exact ⟨.pop i, _, rfl, by simp only [step, hd, hs]; rfl⟩
    · simp only [Classical.not_forall] at hall
      obtain ⟨st, hm, hne⟩ := hall
      obtain ⟨i, hi⟩ := List.mem_iff_getElem?.mp hm
      obtain ⟨s, hsi⟩ := stats_at hj hi
      obtain ⟨wk, g1, g2⟩ := hj.agree i _ hi
      cases st with
      | out => exact absurd rfl hne
      | popped t => exact .inr (.inr ⟨.begin_ i 0, _, rfl, by simp only [step, hd, hi, hsi]; rfl⟩)
      | starting t => exact .inr (.inr ⟨.call i, _, rfl, by simp only [step, hd, hi]; rfl⟩)
      | running t => exact .inr (.inl (.inl ⟨i, t, hi⟩))
      | ended t =>
        simp only [Agree] at g2
        subst g2
        exact .inr (.inr ⟨.count i, _, rfl, by simp only [step, hd, hi, hsi, Executor.step, g1]; rfl⟩)

/-- A task is taken by a thread, which tells of it and calls it at time `now`. -/
def startsOn (i : Nat) (now : Int) : List Act := [.pop i, .begin_ i now, .call i]

/-- C120: it is false that the tasks pending when `Close` is called are run with a cancelled status: a thread may take one before `Close` does,
and runs it with OK. -/
theorem C120_cancel_is_false : ¬ ∀ (n : Nat) (max : Int) (as bs : List Act) (w w' : W), run (init n max) as = some w →
    run (init n max) (as ++ .close :: bs) = some w' → ∀ c ∈ w'.log, c ∉ w.log → c.task ∉ w.pool.started → c.ok = false := by
  intro hall
  have := hall 1 10 [.schedule 7] (startsOn 0 0) _ _ rfl rfl ⟨some 0, 7, true, true⟩ (by decide +kernel) (by decide +kernel) (by decide +kernel)
  cases this

/-- C120: the documentation of `Schedule` ("true if the number of items in the queue exceeds the limit, false otherwise") is false. -/
theorem C120_schedule_is_false : ¬ ∀ (n max : Nat) (as : List Act) (w : W), run (init n max) as = some w →
    ∀ r ∈ w.replies, (r.2 = true ↔ max < r.1) := by
  intro hall
  have := hall 1 1 [.schedule 7] _ rfl (1, true) (by decide +kernel)
  simp at this

/-- C120: `Schedule` does not tell that a task will not be run: after `Close` has returned it drops the task and returns true. -/
theorem C120_dropped : ∃ (as : List Act) (w : W), run (init 1 10) as = some w ∧ Act.schedule 7 ∈ as ∧ w.pool.closer = .closed ∧
    w.replies = [(0, true)] ∧ called w = [] :=
  ⟨[.close, .closePop, .pop 0, .join, .schedule 7], _, rfl, by simp, rfl, by decide +kernel, by decide +kernel⟩

/-- C120: it is false that all threads are working when the checker warns: the statistics are read one thread after the other, and a thread may
have finished before the warning. -/
theorem C120_warning_is_false : ¬ ∀ (n : Nat) (max : Int) (as : List Act) (w w' : W) (now : Int), run (init n max) as = some w →
    step w (.judge now) = some w' → w'.warnings ≠ w.warnings → ∀ i < n, ∃ t, WorksOn w i t := by
  intro hall
  obtain ⟨t, ht⟩ := hall 2 10 ([.schedule 1, .schedule 2] ++ startsOn 0 0 ++ startsOn 1 0 ++ [.check, .read, .ret 0, .count 0, .read]) _ _
    timeToWarn rfl rfl (by decide +kernel) 0 (by omega)
  simp [WorksOn, run, step, init, startsOn, Executor.step, Executor.init, UQueue.init, UQueue.push, UQueue.pop] at ht

/-- C120: with no threads the deadlock checker reads beyond the end of the statistics. -/
theorem C120_no_threads : ∃ w, run (init 0 10) [.check, .judge 0] = some w ∧ w.dead = true := ⟨_, rfl, by decide +kernel⟩

namespace WorkerDemo

/-- Two threads take tasks, both are stuck for a minute and the checker warns; `Close` is called while a third task waits. -/
def acts : List Act :=
  [.schedule 1, .schedule 2, .schedule 3] ++ startsOn 0 5 ++ startsOn 1 8 ++ [.check, .read, .read, .judge 60000000008, .close, .schedule 4,
   .closePop, .closeRet, .closePop, .ret 1, .count 1, .pop 1, .ret 0, .count 0, .pop 0, .join]

/-- The hypotheses of the theorems above, and what they say. -/
example : ∃ w, run (init 2 1) acts = some w ∧ w.pool.closer = .closed ∧ Act.close ∈ acts ∧ accepted acts = [1, 2, 3] ∧
    w.log = [⟨some 0, 1, true, false⟩, ⟨some 1, 2, true, true⟩, ⟨none, 3, false, false⟩] ∧
    w.replies = [(1, true), (2, false), (3, false), (1, true)] ∧ w.stats.map Stats.processed = [1, 1] ∧
    w.warnings.map (fun p => (p.1.map Stats.started, p.2)) = [([5, 8], 60000000008)] :=
  ⟨_, rfl, by decide +kernel, by simp [acts], by decide +kernel, by decide +kernel, by decide +kernel, by decide +kernel, by decide +kernel⟩

/-- While the tasks run: the checker has read both threads, and a nanosecond earlier it would not have warned. -/
example : ∃ w, run (init 2 1) (acts.take 12) = some w ∧ (∃ w', step w (.judge 60000000008) = some w' ∧ w'.warnings.length = 1) ∧
    (∃ w', step w (.judge 60000000007) = some w' ∧ w'.warnings = []) ∧ (∃ t, WorksOn w 0 t) ∧ begins 0 (acts.take 12) = 1 ∧
    begunAt 1 (acts.take 12) = 8 :=
  ⟨_, rfl, ⟨_, rfl, by decide +kernel⟩, ⟨_, rfl, by decide +kernel⟩, ⟨1, .inr (.inl (by decide +kernel))⟩, by decide +kernel, by decide +kernel⟩

/-- Both threads are stuck while a further task is scheduled and the checker makes a round. -/
example : ∃ w w', run (init 2 1) (acts.take 9) = some w ∧ (∀ i < 2, ∃ t, WorksOn w i t) ∧
    run w (.check :: [.read, .schedule 9, .read] ++ [.judge 60000000008]) = some w' ∧ (∀ i < 2, timeToWarn ≤ 60000000008 - begunAt i (acts.take 9)) := by
  refine ⟨_, _, rfl, ?_, rfl, by decide +kernel⟩
  intro i hi
  match i with
  | 0 => exact ⟨1, .inr (.inl (by decide +kernel))⟩
  | 1 => exact ⟨2, .inr (.inl (by decide +kernel))⟩
  | i + 2 => omega

/-- A task is scheduled when one waits, with a limit of 1 and with a negative limit. -/
example : (∃ w w', run (init 1 1) [.schedule 1] = some w ∧ step w (.schedule 2) = some w' ∧ w'.replies.getLast? = some (2, false)) ∧
    ∃ w w', run (init 1 (-1)) [.schedule 1] = some w ∧ step w (.schedule 2) = some w' ∧ w'.replies.getLast? = some (2, true) :=
  ⟨⟨_, _, rfl, rfl, by decide +kernel⟩, ⟨_, _, rfl, rfl, by decide +kernel⟩⟩

end WorkerDemo

end Verif.TaskWorker
