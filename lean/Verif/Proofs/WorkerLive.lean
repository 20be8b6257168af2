import Verif.Proofs.WorkerInv
/-
When the table worker waits, and for what; when requests time out.
-/
namespace Verif.Worker
open Table (Op)

/-- The deadline of the request has passed at some time at which the worker looked. -/
def Late (as : List Act) (r : Req) : Prop := ∃ dl now d, r.deadline = some dl ∧ Act.work now d ∈ as ∧ dl ≤ now

theorem Late.mono {as : List Act} {r : Req} (b : List Act) (h : Late as r) : Late (as ++ b) r := by
  obtain ⟨dl, now, d, h1, h2, h3⟩ := h
  exact ⟨dl, now, d, h1, List.mem_append_left _ h2, h3⟩

/-- Requests are answered with a timeout only after their deadline. -/
structure Timely (as : List Act) (w : W) : Prop where
  term : w.cancelSeen = false → ∀ r ∈ w.terminate, Late as r
  out : ∀ r, (r, some Code.deadlineExceeded) ∈ answers w.out → Late as r

theorem Timely.step {as : List Act} {w w' : W} {a : Act} (h : Timely as w) (hs : step w a = some w') :
    Timely (as ++ [a]) w' := by
  obtain ⟨hd, ht⟩ := tr_of_step hs
  have h1 : w.cancelSeen = false → ∀ r ∈ w.terminate, Late (as ++ [a]) r := fun e r hr => (h.term e r hr).mono _
  have h2 : ∀ r, (r, some Code.deadlineExceeded) ∈ answers w.out → Late (as ++ [a]) r := fun r hr => (h.out r hr).mono _
  have hlk : ∀ now d, a = .work now d → (looked w now).cancelSeen = false →
      ∀ r ∈ (looked w now).terminate, Late (as ++ [a]) r := by
    intro now d ha e r hr
    simp only [looked, Bool.or_eq_false_iff] at e
    simp only [looked, takeExpired_eq, e.2, List.mem_append, List.mem_filter] at hr
    have hex : expired false now r = true → Late (as ++ [a]) r := by
      intro hx
      simp only [expired, Bool.false_or] at hx
      split at hx
      · simp at hx
      · rename_i dl hdl
        exact ⟨dl, now, d, hdl, by simp [ha], by simpa using hx⟩
    rcases hr with (hr | hr) | hr
    · exact h1 e.1 r hr
    · exact hex hr.2
    · exact hex hr.2
  cases ht
  case top => exact ⟨h1, by simpa only [answers_append, answers_notify, List.append_nil] using h2⟩
  case smpFull =>
    refine ⟨h1, ?_⟩
    intro r hr
    refine h2 r ?_
    simpa [answers_append, answers] using hr
  case idleStop now d _ _ _ _ _ _ _ => exact ⟨hlk now d rfl, h2⟩
  case idleWait now d _ _ _ _ _ _ _ => exact ⟨hlk now d rfl, h2⟩
  case idleFinish now d _ _ _ _ _ => exact ⟨hlk now d rfl, h2⟩
  case finish =>
    refine ⟨by simp, ?_⟩
    intro r hr
    simp only [answers_append, answers_answer, List.mem_append, List.mem_map, Prod.mk.injEq] at hr
    rcases hr with hr | ⟨y, hy, rfl, e⟩
    · exact h2 r hr
    · refine h1 ?_ y hy
      simp only [W.samplingStatus] at e
      split at e
      · simp at e
      · simp_all
  all_goals exact ⟨h1, h2⟩

theorem Timely.init (t0 : Table) : Timely [] (init t0) := by constructor <;> simp [Worker.init, answers]

theorem earlier_le {a b : Option Int} {d : Int} (h : a = some d ∨ b = some d) : ∃ x, earlier a b = some x ∧ x ≤ d := by
  cases a <;> cases b <;> simp [earlier] at h ⊢ <;> omega

theorem nextDeadline_le (l : List (Option Req)) : ∀ (acc : Option Int) (d : Int),
    ((∃ x, acc = some x ∧ x ≤ d) ∨ ∃ r ∈ live l, r.deadline = some d) →
    ∃ x, nextDeadline l acc = some x ∧ x ≤ d := by
  induction l with
  | nil => intro acc d h; simpa [nextDeadline] using h
  | cons o l ih =>
    intro acc d h
    cases o with
    | none => exact ih acc d (by simpa using h)
    | some r =>
      refine ih _ d ?_
      simp only [live_some, List.mem_cons] at h
      rcases h with ⟨x, hx, hle⟩ | ⟨r', rfl | hr', hd⟩
      · obtain ⟨y, hy, hy'⟩ := earlier_le (b := r.deadline) (.inl hx)
        exact .inl ⟨y, hy, by omega⟩
      · exact .inl (earlier_le (.inr hd))
      · exact .inr ⟨r', hr', hd⟩

/-- What holds while the worker waits and has not been signalled. -/
structure Waits (w : W) : Prop where
  /-- it has asked to be woken at the latest when the first deadline passes -/
  alarm : w.pc = .waiting → w.woken = false → ∀ r, r ∈ live w.sampling ∨ r ∈ live w.pendingSampling →
    ∀ d, r.deadline = some d → ∃ x, w.wakeAt = some x ∧ x ≤ d
  /-- it has taken over pending requests if there was nothing else to do -/
  inserts : w.pc = .waiting → w.woken = false → w.cancelSeen = false → w.inserts = [] → w.pendingInserts = []
  sampling : w.pc = .waiting → w.woken = false → w.sampling = [] → w.pendingSampling = []
  /-- after cancellation nobody waits any more -/
  cancelled : w.pc = .waiting → w.woken = false → w.signals = 0 → w.table.limiter.cancelled = true →
    live w.sampling = [] ∧ live w.pendingSampling = [] ∧ w.notifyList = [] ∧ w.inserts = []

theorem keep_nil {p : Req → Bool} {l : List (Option Req)} (h : keepUnexpired p l = []) : l = [] := by
  simpa [keepUnexpired] using h

theorem Waits.step {w w' : W} {a : Act} (h : Waits w) (hc : Calls w) (hs : step w a = some w') : Waits w' := by
  obtain ⟨hd, ht⟩ := tr_of_step hs
  obtain ⟨h1, h2, h3, h4⟩ := h
  cases ht
  case insertOk => constructor <;> simp +contextual
  case insertFull => constructor <;> simp +contextual
  case request => constructor <;> simp +contextual
  case sectionOk op r hl e ho => exact ⟨h1, h2, h3, by simp⟩
  case sectionErr op r hl e ho =>
    refine ⟨h1, h2, h3, ?_⟩
    intro p1 p2 p3 p4
    simp only at p4
    rw [Table.step_cancelled] at p4
    rcases p4 with p4 | rfl
    · exact h4 p1 p2 p3 p4
    · simp [Table.step] at e
  case sectionDied op hl e ho =>
    refine ⟨h1, h2, h3, ?_⟩
    intro p1 p2 p3 p4
    simp only at p4
    rw [Table.step_cancelled] at p4
    rcases p4 with p4 | rfl
    · exact h4 p1 p2 p3 p4
    · simp [Table.step] at e
  case signal => constructor <;> simp +contextual
  case stop => constructor <;> simp +contextual
  case insDied hpc _ _ _ => constructor <;> simp +contextual [hpc]
  case smpNone => constructor <;> (simp only [nextPc]; split <;> simp)
  case smpBlocked => constructor <;> (simp only [nextPc]; split <;> simp)
  case smpMore hpc _ _ _ _ _ => constructor <;> simp +contextual [hpc]
  case smpDied hpc _ _ _ _ => constructor <;> simp +contextual [hpc]
  case idleWait now d hpc hi hsm hp hte hn hst =>
    refine ⟨?_, ?_, ?_, ?_⟩
    · intro _ _ r hr dl hdl
      refine nextDeadline_le _ _ dl ?_
      rcases hr with hr | hr
      · exact .inl (nextDeadline_le _ _ dl (.inr ⟨r, hr, hdl⟩))
      · exact .inr ⟨r, hr, hdl⟩
    · intro _ _ hcs
      simp only [looked, Bool.or_eq_false_iff] at hcs ⊢
      simpa [hcs.2] using hi
    · intro _ _ he
      simp only [looked] at he ⊢
      rw [hsm (keep_nil he)]; rfl
    · intro _ _ _ hcan
      have hca : w.table.limiter.cancelled = true := hcan
      have hnn := hc.none (by simp [hpc]) (by simp [hpc])
      simp only [looked, live_keep, hca, hnn]
      simp [expired]
  case insertBad => exact ⟨h1, h2, h3, h4⟩
  all_goals (constructor <;> simp)

theorem Waits.init (t0 : Table) : Waits (init t0) := by constructor <;> simp [Worker.init]

/-- The actions carry admitted priorities. -/
def Act.Ok (c : Config) : Act → Prop
  | .insert i _ => c.admits i.priority
  | .mutate updates _ => ∀ u ∈ updates, c.admits u.2
  | _ => True

/-- With admitted priorities the worker neither dies nor gives up. -/
structure Fine (c : Config) (w : W) : Prop where
  items : ∀ i, i ∈ w.inserts ∨ i ∈ w.pendingInserts → c.admits i.priority
  trace : ∀ op ∈ w.trace, c.Admissible op
  alive : w.dead = false
  stays : w.pc = .exited → w.stop = true

theorem Fine.reachable {c : Config} {w : W} (h : Fine c w) (hq : Seq c.init w) : c.Reachable w.table :=
  ⟨w.trace, h.trace, hq.run h.alive⟩

theorem workerInsert_ok {c : Config} {t : Table} (h : c.Reachable t) {i : Item} (hi : c.admits i.priority) (now : Int)
    (d : Draw) (hc : t.limiter.canInsert 1 = true) : (t.step (.workerInsert i now d)).2 = .ok .done := by
  have hinv := h.inv
  have hop : Table.okPri c.sampler c.remover i.priority = true := c.okFor (op := .workerInsert i now d) hi
  cases hk : t.data.get? i.key with
  | some it =>
    obtain ⟨t', h1, _⟩ := hinv.update hk hop
    simp [Table.step, Table.workerInsert, Table.insertInternal, hc, AMap.contains, hk, h1, Table.reply]
  | none =>
    obtain ⟨t', v, h1, _, _⟩ := hinv.insertNew (now := now) hk hop hc d
    simp [Table.step, Table.workerInsert, Table.insertInternal, hc, AMap.contains, hk, h1, Table.reply]

theorem workerSample_ok {c : Config} {t : Table} (h : c.Reachable t) (rl : Bool) (d : Draw)
    (hc : t.limiter.canSample 1 = true) : ∃ s, (t.step (.workerSample rl d)).2 = .ok (.samples [s]) := by
  obtain ⟨t', it, pr, gone, h1, _, _⟩ := h.inv.sampleOne hc rl d
  have hm : t.limiter.maybeCommitSample = some (Table.commit t.limiter) := Table.maybeCommit_some.mpr ⟨hc, rfl⟩
  refine ⟨⟨Table.bump it, pr, t.data.size, it.priority, it.timesSampled + 1, rl⟩, ?_⟩
  simp only [Table.step, Table.workerSample, hm, h1]

theorem Act.admissible {c : Config} {a : Act} {op : Op} (h : a.Ok c) (ho : a.op = some op) : c.Admissible op := by
  cases a <;> simp [Act.op] at ho <;> subst ho
  · exact h
  · trivial
  · trivial

theorem section_ok {c : Config} {t : Table} (h : c.Reachable t) {a : Act} {op : Op} (ha : a.Ok c) (ho : a.op = some op) :
    (t.step op).2 = .ok .done := by
  have hinv := h.inv
  cases a <;> simp [Act.op] at ho <;> subst ho
  · rename_i us ks
    have hop := c.okFor (op := .mutate us ks) ha
    obtain ⟨t1, m1, h1, h2, _⟩ := Table.Inv.deleteAll ks hinv
    obtain ⟨t2, m2, h4, _, _⟩ := Table.Inv.updateAll us h2.fin hop
    simp [Table.step, Table.mutateItems, h1, h4, Table.reply]
  · rfl
  · rfl

theorem Fine.step {c : Config} {w w' : W} {a : Act} (h : Fine c w) (hq : Seq c.init w) (ha : a.Ok c)
    (hs : step w a = some w') : Fine c w' := by
  obtain ⟨hd, ht⟩ := tr_of_step hs
  have hre := h.reachable hq
  obtain ⟨h1, h2, h3, h4⟩ := h
  have htr : ∀ op, c.Admissible op → ∀ x ∈ w.trace ++ [op], c.Admissible x := by
    intro op ho x hx
    rcases List.mem_append.mp hx with hx | hx
    · exact h2 x hx
    · rw [List.mem_singleton.mp hx]; exact ho
  cases ht
  case insertOk =>
    refine ⟨?_, h2, h3, h4⟩
    intro j hj
    simp only [List.mem_append, List.mem_singleton] at hj
    rcases hj with hj | hj | rfl
    · exact h1 j (.inl hj)
    · exact h1 j (.inr hj)
    · exact ha
  case insertFull =>
    refine ⟨?_, h2, h3, h4⟩
    intro j hj
    simp only [List.mem_append, List.mem_singleton] at hj
    rcases hj with hj | hj | rfl
    · exact h1 j (.inl hj)
    · exact h1 j (.inr hj)
    · exact ha
  case sectionOk op r hl e ho => exact ⟨h1, htr _ (Act.admissible ha ho), h3, h4⟩
  case sectionErr op r hl e ho => rw [section_ok hre ha ho] at e; cases e
  case sectionDied op hl e ho => rw [section_ok hre ha ho] at e; cases e
  case stop => exact ⟨h1, h2, h3, fun _ => rfl⟩
  case wake => exact ⟨h1, h2, h3, by simp⟩
  case top => exact ⟨h1, h2, h3, by simp⟩
  case insNone => exact ⟨h1, h2, h3, by simp⟩
  case insOk i rest r hpc hi hc e =>
    refine ⟨?_, htr _ (h1 i (.inl (by simp [hi]))), h3, by simp⟩
    intro j hj
    refine h1 j (hj.imp (fun hj => ?_) id)
    rw [hi]; exact List.mem_cons_of_mem _ hj
  case insErr i rest r hpc hi hc e =>
    rw [workerInsert_ok hre (h1 i (.inl (by simp [hi]))) _ _ hc] at e; cases e
  case insDied i rest hpc hi hc e =>
    rw [workerInsert_ok hre (h1 i (.inl (by simp [hi]))) _ _ hc] at e; cases e
  case smpNone => exact ⟨h1, h2, h3, by simp only [nextPc]; split <;> simp⟩
  case smpBlocked => exact ⟨h1, h2, h3, by simp only [nextPc]; split <;> simp⟩
  case smpFull => exact ⟨h1, htr _ trivial, h3, by simp⟩
  case smpMore hpc _ _ _ _ _ => exact ⟨h1, htr _ trivial, h3, by simp [hpc]⟩
  case smpErr d _ _ _ _ hpc _ _ hc e => 
    obtain ⟨s, hs'⟩ := workerSample_ok hre w.rateLimited d hc
    rw [hs'] at e; cases e
  case smpDied d _ _ _ hpc _ _ hc e =>
    obtain ⟨s, hs'⟩ := workerSample_ok hre w.rateLimited d hc
    rw [hs'] at e
    rcases e with e | ⟨x, hx, e⟩
    · cases e
    · cases e; exact absurd rfl (hx _)
  case moreWork => exact ⟨h1, h2, h3, by simp⟩
  case swapI => exact ⟨fun j hj => h1 j (.inr (by simpa using hj)), h2, h3, by simp⟩
  case swapS => exact ⟨h1, h2, h3, by simp⟩
  case swapB => exact ⟨fun j hj => h1 j (.inr (by simpa using hj)), h2, h3, by simp⟩
  case idleStop hst => exact ⟨fun j hj => h1 j (hj.imp (fun hj => by simp only [looked] at hj; grind) id), h2, h3, fun _ => hst⟩
  case idleWait => exact ⟨fun j hj => h1 j (hj.imp (fun hj => by simp only [looked] at hj; grind) id), h2, h3, by simp⟩
  case idleFinish => exact ⟨fun j hj => h1 j (hj.imp (fun hj => by simp only [looked] at hj; grind) id), h2, h3, by simp⟩
  case finish => exact ⟨h1, h2, h3, by simp⟩
  all_goals exact ⟨h1, h2, h3, h4⟩

theorem Fine.init (c : Config) : Fine c (init c.init) := by constructor <;> simp [Worker.init]

/-- Nothing the worker could do is left undone. -/
structure Blocked (w : W) : Prop where
  inserts : w.inserts ≠ [] → w.table.limiter.canInsert 1 = false
  sampling : live w.sampling ≠ [] → w.table.limiter.canSample 1 = false

/-- The worker waits only when it is blocked, as long as the table is not changed between its last pass and its
waiting. -/
structure NoLoss (w : W) : Prop where
  try_ : w.pc = .trySample → w.again = false → w.inserts ≠ [] → w.table.limiter.canInsert 1 = false
  queues : w.pc = .queues → Blocked w
  waiting : w.pc = .waiting → w.woken = false → w.signals = 0 → Blocked w

theorem close_can (t : Table) : (t.step .close).1.limiter.canInsert 1 = t.limiter.canInsert 1 ∧
    (t.step .close).1.limiter.canSample 1 = t.limiter.canSample 1 := ⟨rfl, rfl⟩

theorem NoLoss.step {c : Config} {w w' : W} {a : Act} (h : NoLoss w) (hf : Fine c w) (hq : Seq c.init w) (ha : a.Ok c)
    (hcl : w.pc = .queues → a ≠ .reset ∧ ∀ us ds, a ≠ .mutate us ds)
    (hs : step w a = some w') : NoLoss w' := by
  obtain ⟨hd, ht⟩ := tr_of_step hs
  have hre := hf.reachable hq
  obtain ⟨h1, h2, h3⟩ := h
  cases ht
  case insertOk => exact ⟨h1, fun e => ⟨(h2 e).1, (h2 e).2⟩, by simp +contextual⟩
  case insertFull => exact ⟨h1, fun e => ⟨(h2 e).1, (h2 e).2⟩, by simp +contextual⟩
  case request => exact ⟨h1, fun e => ⟨(h2 e).1, (h2 e).2⟩, by simp +contextual⟩
  case sectionOk op r hl e ho =>
    refine ⟨fun hp => ?_, fun hp => ?_, by simp⟩
    · simp only at hp; simp [W.locked, hp] at hl
    · obtain ⟨n1, n2⟩ := hcl hp
      cases a <;> simp [Act.op] at ho <;> subst ho
      · exact absurd rfl (n2 _ _)
      · exact absurd rfl n1
      · exact ⟨(h2 hp).1, (h2 hp).2⟩
  case sectionErr op r hl e ho => rw [section_ok hre ha ho] at e; cases e
  case sectionDied op hl e ho => rw [section_ok hre ha ho] at e; cases e
  case signal => exact ⟨h1, fun e => ⟨(h2 e).1, (h2 e).2⟩, by simp +contextual⟩
  case stop => exact ⟨h1, fun e => ⟨(h2 e).1, (h2 e).2⟩, by simp +contextual⟩
  case insNone hpc hn => exact ⟨fun _ _ => hn, by simp, by simp⟩
  case smpNone hpc hn =>
    refine ⟨?_, ?_, ?_⟩ <;> (cases hag : w.again <;> simp [nextPc])
    exact ⟨h1 hpc hag, by simp⟩
  case smpBlocked nulls r rest hpc he hn hc =>
    refine ⟨?_, ?_, ?_⟩ <;> (cases hag : w.again <;> simp [nextPc])
    exact ⟨h1 hpc hag, fun _ => hc⟩
  case idleWait now d hpc hi hsm hp hte hn hst =>
    refine ⟨by simp, by simp, fun _ _ _ => ?_⟩
    have hb := h2 hpc
    refine ⟨fun e => hb.1 ?_, fun e => hb.2 ?_⟩
    · simp only [looked] at e; grind
    · simp only [looked, live_keep] at e
      intro e'; rw [e'] at e; simp at e
  case insertBad => exact ⟨h1, h2, h3⟩
  case insDied i rest hpc hi hc e =>
    rw [workerInsert_ok hre (hf.items i (.inl (by simp [hi]))) _ _ hc] at e; cases e
  case smpDied d _ _ _ hpc _ _ hc e =>
    obtain ⟨s, hs'⟩ := workerSample_ok hre w.rateLimited d hc
    rw [hs'] at e
    rcases e with e | ⟨x, hx, e⟩
    · cases e
    · cases e; exact absurd rfl (hx _)
  case smpMore hpc _ _ _ _ _ => exact ⟨by simp, by simp [hpc], by simp [hpc]⟩
  all_goals (constructor <;> simp)

theorem NoLoss.init (t0 : Table) : NoLoss (init t0) := by constructor <;> simp [Worker.init]

end Verif.Worker
