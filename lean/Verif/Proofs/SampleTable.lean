import Verif.Model.SampleAsync
import Verif.Proofs.TableBatch
import Verif.Proofs.WorkerProgress
import Verif.Spec.SampleService
/-
The tables of the asynchronous server as the sample streams see them: which requests have not been delivered, and what is in the
answers.
-/
namespace Verif
open Table (Op)

namespace Worker

/-- A sample of a well-formed item that the extensions of the table have been told of. -/
def Honest (t : Table) (y : Sampled) : Prop := Table.itemValid y.item = true ∧ ExtEvent.sample y.item ∈ t.log

/-- All requests that the worker has or had. -/
def W.reqs (w : W) : List Req := (answers w.out).map Prod.fst ++ w.terminate ++ live w.sampling ++ live w.pendingSampling

/-- Well-formed items only. -/
structure Clean (w : W) : Prop where
  data : AllValid w.table.data
  items : ∀ i, i ∈ w.inserts ∨ i ∈ w.pendingInserts → Table.itemValid i = true
  samples : ∀ r ∈ w.reqs, ∀ y ∈ r.samples, Honest w.table y

theorem Clean.init (c : Config) : Clean (init c.init) :=
  ⟨fun k it h => by simp [Worker.init, Config.init, Table.make] at h, by simp [Worker.init], by simp [Worker.init, W.reqs, answers]⟩

theorem Honest.mono {t t' : Table} {y : Sampled} (h : Honest t y) (g : t.log <+: t'.log) : Honest t' y := ⟨h.1, g.subset h.2⟩

theorem Act.op_item {a : Act} {op : Op} (h : a.op = some op) : Op.item op = none := by
  cases a <;> simp [Act.op] at h <;> subst h <;> rfl

theorem Clean.table {w w' : W} (h : Clean w) {op : Op} (ho : ∀ i now, Op.item op = some (i, now) → Table.itemValid i = true)
    (ht : w'.table = (w.table.step op).1) (hi : ∀ i, i ∈ w'.inserts ∨ i ∈ w'.pendingInserts → i ∈ w.inserts ∨ i ∈ w.pendingInserts)
    (hr : ∀ r ∈ w'.reqs, ∀ y ∈ r.samples, (∃ r0 ∈ w.reqs, y ∈ r0.samples) ∨ Honest w'.table y) : Clean w' := by
  refine ⟨by rw [ht]; exact Table.step_keeps ho h.data, fun i g => h.items i (hi i g), fun r g y gy => ?_⟩
  rcases hr r g y gy with ⟨r0, h1, h2⟩ | h1
  · exact (h.samples r0 h1 y h2).mono (by rw [ht]; exact (Table.step_grows w.table op).log)
  · exact h1

theorem Clean.same {w w' : W} (h : Clean w) (ht : w'.table = w.table)
    (hi : ∀ i, i ∈ w'.inserts ∨ i ∈ w'.pendingInserts → i ∈ w.inserts ∨ i ∈ w.pendingInserts)
    (hr : ∀ r ∈ w'.reqs, ∀ y ∈ r.samples, ∃ r0 ∈ w.reqs, y ∈ r0.samples) : Clean w' := by
  refine ⟨by rw [ht]; exact h.data, fun i g => h.items i (hi i g), fun r g y gy => ?_⟩
  obtain ⟨r0, h1, h2⟩ := hr r g y gy
  rw [ht]
  exact h.samples r0 h1 y h2

theorem workerSample_honest {t : Table} {rl : Bool} {d : Draw} {l : List Sampled} (hv : AllValid t.data)
    (h : (t.step (.workerSample rl d)).2 = .ok (.samples l)) : ∀ y ∈ l, Honest (t.step (.workerSample rl d)).1 y := by
  simp only [Table.step, Table.workerSample] at h ⊢
  split at h
  · cases h
  · rename_i lim _
    split at h
    · rename_i s hs
      simp only [Res.ok.injEq, Table.Reply.samples.injEq] at h
      subst h
      intro y hy
      rw [List.mem_singleton] at hy
      subst hy
      simp only [hs]
      refine ⟨Table.sampleOne_valid (t := { t with limiter := lim }) hv hs, ?_⟩
      obtain ⟨added, h1, h2⟩ := Table.sampleOne_reports hs
      rw [h1]
      exact List.mem_append_right _ (h2.subset (by simp))
    · cases h
    · cases h

theorem Clean.step {w w' : W} {a : Act} (h : Clean w) (hs : Worker.step w a = some w') : Clean w' := by
  obtain ⟨_, ht⟩ := tr_of_step hs
  have triv : ∀ {x : W}, (∀ r ∈ x.reqs, r ∈ w.reqs) → ∀ r ∈ x.reqs, ∀ y ∈ r.samples, ∃ r0 ∈ w.reqs, y ∈ r0.samples :=
    fun hx r hr y hy => ⟨r, hx r hr, hy⟩
  have hlook : ∀ now, ∀ r ∈ (looked w now).reqs, r ∈ w.reqs := by
    intro now r hr
    simp only [W.reqs, looked, live_keep, takeExpired_eq, List.mem_append, List.mem_filter] at hr ⊢
    grind
  have hlooki : ∀ now i, i ∈ (looked w now).inserts ∨ i ∈ (looked w now).pendingInserts → i ∈ w.inserts ∨ i ∈ w.pendingInserts := by
    intro now i hi
    simp only [looked] at hi
    split at hi
    · simpa using Or.inr (by simpa using hi)
    · exact hi
  cases ht
  case insertOk hv _ =>
    refine ⟨h.data, fun i g => ?_, h.samples⟩
    simp only [List.mem_append, List.mem_singleton] at g
    rcases g with g | g | g
    · exact h.items i (.inl g)
    · exact h.items i (.inr g)
    · rw [g]; exact hv
  case insertFull hv _ =>
    refine ⟨h.data, fun i g => ?_, h.samples⟩
    simp only [List.mem_append, List.mem_singleton] at g
    rcases g with g | g | g
    · exact h.items i (.inl g)
    · exact h.items i (.inr g)
    · rw [g]; exact hv
  case request =>
    refine ⟨h.data, h.items, fun r hr y hy => ?_⟩
    simp only [W.reqs, live_append, live_some, live_nil, List.mem_append, List.mem_singleton] at hr
    rcases hr with hr | hr | hr
    · exact h.samples r (by simp only [W.reqs, List.mem_append]; exact .inl hr) y hy
    · exact h.samples r (by simp only [W.reqs, List.mem_append]; exact .inr hr) y hy
    · subst hr; cases hy
  case sectionOk op r _ _ ho =>
    exact h.table (op := op) (by simp [Act.op_item ho]) rfl (fun _ => id) fun r hr y hy => .inl ⟨r, hr, hy⟩
  case sectionErr op r _ _ ho =>
    exact h.table (op := op) (by simp [Act.op_item ho]) rfl (fun _ => id) fun r hr y hy => .inl ⟨r, hr, hy⟩
  case sectionDied op _ _ ho =>
    exact h.table (op := op) (by simp [Act.op_item ho]) rfl (fun _ => id) fun r hr y hy => .inl ⟨r, hr, hy⟩
  case top =>
    refine h.same rfl (fun _ => id) (triv fun r hr => ?_)
    simpa [W.reqs, answers_append, answers_notify] using hr
  case insOk now d i rest r _ hi _ _ =>
    refine h.table (op := .workerInsert i now d) ?_ rfl (fun x hx => hx.imp (fun g => by rw [hi]; exact List.mem_cons_of_mem _ g) id)
      fun r hr y hy => .inl ⟨r, hr, hy⟩
    intro j n hj
    simp only [Op.item, Option.some.injEq, Prod.mk.injEq] at hj
    rw [← hj.1]; exact h.items i (.inl (by simp [hi]))
  case insErr now d i rest e _ hi _ _ =>
    refine h.table (op := .workerInsert i now d) ?_ rfl (fun x hx => hx.imp (fun g => by rw [hi]; exact List.mem_cons_of_mem _ g) id)
      fun r hr y hy => .inl ⟨r, hr, hy⟩
    intro j n hj
    simp only [Op.item, Option.some.injEq, Prod.mk.injEq] at hj
    rw [← hj.1]; exact h.items i (.inl (by simp [hi]))
  case insDied now d i rest _ hi _ _ =>
    refine h.table (op := .workerInsert i now d) ?_ rfl (fun x hx => hx.imp (fun g => by rw [hi]; exact List.mem_cons_of_mem _ g) id)
      fun r hr y hy => .inl ⟨r, hr, hy⟩
    intro j n hj
    simp only [Op.item, Option.some.injEq, Prod.mk.injEq] at hj
    rw [← hj.1]; exact h.items i (.inl (by simp [hi]))
  case smpNone hn =>
    refine h.same rfl (fun _ => id) (triv fun r hr => ?_)
    simp only [W.reqs, live_nulls hn, live_nil] at hr ⊢
    exact hr
  case smpBlocked nulls r rest hpc he hn _ =>
    refine h.same rfl (fun _ => id) (triv fun x hx => ?_)
    simp only [W.reqs, he, live_append, live_nulls hn, List.nil_append] at hx ⊢
    exact hx
  case smpFull now d nulls r rest l hpc he hn _ hl hlen =>
    refine h.table (op := .workerSample w.rateLimited d) (by simp [Op.item]) rfl (fun _ => id) fun x hx y hy => ?_
    simp only [W.reqs, answers_append, List.map_append, List.mem_append] at hx
    simp only [answers, List.filterMap_cons, List.filterMap_nil, List.map_cons, List.map_nil, List.mem_singleton] at hx
    have hmem : ∀ z, z ∈ w.reqs ↔ ((z ∈ (answers w.out).map Prod.fst ∨ z ∈ w.terminate) ∨ z = r ∨ z ∈ live rest) ∨ z ∈ live w.pendingSampling := by
      intro z
      simp only [W.reqs, he, live_append, live_nulls hn, List.nil_append, live_some, List.mem_append, List.mem_cons]
    rcases hx with (((hx | hx) | hx) | hx) | hx
    · exact .inl ⟨x, (hmem x).mpr (.inl (.inl (.inl hx))), hy⟩
    · subst hx
      simp only [List.mem_append] at hy
      rcases hy with hy | hy
      · exact .inl ⟨r, (hmem r).mpr (.inl (.inr (.inl rfl))), hy⟩
      · exact .inr (workerSample_honest h.data hl y hy)
    · exact .inl ⟨x, (hmem x).mpr (.inl (.inl (.inr hx))), hy⟩
    · exact .inl ⟨x, (hmem x).mpr (.inl (.inr (.inr hx))), hy⟩
    · exact .inl ⟨x, (hmem x).mpr (.inr hx), hy⟩
  case smpMore now d nulls r rest l hpc he hn _ hl hlen =>
    refine h.table (op := .workerSample w.rateLimited d) (by simp [Op.item]) rfl (fun _ => id) fun x hx y hy => ?_
    simp only [W.reqs, live_some, List.mem_append, List.mem_cons] at hx
    have hmem : ∀ z, z ∈ w.reqs ↔ ((z ∈ (answers w.out).map Prod.fst ∨ z ∈ w.terminate) ∨ z = r ∨ z ∈ live rest) ∨ z ∈ live w.pendingSampling := by
      intro z
      simp only [W.reqs, he, live_append, live_nulls hn, List.nil_append, live_some, List.mem_append, List.mem_cons]
    rcases hx with ((hx | hx) | hx | hx) | hx
    · exact .inl ⟨x, (hmem x).mpr (.inl (.inl (.inl hx))), hy⟩
    · exact .inl ⟨x, (hmem x).mpr (.inl (.inl (.inr hx))), hy⟩
    · subst hx
      simp only [List.mem_append] at hy
      rcases hy with hy | hy
      · exact .inl ⟨r, (hmem r).mpr (.inl (.inr (.inl rfl))), hy⟩
      · exact .inr (workerSample_honest h.data hl y hy)
    · exact .inl ⟨x, (hmem x).mpr (.inl (.inr (.inr hx))), hy⟩
    · exact .inl ⟨x, (hmem x).mpr (.inr hx), hy⟩
  case smpErr now d nulls r rest e hpc he hn _ _ =>
    refine h.table (op := .workerSample w.rateLimited d) (by simp [Op.item]) rfl (fun _ => id) fun x hx y hy => .inl ⟨x, ?_, hy⟩
    simp only [W.reqs, he, live_append, live_nulls hn, List.nil_append] at hx ⊢
    exact hx
  case smpDied now d nulls r rest hpc he hn _ _ =>
    refine h.table (op := .workerSample w.rateLimited d) (by simp [Op.item]) rfl (fun _ => id) fun x hx y hy => .inl ⟨x, ?_, hy⟩
    simp only [W.reqs, he, live_append, live_nulls hn, List.nil_append] at hx ⊢
    exact hx
  case swapI => exact h.same rfl (fun x hx => .inr (by simpa using hx)) (triv fun _ => id)
  case swapS _ _ hsm _ =>
    refine h.same rfl (fun _ => id) (triv fun r hr => ?_)
    simpa [W.reqs, hsm] using hr
  case swapB _ _ _ hsm _ =>
    refine h.same rfl (fun x hx => .inr (by simpa using hx)) (triv fun r hr => ?_)
    simpa [W.reqs, hsm] using hr
  case finish =>
    refine h.same rfl (fun _ => id) (triv fun r hr => ?_)
    simpa [W.reqs, answers_append, answers_answer, Function.comp_def] using hr
  case idleStop now d _ _ _ _ _ _ _ => exact h.same rfl (hlooki now) (triv (hlook now))
  case idleWait now d _ _ _ _ _ _ _ => exact h.same rfl (hlooki now) (triv (hlook now))
  case idleFinish now d _ _ _ _ _ => exact h.same rfl (hlooki now) (triv (hlook now))
  all_goals exact h.same rfl (fun _ => id) (triv fun _ => id)

/-- Steps other than `EnqueSampleRequest`. -/
theorem asked_step {w w' : W} {a : Act} (hs : Worker.step w a = some w') (hi : ∀ id n dl, a ≠ .request id n dl) :
    w'.asked = w.asked ∧ w.out <+: w'.out := by
  obtain ⟨_, ht⟩ := tr_of_step hs
  cases ht
  case request => exact absurd rfl (hi _ _ _)
  all_goals first
    | exact ⟨rfl, List.prefix_rfl⟩
    | exact ⟨rfl, List.prefix_append _ _⟩

end Worker

namespace SampTable
open Worker (W Act Req answers live)

/-- The requests, as they were made, that have not been delivered. -/
def pend (t : SampTable) : List Req :=
  ((answers t.todo).map fun a => a.1.bare) ++ t.w.terminate.map Req.bare ++ (live t.w.sampling).map Req.bare ++
    (live t.w.pendingSampling).map Req.bare

theorem pend_count (t : SampTable) (x : Req) : t.pend.count x = ((answers t.todo).map fun a => a.1.bare).count x +
    (t.w.terminate.map Req.bare).count x + ((live t.w.sampling).map Req.bare).count x + ((live t.w.pendingSampling).map Req.bare).count x := by
  simp only [pend, List.count_append]

/-- A step of the worker or of another caller. -/
theorem pend_step {t : SampTable} {w' : W} {a : Act} (hc : Worker.Served t.w) (hs : Worker.step t.w a = some w') :
    (∃ id n dl, a = .request id n dl ∧ SampTable.pend ⟨w', t.todo ++ w'.out.drop t.w.out.length, t.calling⟩ = t.pend ++ [⟨id, n, dl, []⟩]) ∨
    (SampTable.pend ⟨w', t.todo ++ w'.out.drop t.w.out.length, t.calling⟩).Perm t.pend := by
  by_cases ha : ∃ id n dl, a = .request id n dl
  · obtain ⟨id, n, dl, rfl⟩ := ha
    refine .inl ⟨id, n, dl, rfl, ?_⟩
    have : w' = Worker.enqueueSample t.w id n dl := by
      unfold Worker.step at hs
      split at hs
      · cases hs
      · simpa using hs.symm
    subst this
    simp [pend, Worker.enqueueSample, Worker.signalled, Req.bare]
  · have hi : ∀ id n dl, a ≠ .request id n dl := fun id n dl e => ha ⟨id, n, dl, e⟩
    obtain ⟨h1, l, h3⟩ := Worker.asked_step hs hi
    refine .inr (List.perm_iff_count.mpr fun x => ?_)
    have e1 := hc.count x
    have e2 := (hc.step hs).count x
    rw [h1, ← h3] at e2
    simp only [Worker.answers_append, List.map_append, List.count_append] at e2
    rw [pend_count, pend_count]
    simp only [← h3, List.drop_left, Worker.answers_append, List.map_append, List.count_append]
    omega

theorem pend_ask (t : SampTable) (id n : Nat) (dl : Option Int) :
    SampTable.pend { t with w := Worker.enqueueSample t.w id n dl } = t.pend ++ [⟨id, n, dl, []⟩] := by
  simp [pend, Worker.enqueueSample, Worker.signalled, Req.bare]

/-- A callback runs. -/
theorem pend_deliver {t : SampTable} {i : Nat} {o : Worker.Out} (h : t.todo[i]? = some o) :
    (((answers [o]).map fun a => a.1.bare) ++ SampTable.pend { t with todo := t.todo.eraseIdx i }).Perm t.pend := by
  obtain ⟨hlt, hget⟩ := List.getElem?_eq_some_iff.mp h
  have h1 : t.todo = t.todo.take i ++ [o] ++ t.todo.drop (i + 1) := by
    rw [List.append_assoc, List.singleton_append, ← hget, ← List.drop_eq_getElem_cons hlt, List.take_append_drop]
  refine List.perm_iff_count.mpr fun x => ?_
  have h2 := congrArg (fun l => ((answers l).map fun a => a.1.bare).count x) h1
  simp only [Worker.answers_append, List.map_append, List.count_append] at h2
  rw [List.count_append, pend_count, pend_count]
  simp only [List.eraseIdx_eq_take_drop_succ, Worker.answers_append, List.map_append, List.count_append]
  omega

end SampTable
end Verif
