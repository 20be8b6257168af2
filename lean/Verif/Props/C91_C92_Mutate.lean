import Verif.Proofs.ClientOps
import Verif.Props.C17_C18_Updates
import Verif.Props.C90_Isolation
import Verif.Props.TableDemo
/-
C91: the order in which `MutatePriorities` applies what it is asked to do. C92: the kernel that updates priorities tries again.
-/
namespace Verif
open Table (Op)

/-- Updates, whatever their outcome, add no key. -/
theorem updateItem_absent (t : Table) (k : Key) (p : Pri) (k' : Key) (h : t.get k' = none) : (t.updateItem k p).1.get k' = none := by
  unfold Table.updateItem
  split
  · exact h
  · rename_i it hk
    have hne : k' ≠ k := by rintro rfl; simp only [Table.get, hk] at h; cases h
    have : (t.data.insert k { it with priority := p }).get? k' = none := by rw [AMap.get?_insert, if_neg hne]; exact h
    dsimp only
    split
    · split <;> exact this
    · exact this

theorem updateAll_absent (us : List (Key × Pri)) : ∀ (t : Table) (k' : Key), t.get k' = none → (t.updateAll us).1.get k' = none := by
  induction us with
  | nil => intro t k' h; exact h
  | cons u us ih =>
    intro t k' h
    simp only [Table.updateAll]
    split
    · exact ih _ _ (updateItem_absent t u.1 u.2 k' h)
    · exact updateItem_absent t u.1 u.2 k' h

/-- C91 (partial): the documentation says that updates are applied before deletes. If all priorities are admitted, then one call leaves the same items, with the
same priorities, and the same counts as a call with the updates followed by one with the deletes, although the code deletes first. Missing: calls
with a priority that is not admitted, and what extensions see (`C91_order_is_false`). -/
theorem C91_order_partial (c : Config) (t : Table) (h : c.Reachable t) (updates : List (Key × Pri)) (deletes : List Key)
    (hp : ∀ u ∈ updates, c.admits u.2) :
    ∃ t1 t2 t', t.step (.mutate updates []) = (t1, .ok .done) ∧ t1.step (.mutate [] deletes) = (t2, .ok .done) ∧
      t.step (.mutate updates deletes) = (t', .ok .done) ∧ (∀ k, t'.get k = t2.get k) ∧
      t'.limiter.inserts = t2.limiter.inserts ∧ t'.limiter.samples = t2.limiter.samples := by
  obtain ⟨t1, h1, g1, i1, s1⟩ := C18_mutate c t h updates [] hp
  have hr : c.Reachable t1 := by
    have := h.step (op := .mutate updates []) hp
    rw [h1] at this
    exact this
  obtain ⟨t2, h2, g2, i2, s2⟩ := C18_mutate c t1 hr [] deletes (by simp)
  obtain ⟨t', h3, g3, i3, s3⟩ := C18_mutate c t h updates deletes hp
  refine ⟨t1, t2, t', h1, h2, h3, fun k => ?_, by rw [i3, i2, i1], by rw [s3, s2, s1]⟩
  rw [g3, g2, g1]
  simp [lastPriority]

/-- C91: what is to be deleted is deleted, also if the call fails because of a priority that is not admitted. -/
theorem C91_deletes (c : Config) (t : Table) (h : c.Reachable t) (updates : List (Key × Pri)) (deletes : List Key) (k : Key) (hk : k ∈ deletes) :
    (t.step (.mutate updates deletes)).1.get k = none := by
  obtain ⟨t1, h1, h2, h3, h4, h5⟩ := deleteAll_get deletes h.inv
  have : t1.get k = none := by rw [h3, if_pos hk]
  have := updateAll_absent updates t1 k this
  simp only [Table.step, Table.mutateItems, h1, Table.reply]
  split <;> exact this

/-- C91 does not hold in full. With updates first, a call whose update fails would delete nothing; here it fails and has deleted key 2. And a key that is in both lists is
reported to extensions as updated and deleted if the updates come first, here as deleted only. -/
theorem C91_order_is_false : ∃ t, demoCfg.Reachable t ∧
    decide ((t.step (.mutate [(1, .val (-1))] [])).2 = .err .invalidArgument ∧
      (t.step (.mutate [(1, .val (-1))] [2])).2 = .err .invalidArgument ∧ (t.get 2).isSome = true ∧
      (t.step (.mutate [(1, .val (-1))] [2])).1.get 2 = none ∧
      (t.step (.mutate [(1, .val 3)] [1])).1.log.length = t.log.length + 1 ∧
      ((t.step (.mutate [(1, .val 3)] [])).1.step (.mutate [] [1])).1.log.length = t.log.length + 2) = true :=
  Config.witness (demoOps.take 4) _ (fun op h => demo_ok op (List.mem_of_mem_take h)) (by decide +kernel)

/-- The hypotheses of C91 are met by a table with three items, one of them in both lists. -/
example : ∃ t, demoCfg.Reachable t ∧ decide (t.size = 3 ∧ (t.get 3).isSome = true ∧ (t.get 2).isSome = true ∧
    demoCfg.sampler.accept (.val 3) = true ∧ demoCfg.remover.accept (.val 3) = true ∧
    (t.step (.mutate [(2, .val 3), (3, .val 3)] [3])).1.size = 2) = true :=
  Config.witness (demoOps.take 4) _ (fun op h => demo_ok op (List.mem_of_mem_take h)) (by decide +kernel)

namespace Service

/-- The table after the call. -/
theorem unary_mutate {v : Service} {n : String} {us : List (Key × Pri)} {t t' : Table} (ht : v.tables.get? n = some t) (hs : t.step (.mutate us []) = (t', .ok .done)) :
    (v.unary (.mutate n us [])).1.tables.get? n = some t' ∧ (v.unary (.mutate n us [])).2 = none ∧ (v.unary (.mutate n us [])).1.dead = false := by
  simp [Service.unary, Unary.table, Unary.op, ht, hs, statusOf, AMap.get?_insert_self]

/-- The priorities as they are after the updates. -/
def Updated (us : List (Key × Pri)) (t t' : Table) : Prop :=
  ∀ k, t'.get k = match lastPriority us k with
    | some p => (t.get k).map fun it => { it with priority := p }
    | none => t.get k

/-- C92: when the op returns without an error, then the table is there and holds no item with another priority than the one last given for its key, whatever
other clients have done and however many attempts it took. -/
theorem C92_applied {w : Wire} {cfgs : AMap String Config} {evs : List Event} {rounds : List (List Event × Try)} {v v' : Service} {n : String}
    {keys : Vec Key} {ps : Vec Pri} (h0 : (Service.init (newTables cfgs)).run w evs = some v)
    (h : updateOp w n keys ps rounds v = some (v', .ret none))
    (ha : ∀ done, done <+: rounds → Admitted cfgs (evs ++ roundEvents n (keys.values.zip ps.values) done)) {c : Config} (hc : cfgs.get? n = some c) :
    ∃ t', v'.tables.get? n = some t' ∧ c.Reachable t' ∧
      ∀ k p, lastPriority (keys.values.zip ps.values) k = some p → ∀ it, t'.get k = some it → it.priority = p := by
  obtain ⟨done, hpre, hrun, hret⟩ := rounds_run (updateOp_ok h)
  obtain ⟨before, pre, v1, g1, g2, g3, g4⟩ := hret rfl
  have hadm := ha done hpre
  have hev : roundEvents n (keys.values.zip ps.values) done =
      (roundEvents n (keys.values.zip ps.values) before ++ pre) ++ [.unary (.mutate n (keys.values.zip ps.values) [])] := by
    rw [g1, roundEvents_append]
    simp [roundEvents, Try.reaches]
  rw [hev] at hadm
  have hrun1 : (Service.init (newTables cfgs)).run w (evs ++ (roundEvents n (keys.values.zip ps.values) before ++ pre)) = some v1 := by
    rw [run_append, h0]; exact g2
  rw [← List.append_assoc] at hadm
  obtain ⟨t, ht, hr⟩ := C90_reachable hrun1 g3 (hadm.prefix) hc
  have hp : ∀ u ∈ keys.values.zip ps.values, c.admits u.2 :=
    hadm.updates n _ [] (List.mem_append_right _ List.mem_cons_self) c hc
  obtain ⟨t', k1, k2, _⟩ := C18_mutate c t hr _ [] hp
  have := unary_mutate ht k1
  rw [g4] at this
  refine ⟨t', this.1, ?_, fun k p hl it hit => ?_⟩
  · have := hr.step (op := .mutate (keys.values.zip ps.values) []) hp
    rw [k1] at this
    exact this
  · rw [k2] at hit
    simp only [List.not_mem_nil, if_false, hl, Option.map_eq_some_iff] at hit
    obtain ⟨it0, _, rfl⟩ := hit
    rfl

/-- C92: an update that is applied again changes nothing. -/
theorem C92_idempotent (c : Config) (t : Table) (h : c.Reachable t) (us : List (Key × Pri)) (hp : ∀ u ∈ us, c.admits u.2) :
    ∃ t1 t2, t.step (.mutate us []) = (t1, .ok .done) ∧ t1.step (.mutate us []) = (t2, .ok .done) ∧ (∀ k, t2.get k = t1.get k) ∧
      t2.limiter.inserts = t.limiter.inserts ∧ t2.limiter.samples = t.limiter.samples := by
  obtain ⟨t1, h1, g1, i1, s1⟩ := C18_mutate c t h us [] hp
  have hr : c.Reachable t1 := by
    have := h.step (op := .mutate us []) hp
    rw [h1] at this
    exact this
  obtain ⟨t2, h2, g2, i2, s2⟩ := C18_mutate c t1 hr us [] hp
  refine ⟨t1, t2, h1, h2, fun k => ?_, by rw [i2, i1], by rw [s2, s1]⟩
  rw [g2, g1]
  simp only [List.not_mem_nil, if_false]
  cases lastPriority us k with
  | none => rfl
  | some p => cases t.get k <;> rfl

/-- Attempts without anybody else. -/
theorem quiet_rounds {w : Wire} {c : Config} {n : String} {us : List (Key × Pri)} (hp : ∀ u ∈ us, c.admits u.2) :
    ∀ {rounds : List (List Event × Try)} {v v' : Service}, updateRounds w n us rounds v = some (v', .ret none) → Quiet rounds →
    ∀ {t0 t : Table}, c.Reachable t → v.tables.get? n = some t → (∀ k, t.get k = t0.get k) ∨ Updated us t0 t →
    ∃ t', v'.tables.get? n = some t' ∧ Updated us t0 t' ∧ ∀ m, m ≠ n → v'.tables.get? m = v.tables.get? m := by
  intro rounds
  induction rounds with
  | nil => intro v v' h; cases h
  | cons x rounds ih =>
    intro v v' h hq t0 t hr ht hrel
    obtain ⟨pre, a⟩ := x
    have hpre : pre = [] := hq (pre, a) List.mem_cons_self
    subst hpre
    have hq' : Quiet rounds := fun y hy => hq y (List.mem_cons_of_mem _ hy)
    obtain ⟨t', k1, k2, _⟩ := C18_mutate c t hr us [] hp
    have hu := unary_mutate ht k1
    have hr' : c.Reachable t' := by
      have := hr.step (op := .mutate us []) hp
      rw [k1] at this
      exact this
    have hupd : Updated us t0 t' := by
      intro k
      rw [k2]
      simp only [List.not_mem_nil, if_false]
      rcases hrel with hrel | hrel
      · rw [hrel]
        cases lastPriority us k <;> rfl
      · rw [hrel]
        cases lastPriority us k with
        | none => rfl
        | some p => cases t0.get k <;> rfl
    have hstep : ∀ {v2}, v.step w (.unary (.mutate n us [])) = some v2 → v2 = (v.unary (.mutate n us [])).1 := by
      intro v2 hs
      simp only [Service.step] at hs
      split at hs
      · cases hs
      · cases hs; rfl
    have hoth := (C90_unary v (.mutate n us [])).2.2.1
    simp only [updateRounds, Service.run] at h
    cases a with
    | lost c =>
      simp only at h
      split at h
      · exact ih h hq' hr ht hrel
      · cases h
    | unanswered c =>
      simp only at h
      split at h
      · cases h
      · rename_i v2 hs
        split at h
        · rw [hstep hs] at h
          obtain ⟨t2, q1, q2, q3⟩ := ih h hq' hr' hu.1 (.inr hupd)
          exact ⟨t2, q1, q2, fun m hm => (q3 m hm).trans (hoth m hm)⟩
        · cases h
    | answered =>
      simp only at h
      split at h
      · cases h
      · rename_i v2 hs
        split at h
        · cases h
        split at h
        · rw [hstep hs] at h
          obtain ⟨t2, q1, q2, q3⟩ := ih h hq' hr' hu.1 (.inr hupd)
          exact ⟨t2, q1, q2, fun m hm => (q3 m hm).trans (hoth m hm)⟩
        · have hv : v2 = v' := congrArg Prod.fst (Option.some.inj h)
          rw [← hv, hstep hs]
          exact ⟨t', hu.1, hupd, hoth⟩

/-- C92 (partial): if nobody else does anything on the server during the call, then a call that returns without an error has had the effect of one update, however
many attempts it took and however many of them got to the server; no other table has changed. Missing: with other clients this does not
hold, see `C92_once_is_false`. -/
theorem C92_once_partial {w : Wire} {cfgs : AMap String Config} {evs : List Event} {rounds : List (List Event × Try)} {v v' : Service} {n : String}
    {keys : Vec Key} {ps : Vec Pri} (h0 : (Service.init (newTables cfgs)).run w evs = some v) (hd : v.dead = false) (ha : Admitted cfgs evs)
    {c : Config} (hc : cfgs.get? n = some c) (hp : ∀ p ∈ ps.values, c.admits p) (hq : Quiet rounds)
    (h : updateOp w n keys ps rounds v = some (v', .ret none)) :
    ∃ t t', v.tables.get? n = some t ∧ v'.tables.get? n = some t' ∧ Updated (keys.values.zip ps.values) t t' ∧
      ∀ m, m ≠ n → v'.tables.get? m = v.tables.get? m := by
  obtain ⟨t, ht, hr⟩ := C90_reachable h0 hd ha hc
  obtain ⟨t', h1, h2, h3⟩ := quiet_rounds (c := c) (fun u hu => hp _ (List.of_mem_zip hu).2) (updateOp_ok h) hq hr ht (.inl fun _ => rfl)
  exact ⟨t, t', ht, h1, h2, h3⟩

/-- C92: tensors that are not of rank 1 or differ in shape are refused before anything is sent. -/
theorem C92_shapes {w : Wire} {n : String} {keys : Vec Key} {ps : Vec Pri} {rounds : List (List Event × Try)} {v : Service}
    (h : keys.shape.length ≠ 1 ∨ keys.shape ≠ ps.shape) : updateOp w n keys ps rounds v = some (v, .ret (some .invalidArgument)) := by
  unfold updateOp
  split
  · rfl
  · rename_i h1
    rw [if_pos (h.resolve_left h1)]

/-- C92: connection errors for which the op tries again do not come out of it. -/
theorem C92_errors {w : Wire} {n : String} {keys : Vec Key} {ps : Vec Pri} {rounds : List (List Event × Try)} {v v' : Service} {c : Code}
    (h : updateOp w n keys ps rounds v = some (v', .ret (some c))) : c ≠ .unavailable ∧ c ≠ .deadlineExceeded := by
  unfold updateOp at h
  split at h
  · cases h; decide
  · split at h
    · cases h; decide
    · exact rounds_err h

end Service

namespace UpdateDemo
open Service (Event)

/-- One item, key 1, in table "a". -/
def evs : List Event := [.insert (.start 0), .insert (.request 0 (InsertDemo.req 1 10 "a" [10] true)), .insert (.insert 0 1 (draw 0))]

/-- The call sets the priority of key 1 to 5. The first attempt gets to the server, but the answer is lost; another client sets the priority to 9; then the second attempt is answered. -/
def late : List (List Event × Try) := [([], .unanswered .unavailable), ([.unary (.mutate "a" [(1, .val 9)] [])], .answered)]

def prio (v : Service) : Option Pri := ((v.tables.get? "a").bind fun t => t.get 1).map Item.priority

end UpdateDemo

/-- C92 does not hold in full: the update is applied a second time and undoes that of another client that came after the first time. -/
theorem Service.C92_once_is_false : ∃ v1 v, (Service.init (newTables IsolationDemo.cfgs)).run SampleDemo.wire UpdateDemo.evs = some v1 ∧
    ∃ r, updateOp SampleDemo.wire "a" ⟨[1], [1]⟩ ⟨[1], [.val 5]⟩ UpdateDemo.late v1 = some (v, r) ∧ r = .ret none ∧ UpdateDemo.prio v = some (.val 5) ∧
    ((v1.unary (.mutate "a" [(1, .val 5)] [])).1.unary (.mutate "a" [(1, .val 9)] [])).1.tables.get? "a" ≠ none ∧
    UpdateDemo.prio ((v1.unary (.mutate "a" [(1, .val 5)] [])).1.unary (.mutate "a" [(1, .val 9)] [])).1 = some (.val 9) := by
  have h : ((Service.init (newTables IsolationDemo.cfgs)).run SampleDemo.wire UpdateDemo.evs).any (fun v1 =>
      (updateOp SampleDemo.wire "a" ⟨[1], [1]⟩ ⟨[1], [.val 5]⟩ UpdateDemo.late v1).any (fun x => decide (x.2 = .ret none ∧ UpdateDemo.prio x.1 = some (.val 5) ∧
        UpdateDemo.prio ((v1.unary (.mutate "a" [(1, .val 5)] [])).1.unary (.mutate "a" [(1, .val 9)] [])).1 = some (.val 9)))) = true := by decide +kernel
  rw [Option.any_eq_true] at h
  obtain ⟨v1, hv, h⟩ := h
  rw [Option.any_eq_true] at h
  obtain ⟨x, hx, h⟩ := h
  simp only [decide_eq_true_eq] at h
  refine ⟨v1, x.1, hv, x.2, hx, h.1, h.2.1, fun e => ?_, h.2.2⟩
  have := h.2.2
  simp [UpdateDemo.prio, e] at this

/-- The hypotheses of C92 are met: two attempts whose answers are lost, one that is lost, then an answer; the priority is as it was asked for. -/
theorem UpdateDemo.demo : ∃ v1, (Service.init (newTables IsolationDemo.cfgs)).run SampleDemo.wire UpdateDemo.evs = some v1 ∧ v1.dead = false ∧
    ∃ x, updateOp SampleDemo.wire "a" ⟨[2], [1, 1]⟩ ⟨[2], [.val 4, .val 5]⟩
      [([], .unanswered .unavailable), ([], .lost .deadlineExceeded), ([], .unanswered .unavailable), ([], .answered)] v1 = some x ∧
      x.2 = .ret none ∧ UpdateDemo.prio x.1 = some (.val 5) ∧ UpdateDemo.prio v1 ≠ some (.val 5) := by
  have h : ((Service.init (newTables IsolationDemo.cfgs)).run SampleDemo.wire UpdateDemo.evs).any (fun v1 => decide (v1.dead = false) &&
      (updateOp SampleDemo.wire "a" ⟨[2], [1, 1]⟩ ⟨[2], [.val 4, .val 5]⟩
      [([], .unanswered .unavailable), ([], .lost .deadlineExceeded), ([], .unanswered .unavailable), ([], .answered)] v1).any (fun x =>
        decide (x.2 = .ret none ∧ UpdateDemo.prio x.1 = some (.val 5) ∧ UpdateDemo.prio v1 ≠ some (.val 5)))) = true := by decide +kernel
  rw [Option.any_eq_true] at h
  obtain ⟨v1, hv, h⟩ := h
  rw [Bool.and_eq_true, Option.any_eq_true] at h
  obtain ⟨hd, x, hx, h⟩ := h
  simp only [decide_eq_true_eq] at h hd
  exact ⟨v1, hv, hd, x, hx, h⟩

end Verif
