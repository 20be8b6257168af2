import Verif.Model.Checkpoint
/-
The notifications of a table are only ever added to, whatever state it is in.
-/
namespace Verif.Table

theorem deleteItem_log (t : Table) (k : Key) : t.log <+: (t.deleteItem k).1.log := by
  unfold deleteItem
  split
  · exact List.prefix_refl _
  · split
    · exact List.prefix_refl _
    · simp only
      split <;> exact List.prefix_append _ _

theorem deleteItem_log' {t u : Table} {es : List ExtEvent} (h : u.log = t.log ++ es) (k : Key) : t.log <+: (u.deleteItem k).1.log :=
  List.IsPrefix.trans ⟨es, h.symm⟩ (deleteItem_log u k)

theorem updateItem_log (t : Table) (k : Key) (p : Pri) : t.log <+: (t.updateItem k p).1.log := by
  unfold updateItem
  split
  · exact List.prefix_refl _
  · simp only
    split
    · split
      · exact List.prefix_append _ _
      · exact List.prefix_refl _
    · exact List.prefix_refl _

theorem insertNew_log (t : Table) (i : Item) (now : Int) (d : Draw) : t.log <+: (t.insertNew i now d).1.log := by
  unfold insertNew
  simp only
  split
  · split
    · split
      · split
        · split
          · exact deleteItem_log' rfl _
          · exact deleteItem_log' rfl _
        · exact List.prefix_append _ _
        · exact List.prefix_append _ _
      · exact List.prefix_append _ _
    · exact List.prefix_refl _
  · exact List.prefix_refl _

theorem reply_log (r : Table × Res Unit) : (reply r).1 = r.1 := by unfold reply; split <;> rfl

theorem deleteAll_log (ks : List Key) : ∀ t : Table, t.log <+: (t.deleteAll ks).1.log := by
  induction ks with
  | nil => intro t; exact List.prefix_refl _
  | cons k ks ih =>
    intro t
    simp only [deleteAll]
    split
    · exact (deleteItem_log t k).trans (ih _)
    · exact deleteItem_log t k

theorem updateAll_log (us : List (Key × Pri)) : ∀ t : Table, t.log <+: (t.updateAll us).1.log := by
  induction us with
  | nil => intro t; exact List.prefix_refl _
  | cons u us ih =>
    intro t
    simp only [updateAll]
    split
    · exact (updateItem_log t _ _).trans (ih _)
    · exact updateItem_log t _ _

theorem sampleOne_log (t : Table) (rl : Bool) (d : Draw) : t.log <+: (t.sampleOne rl d).1.log := by
  unfold sampleOne
  split
  · exact List.prefix_refl _
  · exact List.prefix_refl _
  · split
    · exact List.prefix_refl _
    · simp only
      split
      · split <;> exact deleteItem_log' rfl _
      · exact List.prefix_append _ _

theorem sampleMore_log (n : Nat) : ∀ (t : Table) (rl : Bool) (acc : List Sampled) (ds : Nat → Draw),
    t.log <+: (t.sampleMore rl acc n ds).1.log := by
  induction n with
  | zero => intro t rl acc ds; exact List.prefix_refl _
  | succ n ih =>
    intro t rl acc ds
    simp only [sampleMore]
    split
    · exact List.prefix_refl _
    · rename_i l _
      have h := sampleOne_log { t with limiter := l } rl (ds 0)
      split
      · exact h.trans (ih _ _ _ _)
      · exact h
      · exact h

theorem sampleLoop_log (t : Table) (rl : Bool) (n : Nat) (ds : Nat → Draw) : t.log <+: (t.sampleLoop rl n ds).1.log := by
  have h := sampleOne_log t rl (ds 0)
  unfold sampleLoop
  simp only
  split
  · split <;> exact h.trans (sampleMore_log _ _ _ _ _)
  · exact h
  · exact h

theorem insertResume_log (t : Table) (i : Item) (now : Int) (d : Draw) : t.log <+: (t.insertResume i now d).1.log := by
  unfold insertResume
  split
  · exact List.prefix_refl _
  · exact List.prefix_refl _
  · split
    · rw [reply_log]; exact updateItem_log _ _ _
    · rw [reply_log]; exact insertNew_log _ _ _ _

theorem sampleResume_log (t : Table) (n : Nat) (ds : Nat → Draw) : t.log <+: (t.sampleResume n ds).1.log := by
  unfold sampleResume
  split
  · exact List.prefix_refl _
  · exact List.prefix_refl _
  · exact sampleLoop_log { t with limiter := { t.limiter with samples := t.limiter.samples + 1 } } _ _ _

theorem step_log (t : Table) (op : Op) : t.log <+: (t.step op).1.log := by
  cases op with
  | insert i now d =>
    simp only [step, insertOrAssign]
    split
    · exact List.prefix_refl _
    · split
      · rw [reply_log]; exact updateItem_log _ _ _
      · exact insertResume_log _ _ _ _
  | insertResume i now d => exact insertResume_log _ _ _ _
  | workerInsert i now d =>
    simp only [step, workerInsert, insertInternal]
    split
    · rw [reply_log]
      split
      · exact updateItem_log _ _ _
      · exact insertNew_log _ _ _ _
    · exact List.prefix_refl _
  | mutate us ds =>
    simp only [step, mutateItems]
    have h := deleteAll_log ds t
    split
    · rw [reply_log]; exact h.trans (updateAll_log _ _)
    · exact h
    · exact h
  | sample n ds =>
    simp only [step, sampleBatch]
    split
    · rename_i l _
      exact sampleLoop_log { t with limiter := l } _ _ _
    · exact sampleResume_log _ _ _
  | sampleResume n ds => exact sampleResume_log _ _ _
  | workerSample rl d =>
    simp only [step, workerSample]
    split
    · exact List.prefix_refl _
    · rename_i l _
      have h := sampleOne_log { t with limiter := l } rl d
      split <;> exact h
  | reset => exact List.prefix_append _ _
  | close => exact List.prefix_refl _

end Verif.Table
