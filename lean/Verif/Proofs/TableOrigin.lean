import Verif.Proofs.TableGrow
import Verif.Model.SampleReq
import Verif.Spec.Choice
/-
Whatever happens to a table, what does not change of an item (its key, trajectory and chunks) is as it was when the item was inserted;
and samples are of items of the table.
-/
namespace Verif

/-- The predicate looks at the key, the trajectory and the chunks of an item only. -/
def StableOn (P : Item → Prop) : Prop := ∀ a b : Item, a.key = b.key → a.traj = b.traj → a.chunks = b.chunks → P a → P b

namespace Table

/-- All items satisfy the predicate. -/
def AllOf (P : Item → Prop) (t : Table) : Prop := ∀ k it, t.data.get? k = some it → P it

theorem AllOf.set {P : Item → Prop} {t t' : Table} {k : Key} {it : Item} (h : AllOf P t) (e : t'.data = t.data.insert k it) (hk : P it) :
    AllOf P t' := fun k' it' g => by
  rw [e, AMap.get?_insert] at g
  split at g
  · cases g; exact hk
  · exact h k' it' g

theorem AllOf.same {P : Item → Prop} {t t' : Table} (h : AllOf P t) (e : t'.data = t.data) : AllOf P t' := fun k it g => h k it (e ▸ g)

theorem deleteItem_allOf {P : Item → Prop} {t : Table} (h : AllOf P t) (k : Key) : AllOf P (t.deleteItem k).1 := by
  have key : ∀ t' : Table, t'.data = t.data.erase k → AllOf P t' := fun t' e k' it g => by
    rw [e, AMap.get?_erase] at g
    split at g
    · cases g
    · exact h k' it g
  unfold deleteItem
  split
  · exact h
  · split
    · exact h
    · simp only
      split <;> exact key _ rfl

theorem updateItem_allOf {P : Item → Prop} (hP : StableOn P) {t : Table} (h : AllOf P t) (k : Key) (p : Pri) : AllOf P (t.updateItem k p).1 := by
  unfold updateItem
  split
  · exact h
  · rename_i it he
    have hv : P { it with priority := p } := hP it _ rfl rfl rfl (h k it he)
    simp only
    split
    · split
      · exact h.set rfl hv
      · exact h.set rfl hv
    · exact h.set rfl hv

theorem insertNew_allOf {P : Item → Prop} (hP : StableOn P) {t : Table} (h : AllOf P t) {i : Item} (hi : P i) (now : Int) (d : Draw) :
    AllOf P (t.insertNew i now d).1 := by
  have hv : P { i with insertedAt := now } := hP i _ rfl rfl rfl hi
  unfold insertNew
  simp only
  split
  · split
    · split
      · split
        · rename_i v _ _
          have := deleteItem_allOf (t := { t with
            data := t.data.insert i.key { i with insertedAt := now }
            sampler := (t.sampler.apply (.insert i.key i.priority)).1
            remover := (t.remover.apply (.insert i.key i.priority)).1
            log := t.log ++ [ExtEvent.insert { i with insertedAt := now }]
            episodeRefs := incRefs t.episodeRefs i.chunks }) (h.set rfl hv) v
          split
          · exact this
          · exact this
        · exact h.set rfl hv
        · exact h.set rfl hv
      · exact h.set rfl hv
    · exact h.set rfl hv
  · exact h.set rfl hv

theorem insertResume_allOf {P : Item → Prop} (hP : StableOn P) {t : Table} (h : AllOf P t) {i : Item} (hi : P i) (now : Int) (d : Draw) :
    AllOf P (t.insertResume i now d).1 := by
  unfold insertResume
  split
  · exact h
  · exact h
  · split <;> rw [reply_fst]
    · exact updateItem_allOf hP h _ _
    · exact insertNew_allOf hP h hi _ _

theorem deleteAll_allOf {P : Item → Prop} : ∀ (ks : List Key) (t : Table), AllOf P t → AllOf P (t.deleteAll ks).1
  | [], _, h => h
  | k :: ks, t, h => by
    simp only [deleteAll]
    split
    · exact deleteAll_allOf ks _ (deleteItem_allOf h _)
    · exact deleteItem_allOf h _

theorem updateAll_allOf {P : Item → Prop} (hP : StableOn P) : ∀ (us : List (Key × Pri)) (t : Table), AllOf P t → AllOf P (t.updateAll us).1
  | [], _, h => h
  | u :: us, t, h => by
    simp only [updateAll]
    split
    · exact updateAll_allOf hP us _ (updateItem_allOf hP h _ _)
    · exact updateItem_allOf hP h _ _

theorem sampleOne_allOf {P : Item → Prop} (hP : StableOn P) {t : Table} (h : AllOf P t) (b : Bool) (d : Draw) :
    AllOf P (t.sampleOne b d).1 ∧ ∀ s, (t.sampleOne b d).2 = .ok s → P s.item := by
  unfold sampleOne
  split
  · exact ⟨h, fun s hs => by cases hs⟩
  · exact ⟨h, fun s hs => by cases hs⟩
  · split
    · exact ⟨h, fun s hs => by cases hs⟩
    · rename_i k _ _ _ it he
      have hv : P { it with timesSampled := it.timesSampled + 1 } := hP it _ rfl rfl rfl (h k it he)
      have : AllOf P { t with
          numUniqueSamples := if it.timesSampled = 0 then t.numUniqueSamples + 1 else t.numUniqueSamples
          data := t.data.insert k { it with timesSampled := it.timesSampled + 1 }
          log := t.log ++ [ExtEvent.sample { it with timesSampled := it.timesSampled + 1 }] } := h.set rfl hv
      simp only
      split
      · have g := deleteItem_allOf this it.key
        split
        · exact ⟨g, fun s hs => by cases hs; exact hv⟩
        · exact ⟨g, fun s hs => by cases hs⟩
        · exact ⟨g, fun s hs => by cases hs⟩
      · exact ⟨this, fun s hs => by cases hs; exact hv⟩

theorem sampleMore_allOf {P : Item → Prop} (hP : StableOn P) (b : Bool) : ∀ (n : Nat) (t : Table) (acc : List Sampled) (ds : Nat → Draw),
    AllOf P t → (∀ s ∈ acc, P s.item) →
    AllOf P (t.sampleMore b acc n ds).1 ∧ ∀ l, (t.sampleMore b acc n ds).2 = .ok l → ∀ s ∈ l, P s.item
  | 0, t, acc, ds, h, ha => ⟨h, fun l hl => by cases hl; exact ha⟩
  | n + 1, t, acc, ds, h, ha => by
    simp only [sampleMore]
    split
    · exact ⟨h, fun l hl => by cases hl; exact ha⟩
    · rename_i lm _
      obtain ⟨g1, g2⟩ := sampleOne_allOf hP (t := { t with limiter := lm }) (h.same rfl) b (ds 0)
      split
      · rename_i s hs
        refine sampleMore_allOf hP b n _ (acc ++ [s]) (fun i => ds (i + 1)) g1 fun x hx => ?_
        rcases List.mem_append.mp hx with hx | hx
        · exact ha x hx
        · rw [List.mem_singleton.mp hx]; exact g2 s hs
      · exact ⟨g1, fun l hl => by cases hl⟩
      · exact ⟨g1, fun l hl => by cases hl⟩

/-- The items of the table and those of the answer. -/
def Fine (P : Item → Prop) (r : Table × Res Reply) : Prop := AllOf P r.1 ∧ ∀ l, r.2 = .ok (.samples l) → ∀ s ∈ l, P s.item

theorem sampleLoop_fine {P : Item → Prop} (hP : StableOn P) {t : Table} (h : AllOf P t) (b : Bool) (n : Nat) (ds : Nat → Draw) :
    Fine P (t.sampleLoop b n ds) := by
  unfold sampleLoop
  simp only
  obtain ⟨g1, g2⟩ := sampleOne_allOf hP h b (ds 0)
  split
  · rename_i s hs
    obtain ⟨h1, h2⟩ := sampleMore_allOf hP b (n - 1) _ [s] (fun i => ds (i + 1)) g1 (fun x hx => by rw [List.mem_singleton.mp hx]; exact g2 s hs)
    split
    · rename_i l hl
      exact ⟨h1, fun l' hl' => by cases hl'; exact h2 l hl⟩
    · exact ⟨h1, fun l hl => by cases hl⟩
    · exact ⟨h1, fun l hl => by cases hl⟩
  · exact ⟨g1, fun l hl => by cases hl⟩
  · exact ⟨g1, fun l hl => by cases hl⟩

theorem sampleResume_fine {P : Item → Prop} (hP : StableOn P) {t : Table} (h : AllOf P t) (n : Nat) (ds : Nat → Draw) :
    Fine P (t.step (.sampleResume n ds)) := by
  simp only [step, sampleResume]
  split
  · exact ⟨h, fun l hl => by cases hl⟩
  · exact ⟨h, fun l hl => by cases hl⟩
  · refine sampleLoop_fine hP ?_ _ _ _
    exact h.same rfl

theorem sample_fine {P : Item → Prop} (hP : StableOn P) {t : Table} (h : AllOf P t) (n : Nat) (ds : Nat → Draw) :
    Fine P (t.step (.sample n ds)) := by
  simp only [step, sampleBatch]
  split
  · refine sampleLoop_fine hP ?_ _ _ _
    exact h.same rfl
  · exact sampleResume_fine hP h n ds

/-- All critical sections. -/
theorem step_fine {P : Item → Prop} (hP : StableOn P) {t : Table} {op : Op} (h : AllOf P t) (ho : ∀ i now, Op.item op = some (i, now) → P i) :
    AllOf P (t.step op).1 ∧ ∀ l, (t.step op).2 = .ok (.samples l) → (∃ n ds, op = .sample n ds ∨ op = .sampleResume n ds) → ∀ s ∈ l, P s.item := by
  cases op with
  | insert i now d =>
    refine ⟨?_, fun l _ ⟨_, _, e⟩ => by simp at e⟩
    simp only [step, insertOrAssign]
    split
    · exact h
    · split
      · rw [reply_fst]; exact updateItem_allOf hP h _ _
      · exact insertResume_allOf hP h (ho i now rfl) _ _
  | insertResume i now d => exact ⟨insertResume_allOf hP h (ho i now rfl) _ _, fun l _ ⟨_, _, e⟩ => by simp at e⟩
  | workerInsert i now d =>
    refine ⟨?_, fun l _ ⟨_, _, e⟩ => by simp at e⟩
    simp only [step, workerInsert]
    split
    · rw [reply_fst]
      unfold insertInternal
      split
      · exact updateItem_allOf hP (h.same rfl) _ _
      · exact insertNew_allOf hP (h.same rfl) (ho i now rfl) _ _
    · exact h
  | mutate us ds =>
    refine ⟨?_, fun l _ ⟨_, _, e⟩ => by simp at e⟩
    simp only [step, mutateItems]
    split
    · rw [reply_fst]; exact updateAll_allOf hP _ _ (deleteAll_allOf _ _ h)
    · exact deleteAll_allOf _ _ h
    · exact deleteAll_allOf _ _ h
  | sample n ds => exact ⟨(sample_fine hP h n ds).1, fun l hl _ => (sample_fine hP h n ds).2 l hl⟩
  | sampleResume n ds => exact ⟨(sampleResume_fine hP h n ds).1, fun l hl _ => (sampleResume_fine hP h n ds).2 l hl⟩
  | workerSample b d =>
    refine ⟨?_, fun l _ ⟨_, _, e⟩ => by simp at e⟩
    simp only [step, workerSample]
    split
    · exact h
    · rename_i l _
      have g := (sampleOne_allOf hP (t := { t with limiter := l }) (h.same rfl) b d).1
      split <;> exact g
  | reset => exact ⟨fun k it g => by simp [step, reset] at g, fun l _ ⟨_, _, e⟩ => by simp at e⟩
  | close => exact ⟨h.same rfl, fun l _ ⟨_, _, e⟩ => by simp at e⟩

end Table
end Verif
