import Verif.Spec.InsertService
/-
The log of a table only grows, and a successful insert adds an entry for the item.
-/
namespace Verif
namespace Table

/-- Items are stored under their keys. -/
def Keyed (t : Table) : Prop := ∀ k it, t.data.get? k = some it → it.key = k

/-- What all operations have in common. -/
structure Grows (t t' : Table) : Prop where
  log : t.log <+: t'.log
  keyed : t.Keyed → t'.Keyed

theorem Grows.rfl {t : Table} : Grows t t := ⟨List.prefix_rfl, id⟩

theorem Grows.trans {a b c : Table} (h : Grows a b) (g : Grows b c) : Grows a c := ⟨h.log.trans g.log, g.keyed ∘ h.keyed⟩

/-- Same items. -/
theorem Grows.same {t t' : Table} (h : t.log <+: t'.log) (e : t'.data = t.data) : Grows t t' := ⟨h, fun g k it hk => g k it (e ▸ hk)⟩

/-- An item is stored. -/
theorem Grows.store {t t' : Table} (h : t.log <+: t'.log) {k : Key} {it : Item} (e : t'.data = t.data.insert k it) (hk : t.Keyed → it.key = k) :
    Grows t t' := by
  refine ⟨h, fun g k' it' he => ?_⟩
  rw [e, AMap.get?_insert] at he
  split at he
  · cases he; subst_vars; exact hk g
  · exact g _ _ he

theorem deleteItem_grows (t : Table) (k : Key) : Grows t (t.deleteItem k).1 := by
  unfold deleteItem
  split
  · exact .rfl
  · split
    · exact .rfl
    · have : ∀ t' : Table, t.log <+: t'.log → t'.data = t.data.erase k → Grows t t' := fun t' hl hd => ⟨hl, fun g k' it' he => by
        rw [hd, AMap.get?_erase] at he
        split at he
        · cases he
        · exact g _ _ he⟩
      simp only
      split <;> exact this _ (List.prefix_append _ _) rfl

theorem updateItem_grows (t : Table) (k : Key) (p : Pri) : Grows t (t.updateItem k p).1 := by
  unfold updateItem
  split
  · exact .rfl
  · rename_i it he
    simp only
    split
    · split
      · exact .store (List.prefix_append _ _) _root_.rfl fun g => g k it he
      · exact .store List.prefix_rfl _root_.rfl fun g => g k it he
    · exact .store List.prefix_rfl _root_.rfl fun g => g k it he

theorem deleteItem_grows_of {t t1 : Table} (h : Grows t t1) (k : Key) : Grows t (t1.deleteItem k).1 := h.trans (deleteItem_grows t1 k)

theorem deleteItem_log_of {l : List ExtEvent} {t1 : Table} (h : l <+: t1.log) (k : Key) : l <+: (t1.deleteItem k).1.log :=
  h.trans (deleteItem_grows t1 k).log

theorem insertNew_grows (t : Table) (i : Item) (now : Int) (d : Draw) : Grows t (t.insertNew i now d).1 := by
  unfold insertNew
  simp only
  split
  · split
    · split
      · split
        · rename_i v _ _
          have := deleteItem_grows_of (t := t) (t1 := { t with
            data := t.data.insert i.key { i with insertedAt := now }
            sampler := (t.sampler.apply (.insert i.key i.priority)).1
            remover := (t.remover.apply (.insert i.key i.priority)).1
            log := t.log ++ [ExtEvent.insert { i with insertedAt := now }]
            episodeRefs := incRefs t.episodeRefs i.chunks }) (.store (List.prefix_append _ _) _root_.rfl fun _ => _root_.rfl) v
          split
          · exact ⟨this.log, this.keyed⟩
          · exact this
        · exact .store (List.prefix_append _ _) _root_.rfl fun _ => _root_.rfl
        · exact .store (List.prefix_append _ _) _root_.rfl fun _ => _root_.rfl
      · exact .store (List.prefix_append _ _) _root_.rfl fun _ => _root_.rfl
    · exact .store List.prefix_rfl _root_.rfl fun _ => _root_.rfl
  · exact .store List.prefix_rfl _root_.rfl fun _ => _root_.rfl

theorem reply_fst (r : Table × Res Unit) : (reply r).1 = r.1 := by
  unfold reply
  split <;> rfl

theorem reply_done {r : Table × Res Unit} (h : (reply r).2 = .ok .done) : r.2 = .ok () := by
  unfold reply at h
  split at h <;> simp_all

theorem insertResume_grows (t : Table) (i : Item) (now : Int) (d : Draw) : Grows t (t.insertResume i now d).1 := by
  unfold insertResume
  split
  · exact .rfl
  · exact .rfl
  · split <;> rw [reply_fst]
    · exact updateItem_grows _ _ _
    · exact insertNew_grows _ _ _ _

theorem insertOrAssign_grows (t : Table) (i : Item) (now : Int) (d : Draw) : Grows t (t.insertOrAssign i now d).1 := by
  unfold insertOrAssign
  split
  · exact .rfl
  · split
    · rw [reply_fst]; exact updateItem_grows _ _ _
    · exact insertResume_grows _ _ _ _

theorem workerInsert_grows (t : Table) (i : Item) (now : Int) (d : Draw) : Grows t (t.workerInsert i now d).1 := by
  unfold workerInsert
  split
  · rw [reply_fst]
    unfold insertInternal
    split
    · exact updateItem_grows _ _ _
    · exact insertNew_grows _ _ _ _
  · exact .rfl

theorem deleteAll_grows : ∀ (ks : List Key) (t : Table), Grows t (t.deleteAll ks).1
  | [], t => .rfl
  | k :: ks, t => by
    simp only [deleteAll]
    split
    · exact (deleteItem_grows _ _).trans (deleteAll_grows ks _)
    · exact deleteItem_grows _ _

theorem updateAll_grows : ∀ (us : List (Key × Pri)) (t : Table), Grows t (t.updateAll us).1
  | [], t => .rfl
  | u :: us, t => by
    simp only [updateAll]
    split
    · exact (updateItem_grows _ _ _).trans (updateAll_grows us _)
    · exact updateItem_grows _ _ _

theorem mutateItems_grows (t : Table) (us : List (Key × Pri)) (ds : List Key) : Grows t (t.mutateItems us ds).1 := by
  unfold mutateItems
  simp only
  split
  · rw [reply_fst]; exact (deleteAll_grows _ _).trans (updateAll_grows _ _)
  · exact deleteAll_grows _ _
  · exact deleteAll_grows _ _

theorem sampleOne_grows (t : Table) (b : Bool) (d : Draw) : Grows t (t.sampleOne b d).1 := by
  unfold sampleOne
  split
  · exact .rfl
  · exact .rfl
  · split
    · exact .rfl
    · rename_i k _ _ _ it he
      have : Grows t { t with
          numUniqueSamples := if it.timesSampled = 0 then t.numUniqueSamples + 1 else t.numUniqueSamples
          data := t.data.insert k { it with timesSampled := it.timesSampled + 1 }
          log := t.log ++ [ExtEvent.sample { it with timesSampled := it.timesSampled + 1 }] } :=
        .store (List.prefix_append _ _) _root_.rfl fun g => g k it he
      simp only
      split
      · have := deleteItem_grows_of this it.key
        split <;> exact this
      · exact this

theorem grows_limiter (t : Table) (l : Limiter) : Grows t { t with limiter := l } := .same List.prefix_rfl _root_.rfl

theorem sampleMore_grows (b : Bool) : ∀ (n : Nat) (t : Table) (acc : List Sampled) (ds : Nat → Draw),
    Grows t (t.sampleMore b acc n ds).1
  | 0, t, acc, ds => .rfl
  | n + 1, t, acc, ds => by
    simp only [sampleMore]
    split
    · exact .rfl
    · rename_i l _
      have h := (grows_limiter t l).trans (sampleOne_grows { t with limiter := l } b (ds 0))
      split
      · exact h.trans (sampleMore_grows b n _ _ _)
      · exact h
      · exact h

theorem sampleLoop_grows (t : Table) (b : Bool) (n : Nat) (ds : Nat → Draw) : Grows t (t.sampleLoop b n ds).1 := by
  unfold sampleLoop
  simp only
  have h := sampleOne_grows t b (ds 0)
  split
  · split <;> exact h.trans (sampleMore_grows _ _ _ _ _)
  · exact h
  · exact h

theorem sampleResume_grows (t : Table) (n : Nat) (ds : Nat → Draw) : Grows t (t.sampleResume n ds).1 := by
  unfold sampleResume
  split
  · exact .rfl
  · exact .rfl
  · exact (grows_limiter t _).trans (sampleLoop_grows { t with limiter := { t.limiter with samples := t.limiter.samples + 1 } } _ _ _)

/-- The log only grows, and items stay under their keys. -/
theorem step_grows (t : Table) (op : Op) : Grows t (t.step op).1 := by
  cases op with
  | insert i now d => exact insertOrAssign_grows _ _ _ _
  | insertResume i now d => exact insertResume_grows _ _ _ _
  | workerInsert i now d => exact workerInsert_grows _ _ _ _
  | mutate us ds => exact mutateItems_grows _ _ _
  | sample n ds =>
    simp only [step, sampleBatch]
    split
    · rename_i l _
      exact (grows_limiter t l).trans (sampleLoop_grows { t with limiter := l } _ _ _)
    · exact sampleResume_grows _ _ _
  | sampleResume n ds => exact sampleResume_grows _ _ _
  | workerSample b d =>
    simp only [step, workerSample]
    split
    · exact .rfl
    · rename_i l _
      have h := (grows_limiter t l).trans (sampleOne_grows { t with limiter := l } b d)
      split <;> exact h
  | reset => exact ⟨List.prefix_append _ _, fun _ k it h => by simp [step, reset] at h⟩
  | close => exact .same List.prefix_rfl _root_.rfl

theorem writesOf_mono {t t' : Table} (h : t.log <+: t'.log) (k : Key) : t.writesOf k ≤ t'.writesOf k := by
  obtain ⟨l, h⟩ := h
  simp [writesOf, ← h]

theorem writesOf_snoc {t t' : Table} {e : ExtEvent} (h : t.log ++ [e] <+: t'.log) {k : Key} (he : e.writes k = true) :
    t.writesOf k + 1 ≤ t'.writesOf k := by
  obtain ⟨l, h⟩ := h
  simp only [writesOf, ← h, List.countP_append, List.countP_cons, he, List.countP_nil, if_true]
  omega

theorem updateItem_writes {t : Table} {k : Key} {p : Pri} (hk : t.Keyed) (hc : t.data.contains k = true)
    (h : (t.updateItem k p).2 = .ok ()) : t.writesOf k + 1 ≤ (t.updateItem k p).1.writesOf k := by
  unfold updateItem at h ⊢
  split at h
  · simp_all [AMap.contains]
  · rename_i it e
    simp only at h ⊢
    split at h
    · split at h
      · exact writesOf_snoc (e := .update { it with priority := p }) List.prefix_rfl (by simpa [ExtEvent.writes] using hk k it e)
      · simp_all
    · simp_all

theorem insertNew_writes {t : Table} {i : Item} {now : Int} {d : Draw}
    (h : (t.insertNew i now d).2 = .ok ()) : t.writesOf i.key + 1 ≤ (t.insertNew i now d).1.writesOf i.key := by
  have hw : (ExtEvent.insert { i with insertedAt := now }).writes i.key = true := by simp [ExtEvent.writes]
  unfold insertNew at h ⊢
  simp only at h ⊢
  split at h
  · split at h
    · split at h
      · rename_i h3
        rw [if_pos h3]
        split at h
        · split at h
          · refine writesOf_snoc ?_ hw
            refine deleteItem_log_of ?_ _
            exact List.prefix_rfl
          · simp_all
        · simp at h
        · simp at h
      · rename_i h3
        rw [if_neg h3]
        exact writesOf_snoc List.prefix_rfl hw
    · simp_all
  · simp_all

/-- A successful insert adds an entry for the item. -/
theorem insert_writes {t : Table} (hk : t.Keyed) {i : Item} {now : Int} {d : Draw} {op : Op} (ho : op = .insert i now d ∨ op = .insertResume i now d)
    (h : (t.step op).2 = .ok .done) : t.writesOf i.key + 1 ≤ (t.step op).1.writesOf i.key := by
  have hr : ∀ h : (t.insertResume i now d).2 = .ok .done, t.writesOf i.key + 1 ≤ (t.insertResume i now d).1.writesOf i.key := by
    intro h
    unfold insertResume at h ⊢
    split at h
    · simp at h
    · simp at h
    · split at h
      · rename_i hc
        rw [if_pos hc, reply_fst]
        exact updateItem_writes hk hc (reply_done h)
      · rename_i hc
        rw [if_neg hc, reply_fst]
        exact insertNew_writes (reply_done h)
  rcases ho with rfl | rfl
  · simp only [step, insertOrAssign] at h ⊢
    split at h
    · simp at h
    · rename_i h1
      rw [if_neg h1]
      split at h
      · rename_i hc
        rw [if_pos hc, reply_fst]
        exact updateItem_writes hk hc (reply_done h)
      · rename_i hc
        rw [if_neg hc]
        exact hr h
  · exact hr h

end Table
end Verif
