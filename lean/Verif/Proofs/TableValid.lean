import Verif.Proofs.TableGrow
import Verif.Model.SampleReq
import Verif.Spec.Sample
import Verif.Proofs.Checkpoint
import Verif.Props.C30_C31_Trajectories
/-
Whatever happens, the items in a table are well formed if those that are inserted are; and how many samples a request gets.
-/
namespace Verif
namespace Table

/-- Well-formed items stay so. -/
def Keeps (t t' : Table) : Prop := AllValid t.data → AllValid t'.data

theorem Keeps.rfl {t : Table} : Keeps t t := id

theorem Keeps.trans {a b c : Table} (h : Keeps a b) (g : Keeps b c) : Keeps a c := g ∘ h

theorem Keeps.same {t t' : Table} (e : t'.data = t.data) : Keeps t t' := fun g => by rw [e]; exact g

theorem Keeps.store {t t' : Table} {k : Key} {it : Item} (e : t'.data = t.data.insert k it) (hk : AllValid t.data → itemValid it = true) :
    Keeps t t' := fun g => by rw [e]; exact g.set (hk g)

theorem deleteItem_keeps (t : Table) (k : Key) : Keeps t (t.deleteItem k).1 := by
  unfold deleteItem
  split
  · exact .rfl
  · split
    · exact .rfl
    · have : ∀ t' : Table, t'.data = t.data.erase k → Keeps t t' := fun t' hd g => by rw [hd]; exact g.erase k
      simp only
      split <;> exact this _ _root_.rfl

theorem updateItem_keeps (t : Table) (k : Key) (p : Pri) : Keeps t (t.updateItem k p).1 := by
  unfold updateItem
  split
  · exact .rfl
  · rename_i it he
    have hv : AllValid t.data → itemValid { it with priority := p } = true := fun g => g k it he
    simp only
    split
    · split
      · exact .store _root_.rfl hv
      · exact .store _root_.rfl hv
    · exact .store _root_.rfl hv

theorem insertNew_keeps {t : Table} {i : Item} (hi : itemValid i = true) (now : Int) (d : Draw) : Keeps t (t.insertNew i now d).1 := by
  have hv : AllValid t.data → itemValid { i with insertedAt := now } = true := fun _ => hi
  unfold insertNew
  simp only
  split
  · split
    · split
      · split
        · rename_i v _ _
          have := deleteItem_keeps { t with
            data := t.data.insert i.key { i with insertedAt := now }
            sampler := (t.sampler.apply (.insert i.key i.priority)).1
            remover := (t.remover.apply (.insert i.key i.priority)).1
            log := t.log ++ [ExtEvent.insert { i with insertedAt := now }]
            episodeRefs := incRefs t.episodeRefs i.chunks } v
          have := Keeps.trans (Keeps.store (t := t) _root_.rfl hv) this
          split
          · exact this
          · exact this
        · exact .store _root_.rfl hv
        · exact .store _root_.rfl hv
      · exact .store _root_.rfl hv
    · exact .store _root_.rfl hv
  · exact .store _root_.rfl hv

theorem insertResume_keeps {t : Table} {i : Item} (hi : itemValid i = true) (now : Int) (d : Draw) : Keeps t (t.insertResume i now d).1 := by
  unfold insertResume
  split
  · exact .rfl
  · exact .rfl
  · split <;> rw [reply_fst]
    · exact updateItem_keeps _ _ _
    · exact insertNew_keeps hi _ _

theorem deleteAll_keeps : ∀ (ks : List Key) (t : Table), Keeps t (t.deleteAll ks).1
  | [], t => .rfl
  | k :: ks, t => by
    simp only [deleteAll]
    split
    · exact (deleteItem_keeps _ _).trans (deleteAll_keeps ks _)
    · exact deleteItem_keeps _ _

theorem updateAll_keeps : ∀ (us : List (Key × Pri)) (t : Table), Keeps t (t.updateAll us).1
  | [], t => .rfl
  | u :: us, t => by
    simp only [updateAll]
    split
    · exact (updateItem_keeps _ _ _).trans (updateAll_keeps us _)
    · exact updateItem_keeps _ _ _

theorem sampleOne_keeps (t : Table) (b : Bool) (d : Draw) : Keeps t (t.sampleOne b d).1 := by
  unfold sampleOne
  split
  · exact .rfl
  · exact .rfl
  · split
    · exact .rfl
    · rename_i k _ _ _ it he
      have : Keeps t { t with
          numUniqueSamples := if it.timesSampled = 0 then t.numUniqueSamples + 1 else t.numUniqueSamples
          data := t.data.insert k { it with timesSampled := it.timesSampled + 1 }
          log := t.log ++ [ExtEvent.sample { it with timesSampled := it.timesSampled + 1 }] } :=
        .store _root_.rfl fun g => g k it he
      simp only
      split
      · have := this.trans (deleteItem_keeps _ it.key)
        split <;> exact this
      · exact this

theorem sampleOne_valid {t : Table} {b : Bool} {d : Draw} {s : Sampled} (h : AllValid t.data) (hs : (t.sampleOne b d).2 = .ok s) :
    itemValid s.item = true := by
  unfold sampleOne at hs
  split at hs
  · cases hs
  · cases hs
  · split at hs
    · cases hs
    · rename_i k _ _ _ it he
      have hv : itemValid { it with timesSampled := it.timesSampled + 1 } = true := h k it he
      simp only at hs
      split at hs
      · split at hs <;> cases hs
        exact hv
      · cases hs; exact hv

/-- The samples that a loop collects: well formed, not too many. -/
theorem sampleMore_spec (b : Bool) : ∀ (n : Nat) (t : Table) (acc : List Sampled) (ds : Nat → Draw), AllValid t.data →
    (∀ s ∈ acc, itemValid s.item = true) →
    AllValid (t.sampleMore b acc n ds).1.data ∧
    ∀ l, (t.sampleMore b acc n ds).2 = .ok l → (∀ s ∈ l, itemValid s.item = true) ∧ acc.length ≤ l.length ∧ l.length ≤ acc.length + n
  | 0, t, acc, ds, h, ha => by
    refine ⟨h, fun l hl => ?_⟩
    cases hl
    exact ⟨ha, Nat.le_refl _, Nat.le_refl _⟩
  | n + 1, t, acc, ds, h, ha => by
    simp only [sampleMore]
    split
    · refine ⟨h, fun l hl => ?_⟩
      cases hl
      exact ⟨ha, Nat.le_refl _, by omega⟩
    · rename_i lm _
      have hk := sampleOne_keeps { t with limiter := lm } b (ds 0) h
      split
      · rename_i s hs
        have hv := sampleOne_valid (t := { t with limiter := lm }) h hs
        obtain ⟨h1, h2⟩ := sampleMore_spec b n _ (acc ++ [s]) (fun i => ds (i + 1)) hk
          (fun x hx => by
            rcases List.mem_append.mp hx with hx | hx
            · exact ha x hx
            · rw [List.mem_singleton.mp hx]; exact hv)
        refine ⟨h1, fun l hl => ?_⟩
        obtain ⟨g1, g2, g3⟩ := h2 l hl
        rw [List.length_append, List.length_singleton] at g2 g3
        exact ⟨g1, by omega, by omega⟩
      · exact ⟨hk, fun l hl => by cases hl⟩
      · exact ⟨hk, fun l hl => by cases hl⟩

/-- What a request for a batch has for a result. -/
structure BatchOk (n : Nat) (r : Table × Res Reply) : Prop where
  keeps : AllValid r.1.data
  res : r.2 ≠ .ok .done ∧ ∀ l, r.2 = .ok (.samples l) → (∀ s ∈ l, itemValid s.item = true) ∧ 0 < l.length ∧ l.length ≤ max n 1

theorem sampleLoop_spec {t : Table} (h : AllValid t.data) (b : Bool) (n : Nat) (ds : Nat → Draw) : BatchOk n (t.sampleLoop b n ds) := by
  unfold sampleLoop
  simp only
  have hk := sampleOne_keeps t b (ds 0) h
  split
  · rename_i s hs
    have hv := sampleOne_valid h hs
    obtain ⟨h1, h2⟩ := sampleMore_spec b (n - 1) _ [s] (fun i => ds (i + 1)) hk (fun x hx => by rw [List.mem_singleton.mp hx]; exact hv)
    split
    · rename_i l hl
      obtain ⟨g1, g2, g3⟩ := h2 l hl
      refine ⟨h1, by simp, fun l' hl' => ?_⟩
      cases hl'
      rw [List.length_singleton] at g2 g3
      exact ⟨g1, by omega, by omega⟩
    · exact ⟨h1, by simp⟩
    · exact ⟨h1, by simp⟩
  · exact ⟨hk, by simp⟩
  · exact ⟨hk, by simp⟩

theorem sampleResume_spec {t : Table} (h : AllValid t.data) (n : Nat) (ds : Nat → Draw) : BatchOk n (t.step (.sampleResume n ds)) := by
  simp only [step, sampleResume]
  split
  · exact ⟨h, by simp⟩
  · exact ⟨h, by simp⟩
  · refine sampleLoop_spec ?_ _ _ _
    exact h

theorem sample_spec {t : Table} (h : AllValid t.data) (n : Nat) (ds : Nat → Draw) : BatchOk n (t.step (.sample n ds)) := by
  simp only [step, sampleBatch]
  split
  · refine sampleLoop_spec ?_ _ _ _
    exact h
  · exact sampleResume_spec h n ds

/-- All critical sections. -/
theorem step_keeps {t : Table} {op : Op} (ho : ∀ i now, Op.item op = some (i, now) → itemValid i = true) : Keeps t (t.step op).1 := by
  cases op with
  | insert i now d =>
    simp only [step, insertOrAssign]
    split
    · exact .rfl
    · split
      · rw [reply_fst]; exact updateItem_keeps _ _ _
      · exact insertResume_keeps (ho i now _root_.rfl) _ _
  | insertResume i now d => exact insertResume_keeps (ho i now _root_.rfl) _ _
  | workerInsert i now d =>
    simp only [step, workerInsert]
    split
    · rw [reply_fst]
      unfold insertInternal
      split
      · exact updateItem_keeps _ _ _
      · exact insertNew_keeps (ho i now _root_.rfl) _ _
    · exact .rfl
  | mutate us ds =>
    simp only [step, mutateItems]
    split
    · rw [reply_fst]; exact (deleteAll_keeps _ _).trans (updateAll_keeps _ _)
    · exact deleteAll_keeps _ _
    · exact deleteAll_keeps _ _
  | sample n ds => exact fun h => (sample_spec h n ds).keeps
  | sampleResume n ds => exact fun h => (sampleResume_spec h n ds).keeps
  | workerSample b d =>
    simp only [step, workerSample]
    split
    · exact .rfl
    · rename_i l _
      have h : Keeps t _ := Keeps.trans (Keeps.same _root_.rfl) (sampleOne_keeps { t with limiter := l } b d)
      split <;> exact h
  | reset => exact fun _ k it h => by simp [step, reset] at h
  | close => exact .same _root_.rfl

end Table

/-- What is sent of a well-formed item is valid. -/
theorem Sampled.sent_valid {w : Wire} (hw : ∀ k, (w.content k).key = k) {s : Sampled} (h : Table.itemValid s.item = true) : (s.sent w).Valid := by
  have hk := itemValid_keys h
  have hm : ((s.sent w).chunks.map ChunkData.key) = getChunkKeys s.item.traj := by
    rw [hk]
    simp [Sampled.sent, hw]
  have hc := C30_chunk_keys s.item.traj
  refine ⟨?_, ?_, ?_⟩
  · intro e
    rw [e] at hm
    unfold Table.itemValid at h
    cases ht : s.item.traj with
    | nil => simp [ht] at h
    | cons c cs =>
      rw [ht] at h
      cases hs : c.slices with
      | nil => simp [hs] at h
      | cons x xs =>
        have : x.chunk ∈ getChunkKeys s.item.traj := (hc.2.1 _).mpr ⟨c, by simp [ht], x, by simp [hs], rfl⟩
        rw [← hm] at this
        simp at this
  · rw [hm]; exact hc.1
  · intro col hcol sl hsl
    rw [hm]
    exact (hc.2.1 _).mpr ⟨col, hcol, sl, hsl, rfl⟩

end Verif
