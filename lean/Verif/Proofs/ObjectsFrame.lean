import Verif.Proofs.Objects
/-
What a call on a table leaves as it is, also if the table shares its selectors.
-/
namespace Verif
namespace View

/-- `Frame`, and a limiter that is cancelled remains so. -/
def Tame (v v' : View) : Prop := Frame v v' ∧ (v.limiter.cancelled = true → v'.limiter.cancelled = true)

theorem Tame.refl (v : View) : Tame v v := ⟨Frame.refl v, id⟩

theorem Tame.trans {a b c : View} (h : Tame a b) (h' : Tame b c) : Tame a c := ⟨h.1.trans h'.1, fun x => h'.2 (h.2 x)⟩

theorem tame_call_s (v : View) (c : Spec.Call) : Tame v (v.call v.t.sampler c).1 := ⟨frame_call_s v c, id⟩

theorem tame_call_r (v : View) (c : Spec.Call) : Tame v (v.call v.t.remover c).1 := ⟨frame_call_r v c, id⟩

theorem tame_set (v : View) {l : Limiter} (h : v.limiter.cancelled = true → l.cancelled = true) : Tame v (v.setLimiter l) :=
  ⟨frame_set v l, by intro x; simpa [limiter, setLimiter, upd_self] using h x⟩

theorem commit_cancelled {l l' : Limiter} (h : l.maybeCommitSample = some l') : l.cancelled = true → l'.cancelled = true := by
  unfold Limiter.maybeCommitSample at h
  split at h
  · obtain rfl := Option.some.inj h
    exact id
  · simp at h

theorem deleteItem_tame (v : View) (k : Key) : Tame v (v.deleteItem k).1 := by
  unfold deleteItem
  split
  · exact Tame.refl v
  · split
    · exact Tame.refl v
    · rename_i it _ _ refs nd _
      dsimp only
      have f1 : Tame v { v with t := { v.t with
        episodeRefs := refs
        numDeletedEpisodes := nd
        log := v.t.log ++ [ExtEvent.delete it]
        data := v.t.data.erase k } } := ⟨⟨rfl, rfl, rfl, rfl, rfl, rfl, fun _ _ _ => rfl, fun _ _ => rfl⟩, id⟩
      have f2 := f1.trans (tame_set _ (l := _) (fun x => (show (Limiter.delete _).cancelled = true from x)))
      have f3 := f2.trans (tame_call_s _ (.delete k))
      split
      · exact f3.trans (tame_call_r _ _)
      · exact f3

theorem updateItem_tame (v : View) (k : Key) (p : Pri) : Tame v (v.updateItem k p).1 := by
  unfold updateItem
  split
  · exact Tame.refl v
  · rename_i it _
    dsimp only
    have f1 : Tame v { v with t := { v.t with data := v.t.data.insert k { it with priority := p } } } :=
      ⟨⟨rfl, rfl, rfl, rfl, rfl, rfl, fun _ _ _ => rfl, fun _ _ => rfl⟩, id⟩
    have f2 := f1.trans (tame_call_s _ (.update k p))
    split
    · have f3 := f2.trans (tame_call_r _ (.update k p))
      split
      · exact f3.trans ⟨⟨rfl, rfl, rfl, rfl, rfl, rfl, fun _ _ _ => rfl, fun _ _ => rfl⟩, id⟩
      · exact f3
    · exact f2

theorem evict_tame (v : View) (d : Draw) : Tame v (v.evict d).1 := by
  unfold evict
  split
  · split
    · rename_i victim _ _
      dsimp only
      have f := deleteItem_tame v victim
      split
      · exact f.trans (tame_set _ (fun x => (show (Limiter.insert _).cancelled = true from x)))
      · exact f
    · exact Tame.refl v
    · exact Tame.refl v
  · exact tame_set _ (fun x => (show (Limiter.insert _).cancelled = true from x))

theorem insertNew_tame (v : View) (i : Item) (now : Int) (d : Draw) : Tame v (v.insertNew i now d).1 := by
  unfold insertNew
  dsimp only
  have f1 : Tame v { v with t := { v.t with data := v.t.data.insert i.key { i with insertedAt := now } } } :=
    ⟨⟨rfl, rfl, rfl, rfl, rfl, rfl, fun _ _ _ => rfl, fun _ _ => rfl⟩, id⟩
  have f2 := f1.trans (tame_call_s _ (.insert i.key i.priority))
  split
  · have f3 := f2.trans (tame_call_r _ (.insert i.key i.priority))
    split
    · refine Tame.trans ?_ (evict_tame _ _)
      exact f3.trans ⟨⟨rfl, rfl, rfl, rfl, rfl, rfl, fun _ _ _ => rfl, fun _ _ => rfl⟩, id⟩
    · exact f3
  · exact f2

theorem reply_fst (r : View × Res Unit) : (View.reply r).1 = r.1 := by
  unfold View.reply
  split <;> rfl

theorem insertInternal_tame (v : View) (i : Item) (now : Int) (d : Draw) : Tame v (v.insertInternal i now d).1 := by
  unfold insertInternal
  split
  · exact updateItem_tame _ _ _
  · exact insertNew_tame _ _ _ _

theorem insertResume_tame (v : View) (i : Item) (now : Int) (d : Draw) : Tame v (v.insertResume i now d).1 := by
  unfold insertResume
  split
  · exact Tame.refl v
  · exact Tame.refl v
  · split <;> rw [reply_fst]
    · exact updateItem_tame _ _ _
    · exact insertNew_tame _ _ _ _

theorem insertOrAssign_tame (v : View) (i : Item) (now : Int) (d : Draw) : Tame v (v.insertOrAssign i now d).1 := by
  unfold insertOrAssign
  split
  · exact Tame.refl v
  · split
    · rw [reply_fst]; exact updateItem_tame _ _ _
    · exact insertResume_tame _ _ _ _

theorem workerInsert_tame (v : View) (i : Item) (now : Int) (d : Draw) : Tame v (v.workerInsert i now d).1 := by
  unfold workerInsert
  split
  · rw [reply_fst]; exact insertInternal_tame _ _ _ _
  · exact Tame.refl v

theorem deleteAll_tame (ks : List Key) : ∀ v : View, Tame v (v.deleteAll ks).1 := by
  induction ks with
  | nil => exact Tame.refl
  | cons k ks ih =>
    intro v
    unfold deleteAll
    dsimp only
    split
    · exact (deleteItem_tame v k).trans (ih _)
    · exact deleteItem_tame v k

theorem updateAll_tame (us : List (Key × Pri)) : ∀ v : View, Tame v (v.updateAll us).1 := by
  induction us with
  | nil => exact Tame.refl
  | cons u us ih =>
    intro v
    unfold updateAll
    dsimp only
    split
    · exact (updateItem_tame v _ _).trans (ih _)
    · exact updateItem_tame v _ _

theorem mutateItems_tame (v : View) (us : List (Key × Pri)) (ks : List Key) : Tame v (v.mutateItems us ks).1 := by
  unfold mutateItems
  dsimp only
  split
  · rw [reply_fst]; exact (deleteAll_tame ks v).trans (updateAll_tame us _)
  · exact deleteAll_tame ks v
  · exact deleteAll_tame ks v

theorem sampleOne_tame (v : View) (rl : Bool) (d : Draw) : Tame v (v.sampleOne rl d).1 := by
  unfold sampleOne
  split
  · exact Tame.refl v
  · exact Tame.refl v
  · split
    · exact Tame.refl v
    · rename_i k prob _ _ it _
      dsimp only
      have f1 : Tame v { v with t := { v.t with
        numUniqueSamples := if it.timesSampled = 0 then v.t.numUniqueSamples + 1 else v.t.numUniqueSamples
        data := v.t.data.insert k { it with timesSampled := it.timesSampled + 1 }
        log := v.t.log ++ [ExtEvent.sample { it with timesSampled := it.timesSampled + 1 }] } } :=
        ⟨⟨rfl, rfl, rfl, rfl, rfl, rfl, fun _ _ _ => rfl, fun _ _ => rfl⟩, id⟩
      split
      · have f2 := f1.trans (deleteItem_tame _ it.key)
        split <;> exact f2
      · exact f1

theorem sampleMore_tame (rl : Bool) (n : Nat) : ∀ (v : View) (acc : List Sampled) (ds : Nat → Draw), Tame v (v.sampleMore rl acc n ds).1 := by
  induction n with
  | zero => intro v acc ds; exact Tame.refl v
  | succ n ih =>
    intro v acc ds
    unfold sampleMore
    split
    · exact Tame.refl v
    · rename_i l hl
      dsimp only
      have f := (tame_set v (commit_cancelled hl)).trans (sampleOne_tame _ rl (ds 0))
      split
      · exact f.trans (ih _ _ _)
      · exact f
      · exact f

theorem sampleLoop_tame (v : View) (rl : Bool) (n : Nat) (ds : Nat → Draw) : Tame v (v.sampleLoop rl n ds).1 := by
  unfold sampleLoop
  dsimp only
  have f := sampleOne_tame v rl (ds 0)
  split
  · rename_i x _
    have f2 := f.trans (sampleMore_tame rl (n - 1) _ [x] (fun i => ds (i + 1)))
    split <;> exact f2
  · exact f
  · exact f

theorem sampleResume_tame (v : View) (n : Nat) (ds : Nat → Draw) : Tame v (v.sampleResume n ds).1 := by
  unfold sampleResume
  split
  · exact Tame.refl v
  · exact Tame.refl v
  · refine Tame.trans ?_ (sampleLoop_tame _ _ _ _)
    exact tame_set v (fun x => x)

theorem sampleBatch_tame (v : View) (n : Nat) (ds : Nat → Draw) : Tame v (v.sampleBatch n ds).1 := by
  unfold sampleBatch
  split
  · rename_i l hl
    exact (tame_set v (commit_cancelled hl)).trans (sampleLoop_tame _ _ _ _)
  · exact sampleResume_tame v n ds

theorem workerSample_tame (v : View) (rl : Bool) (d : Draw) : Tame v (v.workerSample rl d).1 := by
  unfold workerSample
  split
  · exact Tame.refl v
  · rename_i l hl
    dsimp only
    have f := (tame_set v (commit_cancelled hl)).trans (sampleOne_tame _ rl d)
    split <;> exact f

theorem reset_tame (v : View) : Tame v v.reset := by
  unfold reset
  dsimp only
  generalize hw : ((v.call v.t.sampler .clear).1.call (v.call v.t.sampler .clear).1.t.remover .clear).1 = w
  have f : Tame v w := by rw [← hw]; exact (tame_call_s v .clear).trans (tame_call_r _ .clear)
  have f3 : Tame w { w with t := { w.t with
      log := w.t.log ++ [ExtEvent.reset]
      numDeletedEpisodes := 0
      numUniqueSamples := 0
      episodeRefs := AMap.empty
      data := AMap.empty } } := ⟨⟨rfl, rfl, rfl, rfl, rfl, rfl, fun _ _ _ => rfl, fun _ _ => rfl⟩, id⟩
  exact (f.trans f3).trans (tame_set _ (fun x => (show (Limiter.reset _).cancelled = true from x)))

theorem close_tame (v : View) : Tame v v.close := tame_set _ (fun _ => rfl)

/-- No call changes the pointers of a table or objects that it does not refer to. -/
theorem step_tame (v : View) (op : Table.Op) : Tame v (v.step op).1 := by
  cases op with
  | insert i now d => exact insertOrAssign_tame v i now d
  | insertResume i now d => exact insertResume_tame v i now d
  | workerInsert i now d => exact workerInsert_tame v i now d
  | mutate us ks => exact mutateItems_tame v us ks
  | sample n ds => exact sampleBatch_tame v n ds
  | sampleResume n ds => exact sampleResume_tame v n ds
  | workerSample rl d => exact workerSample_tame v rl d
  | reset => exact reset_tame v
  | close => exact close_tame v

end View
end Verif
