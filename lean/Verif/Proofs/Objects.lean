import Verif.Model.Objects
/-
Tables as objects: a table that shares neither its selectors nor its limiter behaves as in `Model/Table.lean`, and does not touch what others use.
-/
namespace Verif
namespace View

/-- The two selectors are different objects. -/
def Split (v : View) : Prop := v.t.sampler ≠ v.t.remover

/-- What a call leaves as it is: the pointers, the name, and all objects that the table does not refer to. -/
structure Frame (v v' : View) : Prop where
  sampler : v'.t.sampler = v.t.sampler
  remover : v'.t.remover = v.t.remover
  limiter : v'.t.limiter = v.t.limiter
  name : v'.t.name = v.t.name
  held : v'.t.held = v.t.held
  maxSize : v'.t.maxSize = v.t.maxSize
  sels : ∀ s, s ≠ v.t.sampler → s ≠ v.t.remover → v'.objs.sel s = v.objs.sel s
  lims : ∀ l, l ≠ v.t.limiter → v'.objs.lim l = v.objs.lim l

theorem Frame.refl (v : View) : Frame v v := ⟨rfl, rfl, rfl, rfl, rfl, rfl, fun _ _ _ => rfl, fun _ _ => rfl⟩

theorem Frame.trans {a b c : View} (h : Frame a b) (h' : Frame b c) : Frame a c where
  sampler := h'.sampler.trans h.sampler
  remover := h'.remover.trans h.remover
  limiter := h'.limiter.trans h.limiter
  name := h'.name.trans h.name
  held := h'.held.trans h.held
  maxSize := h'.maxSize.trans h.maxSize
  sels := fun s h1 h2 => (h'.sels s (by rw [h.sampler]; exact h1) (by rw [h.remover]; exact h2)).trans (h.sels s h1 h2)
  lims := fun l h1 => (h'.lims l (by rw [h.limiter]; exact h1)).trans (h.lims l h1)

theorem Frame.split {v v' : View} (h : Frame v v') (hv : v.Split) : v'.Split := by
  unfold Split; rw [h.sampler, h.remover]; exact hv

/-- A call through the pointers gives what the same call gives on the table that is seen. -/
structure Sim {α : Type} (v : View) (r : View × Res α) (q : Table × Res α) : Prop where
  tab : r.1.table = q.1
  res : r.2 = q.2
  frame : Frame v r.1

theorem Sim.pure {α : Type} {v v' : View} {x : Res α} {t : Table} (h : Frame v v') (ht : v'.table = t) : Sim v (v', x) (t, x) := ⟨ht, rfl, h⟩

theorem Sim.frame_trans {α : Type} {v v' : View} {r : View × Res α} {q : Table × Res α} (h : Frame v v') (hs : Sim v' r q) : Sim v r q :=
  ⟨hs.tab, hs.res, h.trans hs.frame⟩

theorem upd_self {α β : Type} [DecidableEq α] (f : α → β) (a : α) (b : β) : upd f a b a = b := by simp [upd]
theorem upd_ne {α β : Type} [DecidableEq α] (f : α → β) {a x : α} (b : β) (h : x ≠ a) : upd f a b x = f x := by simp [upd, h]

theorem frame_call_s (v : View) (c : Spec.Call) : Frame v (v.call v.t.sampler c).1 :=
  ⟨rfl, rfl, rfl, rfl, rfl, rfl, fun _ h _ => upd_ne _ _ h, fun _ _ => rfl⟩

theorem frame_call_r (v : View) (c : Spec.Call) : Frame v (v.call v.t.remover c).1 :=
  ⟨rfl, rfl, rfl, rfl, rfl, rfl, fun _ _ h => upd_ne _ _ h, fun _ _ => rfl⟩

theorem frame_set (v : View) (l : Limiter) : Frame v (v.setLimiter l) :=
  ⟨rfl, rfl, rfl, rfl, rfl, rfl, fun _ _ _ => rfl, fun _ h => upd_ne _ _ h⟩

theorem call_s {v : View} (h : v.Split) (c : Spec.Call) :
    Sim v (v.call v.t.sampler c) ({ v.table with sampler := (v.table.sampler.apply c).1 }, (v.table.sampler.apply c).2) := by
  refine ⟨?_, rfl, frame_call_s v c⟩
  simp only [call, table, upd_self, limiter]
  rw [upd_ne _ _ (Ne.symm h)]

theorem call_r {v : View} (h : v.Split) (c : Spec.Call) :
    Sim v (v.call v.t.remover c) ({ v.table with remover := (v.table.remover.apply c).1 }, (v.table.remover.apply c).2) := by
  refine ⟨?_, rfl, frame_call_r v c⟩
  simp only [call, table, upd_self, limiter]
  rw [upd_ne _ _ h]

theorem set_table (v : View) (l : Limiter) : (v.setLimiter l).table = { v.table with limiter := l } := by
  simp only [setLimiter, table, limiter, upd_self]

theorem deleteItem_sim {v : View} (h : v.Split) (k : Key) : Sim v (v.deleteItem k) (v.table.deleteItem k) := by
  unfold deleteItem Table.deleteItem
  have hd : v.table.data = v.t.data := rfl
  have he : v.table.episodeRefs = v.t.episodeRefs := rfl
  have hn : v.table.numDeletedEpisodes = v.t.numDeletedEpisodes := rfl
  rw [hd, he, hn]
  cases hk : v.t.data.get? k with
  | none => exact Sim.pure (Frame.refl v) rfl
  | some it =>
    dsimp only
    cases hr : Table.decRefs v.t.episodeRefs v.t.numDeletedEpisodes it.chunks with
    | none => exact Sim.pure (Frame.refl v) rfl
    | some x =>
      obtain ⟨refs, nd⟩ := x
      dsimp only
      generalize hv1 : ({ v with t := { v.t with
        episodeRefs := refs
        numDeletedEpisodes := nd
        log := v.t.log ++ [ExtEvent.delete it]
        data := v.t.data.erase k } } : View) = v1
      have f1 : Frame v v1 := by subst hv1; exact ⟨rfl, rfl, rfl, rfl, rfl, rfl, fun _ _ _ => rfl, fun _ _ => rfl⟩
      have t1 : v1.table = { v.table with
        episodeRefs := refs
        numDeletedEpisodes := nd
        log := v.table.log ++ [ExtEvent.delete it]
        data := v.t.data.erase k } := by subst hv1; rfl
      have f2 := f1.trans (frame_set v1 v1.limiter.delete)
      have s3 := call_s (f2.split h) (.delete k)
      have ht : (v1.setLimiter v1.limiter.delete).table = { v.table with
        episodeRefs := refs
        numDeletedEpisodes := nd
        log := v.table.log ++ [ExtEvent.delete it]
        data := v.t.data.erase k
        limiter := v.table.limiter.delete } := by
        rw [set_table, t1]; subst hv1; rfl
      rw [ht] at s3
      have e3 := s3.res
      dsimp only at e3 s3
      cases hq : (Sel.apply v.table.sampler (.delete k)).2 with
      | ok u =>
        rw [hq] at e3
        simp only [e3]
        have s4 := (call_r ((f2.trans s3.frame).split h) (.delete k)).frame_trans (f2.trans s3.frame)
        rw [s3.tab] at s4
        exact s4
      | err c =>
        rw [hq] at e3
        simp only [e3]
        exact ⟨s3.tab, rfl, f2.trans s3.frame⟩
      | died =>
        rw [hq] at e3
        simp only [e3]
        exact ⟨s3.tab, rfl, f2.trans s3.frame⟩

theorem updateItem_sim {v : View} (h : v.Split) (k : Key) (p : Pri) : Sim v (v.updateItem k p) (v.table.updateItem k p) := by
  unfold updateItem Table.updateItem
  have hd : v.table.data = v.t.data := rfl
  rw [hd]
  cases hk : v.t.data.get? k with
  | none => exact Sim.pure (Frame.refl v) rfl
  | some it =>
    dsimp only
    generalize hv1 : ({ v with t := { v.t with data := v.t.data.insert k { it with priority := p } } } : View) = v1
    have f1 : Frame v v1 := by subst hv1; exact ⟨rfl, rfl, rfl, rfl, rfl, rfl, fun _ _ _ => rfl, fun _ _ => rfl⟩
    have t1 : v1.table = { v.table with data := v.t.data.insert k { it with priority := p } } := by subst hv1; rfl
    have s3 := call_s (f1.split h) (.update k p)
    rw [t1, f1.sampler] at s3
    have e3 := s3.res
    dsimp only at e3 s3
    cases hq : (Sel.apply v.table.sampler (.update k p)).2 with
    | ok u =>
      rw [hq] at e3
      simp only [e3]
      have s4 := (call_r ((f1.trans s3.frame).split h) (.update k p)).frame_trans (f1.trans s3.frame)
      rw [s3.tab] at s4
      have e4 := s4.res
      dsimp only at e4 s4
      cases hq' : (Sel.apply v.table.remover (.update k p)).2 with
      | ok u =>
        rw [hq'] at e4
        simp only [e4]
        refine ⟨?_, rfl, s4.frame.trans ⟨rfl, rfl, rfl, rfl, rfl, rfl, fun _ _ _ => rfl, fun _ _ => rfl⟩⟩
        have ht := s4.tab
        dsimp only at ht
        generalize hw : ((v1.call v.t.sampler (.update k p)).1.call (v1.call v.t.sampler (.update k p)).1.t.remover (.update k p)).1 = w at ht ⊢
        show { w.table with log := w.table.log ++ [ExtEvent.update { it with priority := p }] } = _
        rw [ht]
      | err c =>
        rw [hq'] at e4
        simp only [e4]
        exact ⟨s4.tab, rfl, s4.frame⟩
      | died =>
        rw [hq'] at e4
        simp only [e4]
        exact ⟨s4.tab, rfl, s4.frame⟩
    | err c =>
      rw [hq] at e3
      simp only [e3]
      exact ⟨s3.tab, rfl, f1.trans s3.frame⟩
    | died =>
      rw [hq] at e3
      simp only [e3]
      exact ⟨s3.tab, rfl, f1.trans s3.frame⟩

theorem evict_sim {v : View} (h : v.Split) (d : Draw) : Sim v (v.evict d)
    (if v.table.maxSize < v.table.data.size then
      match v.table.remover.sample d with
      | .ok (victim, _) =>
        let r := v.table.deleteItem victim
        match r.2 with
        | .ok () => ({ r.1 with limiter := r.1.limiter.insert }, .ok ())
        | e => (r.1, e)
      | .err c => (v.table, .err c)
      | .died => (v.table, .died)
    else ({ v.table with limiter := v.table.limiter.insert }, .ok ())) := by
  unfold evict
  by_cases hb : v.t.maxSize < v.t.data.size
  · rw [if_pos hb, if_pos (show v.table.maxSize < v.table.data.size from hb)]
    have hrm : v.table.remover = v.objs.sel v.t.remover := rfl
    rw [hrm]
    cases hs : (v.objs.sel v.t.remover).sample d with
    | ok x =>
      obtain ⟨victim, pr⟩ := x
      dsimp only
      have s5 := deleteItem_sim h victim
      have e5 := s5.res
      cases hq5 : (v.table.deleteItem victim).2 with
      | ok u =>
        rw [hq5] at e5
        simp only [e5]
        refine ⟨?_, rfl, s5.frame.trans (frame_set _ _)⟩
        rw [set_table, ← s5.tab]
        rfl
      | err c =>
        rw [hq5] at e5
        simp only [e5]
        exact ⟨s5.tab, rfl, s5.frame⟩
      | died =>
        rw [hq5] at e5
        simp only [e5]
        exact ⟨s5.tab, rfl, s5.frame⟩
    | err c => exact Sim.pure (Frame.refl v) rfl
    | died => exact Sim.pure (Frame.refl v) rfl
  · rw [if_neg hb, if_neg (show ¬ v.table.maxSize < v.table.data.size from hb)]
    exact ⟨set_table _ _, rfl, frame_set _ _⟩

theorem insertNew_sim {v : View} (h : v.Split) (i : Item) (now : Int) (d : Draw) : Sim v (v.insertNew i now d) (v.table.insertNew i now d) := by
  unfold insertNew Table.insertNew
  dsimp only
  generalize hv1 : ({ v with t := { v.t with data := v.t.data.insert i.key { i with insertedAt := now } } } : View) = v1
  have f1 : Frame v v1 := by subst hv1; exact ⟨rfl, rfl, rfl, rfl, rfl, rfl, fun _ _ _ => rfl, fun _ _ => rfl⟩
  have t1 : v1.table = { v.table with data := v.table.data.insert i.key { i with insertedAt := now } } := by subst hv1; rfl
  have s3 := call_s (f1.split h) (.insert i.key i.priority)
  rw [t1, f1.sampler] at s3
  have e3 := s3.res
  dsimp only at e3 s3
  cases hq : (Sel.apply v.table.sampler (.insert i.key i.priority)).2 with
  | ok u =>
    rw [hq] at e3
    simp only [e3]
    have s4 := (call_r ((f1.trans s3.frame).split h) (.insert i.key i.priority)).frame_trans (f1.trans s3.frame)
    rw [s3.tab] at s4
    have e4 := s4.res
    dsimp only at e4 s4
    cases hq' : (Sel.apply v.table.remover (.insert i.key i.priority)).2 with
    | ok u =>
      rw [hq'] at e4
      simp only [e4]
      generalize hw2 : ((v1.call v.t.sampler (.insert i.key i.priority)).1.call (v1.call v.t.sampler (.insert i.key i.priority)).1.t.remover
        (.insert i.key i.priority)).1 = w2
      have ht2 := s4.tab
      have f2 := s4.frame
      rw [hw2] at ht2 f2
      have f4 : Frame v { w2 with t := { w2.t with
          log := w2.t.log ++ [ExtEvent.insert { i with insertedAt := now }]
          episodeRefs := Table.incRefs w2.t.episodeRefs i.chunks } } :=
        f2.trans ⟨rfl, rfl, rfl, rfl, rfl, rfl, fun _ _ _ => rfl, fun _ _ => rfl⟩
      have s5 := (evict_sim (f4.split h) d).frame_trans f4
      have t4 : View.table { w2 with t := { w2.t with
          log := w2.t.log ++ [ExtEvent.insert { i with insertedAt := now }]
          episodeRefs := Table.incRefs w2.t.episodeRefs i.chunks } } = { w2.table with
            log := w2.table.log ++ [ExtEvent.insert { i with insertedAt := now }]
            episodeRefs := Table.incRefs w2.table.episodeRefs i.chunks } := rfl
      rw [t4, ht2] at s5
      exact s5
    | err c =>
      rw [hq'] at e4
      simp only [e4]
      exact ⟨s4.tab, rfl, s4.frame⟩
    | died =>
      rw [hq'] at e4
      simp only [e4]
      exact ⟨s4.tab, rfl, s4.frame⟩
  | err c =>
    rw [hq] at e3
    simp only [e3]
    exact ⟨s3.tab, rfl, f1.trans s3.frame⟩
  | died =>
    rw [hq] at e3
    simp only [e3]
    exact ⟨s3.tab, rfl, f1.trans s3.frame⟩

theorem reply_sim {v : View} {r : View × Res Unit} {q : Table × Res Unit} (h : Sim v r q) : Sim v (View.reply r) (Table.reply q) := by
  obtain ⟨r1, r2⟩ := r
  obtain ⟨q1, q2⟩ := q
  have := h.res
  dsimp only at this
  subst this
  unfold View.reply Table.reply
  cases r2 <;> exact ⟨h.tab, rfl, h.frame⟩

theorem insertInternal_sim {v : View} (h : v.Split) (i : Item) (now : Int) (d : Draw) :
    Sim v (v.insertInternal i now d) (v.table.insertInternal i now d) := by
  unfold insertInternal Table.insertInternal
  have hd : v.table.data = v.t.data := rfl
  rw [hd]
  split
  · exact updateItem_sim h _ _
  · exact insertNew_sim h _ _ _

theorem insertResume_sim {v : View} (h : v.Split) (i : Item) (now : Int) (d : Draw) : Sim v (v.insertResume i now d) (v.table.insertResume i now d) := by
  unfold insertResume Table.insertResume
  have hd : v.table.data = v.t.data := rfl
  have hl : v.table.limiter = v.limiter := rfl
  rw [hd, hl]
  cases v.limiter.awaitInsert with
  | cancelled => exact Sim.pure (Frame.refl v) rfl
  | wait => exact Sim.pure (Frame.refl v) rfl
  | proceed =>
    dsimp only
    split
    · exact reply_sim (updateItem_sim h _ _)
    · exact reply_sim (insertNew_sim h _ _ _)

theorem insertOrAssign_sim {v : View} (h : v.Split) (i : Item) (now : Int) (d : Draw) :
    Sim v (v.insertOrAssign i now d) (v.table.insertOrAssign i now d) := by
  unfold insertOrAssign Table.insertOrAssign
  have hd : v.table.data = v.t.data := rfl
  rw [hd]
  split
  · exact Sim.pure (Frame.refl v) rfl
  · split
    · exact reply_sim (updateItem_sim h _ _)
    · exact insertResume_sim h _ _ _

theorem workerInsert_sim {v : View} (h : v.Split) (i : Item) (now : Int) (d : Draw) : Sim v (v.workerInsert i now d) (v.table.workerInsert i now d) := by
  unfold workerInsert Table.workerInsert
  have hl : v.table.limiter = v.limiter := rfl
  rw [hl]
  split
  · exact reply_sim (insertInternal_sim h _ _ _)
  · exact Sim.pure (Frame.refl v) rfl

theorem deleteAll_sim (ks : List Key) : ∀ {v : View}, v.Split → Sim v (v.deleteAll ks) (v.table.deleteAll ks) := by
  induction ks with
  | nil => intro v _; exact Sim.pure (Frame.refl v) rfl
  | cons k ks ih =>
    intro v h
    unfold deleteAll Table.deleteAll
    dsimp only
    have s := deleteItem_sim h k
    have e := s.res
    cases hq : (v.table.deleteItem k).2 with
    | ok u =>
      rw [hq] at e
      simp only [e]
      have := (ih (s.frame.split h)).frame_trans s.frame
      rw [s.tab] at this
      exact this
    | err c => rw [hq] at e; simp only [e]; exact ⟨s.tab, rfl, s.frame⟩
    | died => rw [hq] at e; simp only [e]; exact ⟨s.tab, rfl, s.frame⟩

theorem updateAll_sim (us : List (Key × Pri)) : ∀ {v : View}, v.Split → Sim v (v.updateAll us) (v.table.updateAll us) := by
  induction us with
  | nil => intro v _; exact Sim.pure (Frame.refl v) rfl
  | cons u us ih =>
    intro v h
    unfold updateAll Table.updateAll
    dsimp only
    have s := updateItem_sim h u.1 u.2
    have e := s.res
    cases hq : (v.table.updateItem u.1 u.2).2 with
    | ok x =>
      rw [hq] at e
      simp only [e]
      have := (ih (s.frame.split h)).frame_trans s.frame
      rw [s.tab] at this
      exact this
    | err c => rw [hq] at e; simp only [e]; exact ⟨s.tab, rfl, s.frame⟩
    | died => rw [hq] at e; simp only [e]; exact ⟨s.tab, rfl, s.frame⟩

theorem mutateItems_sim {v : View} (h : v.Split) (us : List (Key × Pri)) (ks : List Key) : Sim v (v.mutateItems us ks) (v.table.mutateItems us ks) := by
  unfold mutateItems Table.mutateItems
  dsimp only
  have s := deleteAll_sim ks h
  have e := s.res
  cases hq : (v.table.deleteAll ks).2 with
  | ok x =>
    rw [hq] at e
    simp only [e]
    have := (reply_sim (updateAll_sim us (s.frame.split h))).frame_trans s.frame
    rw [s.tab] at this
    exact this
  | err c => rw [hq] at e; simp only [e]; exact ⟨s.tab, rfl, s.frame⟩
  | died => rw [hq] at e; simp only [e]; exact ⟨s.tab, rfl, s.frame⟩

theorem after_delete {v : View} {r : View × Res Unit} {q : Table × Res Unit} (h : Sim v r q) (x : Sampled) :
    Sim v (match r.2 with
      | .ok () => (r.1, .ok x)
      | .err c => (r.1, .err c)
      | .died => (r.1, .died))
    (match q.2 with
      | .ok () => (q.1, .ok x)
      | .err c => (q.1, .err c)
      | .died => (q.1, .died)) := by
  obtain ⟨r1, r2⟩ := r
  obtain ⟨q1, q2⟩ := q
  have := h.res
  dsimp only at this
  subst this
  cases r2 <;> exact ⟨h.tab, rfl, h.frame⟩

theorem sampleOne_sim {v : View} (h : v.Split) (rl : Bool) (d : Draw) : Sim v (v.sampleOne rl d) (v.table.sampleOne rl d) := by
  unfold sampleOne Table.sampleOne
  have hd : v.table.data = v.t.data := rfl
  have hsm : v.table.sampler = v.objs.sel v.t.sampler := rfl
  have hu : v.table.numUniqueSamples = v.t.numUniqueSamples := rfl
  have hm : v.table.maxTimesSampled = v.t.maxTimesSampled := rfl
  rw [hd, hsm, hu]
  cases hs : (v.objs.sel v.t.sampler).sample d with
  | err c => exact Sim.pure (Frame.refl v) rfl
  | died => exact Sim.pure (Frame.refl v) rfl
  | ok x =>
    obtain ⟨k, prob⟩ := x
    dsimp only
    cases hk : v.t.data.get? k with
    | none => exact Sim.pure (Frame.refl v) rfl
    | some it =>
      dsimp only
      rw [hm]
      have f1 : Frame v { v with t := { v.t with
        numUniqueSamples := if it.timesSampled = 0 then v.t.numUniqueSamples + 1 else v.t.numUniqueSamples
        data := v.t.data.insert k { it with timesSampled := it.timesSampled + 1 }
        log := v.t.log ++ [ExtEvent.sample { it with timesSampled := it.timesSampled + 1 }] } } :=
        ⟨rfl, rfl, rfl, rfl, rfl, rfl, fun _ _ _ => rfl, fun _ _ => rfl⟩
      by_cases hb : it.timesSampled + 1 = v.t.maxTimesSampled
      · rw [if_pos hb, if_pos hb]
        exact after_delete ((deleteItem_sim (f1.split h) it.key).frame_trans f1) _
      · rw [if_neg hb, if_neg hb]
        exact Sim.pure f1 rfl

theorem sampleMore_sim (rl : Bool) (n : Nat) : ∀ {v : View} (acc : List Sampled) (ds : Nat → Draw), v.Split →
    Sim v (v.sampleMore rl acc n ds) (v.table.sampleMore rl acc n ds) := by
  induction n with
  | zero => intro v acc ds _; exact Sim.pure (Frame.refl v) rfl
  | succ n ih =>
    intro v acc ds h
    unfold sampleMore Table.sampleMore
    have hl : v.table.limiter = v.limiter := rfl
    rw [hl]
    cases hm : v.limiter.maybeCommitSample with
    | none => exact Sim.pure (Frame.refl v) rfl
    | some l =>
      dsimp only
      have f := frame_set v l
      have s := (sampleOne_sim (f.split h) rl (ds 0)).frame_trans f
      rw [set_table] at s
      have e := s.res
      generalize hq : (Table.sampleOne _ rl (ds 0)) = q at s e ⊢
      obtain ⟨q1, q2⟩ := q
      dsimp only at e s ⊢
      cases q2 with
      | ok x =>
        simp only [e]
        have := (ih (acc ++ [x]) (fun i => ds (i + 1)) (s.frame.split h)).frame_trans s.frame
        rw [s.tab] at this
        exact this
      | err c => simp only [e]; exact ⟨s.tab, rfl, s.frame⟩
      | died => simp only [e]; exact ⟨s.tab, rfl, s.frame⟩

theorem sampleLoop_sim {v : View} (h : v.Split) (rl : Bool) (n : Nat) (ds : Nat → Draw) : Sim v (v.sampleLoop rl n ds) (v.table.sampleLoop rl n ds) := by
  unfold sampleLoop Table.sampleLoop
  dsimp only
  have s := sampleOne_sim h rl (ds 0)
  have e := s.res
  generalize hq : (Table.sampleOne _ rl (ds 0)) = q at s e ⊢
  obtain ⟨q1, q2⟩ := q
  dsimp only at e s ⊢
  cases q2 with
  | ok x =>
    simp only [e]
    have s2 := (sampleMore_sim rl (n - 1) [x] (fun i => ds (i + 1)) (s.frame.split h)).frame_trans s.frame
    rw [s.tab] at s2
    have e2 := s2.res
    generalize hq2 : (Table.sampleMore _ rl [x] (n - 1) _) = y at s2 e2 ⊢
    obtain ⟨y1, y2⟩ := y
    dsimp only at e2 s2 ⊢
    cases y2 <;> (simp only [e2]; exact ⟨s2.tab, rfl, s2.frame⟩)
  | err c => simp only [e]; exact ⟨s.tab, rfl, s.frame⟩
  | died => simp only [e]; exact ⟨s.tab, rfl, s.frame⟩

theorem sampleResume_sim {v : View} (h : v.Split) (n : Nat) (ds : Nat → Draw) : Sim v (v.sampleResume n ds) (v.table.sampleResume n ds) := by
  unfold sampleResume Table.sampleResume
  have hl : v.table.limiter = v.limiter := rfl
  rw [hl]
  cases v.limiter.awaitSample with
  | cancelled => exact Sim.pure (Frame.refl v) rfl
  | wait => exact Sim.pure (Frame.refl v) rfl
  | proceed =>
    dsimp only
    have f := frame_set v { v.limiter with samples := v.limiter.samples + 1 }
    have s := (sampleLoop_sim (f.split h) true n ds).frame_trans f
    rw [set_table] at s
    exact s

theorem sampleBatch_sim {v : View} (h : v.Split) (n : Nat) (ds : Nat → Draw) : Sim v (v.sampleBatch n ds) (v.table.sampleBatch n ds) := by
  unfold sampleBatch Table.sampleBatch
  have hl : v.table.limiter = v.limiter := rfl
  rw [hl]
  cases hm : v.limiter.maybeCommitSample with
  | none => exact sampleResume_sim h n ds
  | some l =>
    dsimp only
    have f := frame_set v l
    have s := (sampleLoop_sim (f.split h) false n ds).frame_trans f
    rw [set_table] at s
    exact s

theorem workerSample_sim {v : View} (h : v.Split) (rl : Bool) (d : Draw) : Sim v (v.workerSample rl d) (v.table.workerSample rl d) := by
  unfold workerSample Table.workerSample
  have hl : v.table.limiter = v.limiter := rfl
  rw [hl]
  cases hm : v.limiter.maybeCommitSample with
  | none => exact Sim.pure (Frame.refl v) rfl
  | some l =>
    dsimp only
    have f := frame_set v l
    have s := (sampleOne_sim (f.split h) rl d).frame_trans f
    rw [set_table] at s
    have e := s.res
    generalize hq : (Table.sampleOne _ rl d) = q at s e ⊢
    obtain ⟨q1, q2⟩ := q
    dsimp only at e s ⊢
    cases q2 <;> (simp only [e]; exact ⟨s.tab, rfl, s.frame⟩)

theorem reset_sim {v : View} (h : v.Split) : Sim v (v.reset, Res.ok Table.Reply.done) (v.table.reset, .ok .done) := by
  have s1 := call_s h .clear
  have s2 := (call_r (s1.frame.split h) .clear).frame_trans s1.frame
  rw [s1.tab] at s2
  refine ⟨?_, rfl, ?_⟩
  · have ht := s2.tab
    dsimp only at ht
    unfold reset Table.reset
    dsimp only
    rw [set_table]
    generalize hw : ((v.call v.t.sampler .clear).1.call (v.call v.t.sampler .clear).1.t.remover .clear).1 = w at ht ⊢
    have h1 : (View.table { w with t := { w.t with
        log := w.t.log ++ [ExtEvent.reset], numDeletedEpisodes := 0, numUniqueSamples := 0, episodeRefs := AMap.empty, data := AMap.empty } }) =
        { w.table with
          log := w.table.log ++ [ExtEvent.reset], numDeletedEpisodes := 0, numUniqueSamples := 0, episodeRefs := AMap.empty, data := AMap.empty } := rfl
    have h2 : (View.limiter { w with t := { w.t with
        log := w.t.log ++ [ExtEvent.reset], numDeletedEpisodes := 0, numUniqueSamples := 0, episodeRefs := AMap.empty, data := AMap.empty } }) =
        w.table.limiter := rfl
    rw [h1, h2, ht]
  · unfold reset
    dsimp only
    generalize hw : ((v.call v.t.sampler .clear).1.call (v.call v.t.sampler .clear).1.t.remover .clear).1 = w
    have f := s2.frame
    rw [hw] at f
    have f3 : Frame w { w with t := { w.t with
      log := w.t.log ++ [ExtEvent.reset]
      numDeletedEpisodes := 0
      numUniqueSamples := 0
      episodeRefs := AMap.empty
      data := AMap.empty } } := ⟨rfl, rfl, rfl, rfl, rfl, rfl, fun _ _ _ => rfl, fun _ _ => rfl⟩
    exact (f.trans f3).trans (frame_set _ _)

theorem close_sim (v : View) : Sim v (v.close, Res.ok Table.Reply.done) (v.table.close, .ok .done) :=
  ⟨set_table _ _, rfl, frame_set _ _⟩

/-- Every call on a table with two different selectors does what it does in `Model/Table.lean`. -/
theorem step_sim {v : View} (h : v.Split) (op : Table.Op) : Sim v (v.step op) (v.table.step op) := by
  cases op with
  | insert i now d => exact insertOrAssign_sim h i now d
  | insertResume i now d => exact insertResume_sim h i now d
  | workerInsert i now d => exact workerInsert_sim h i now d
  | mutate us ks => exact mutateItems_sim h us ks
  | sample n ds => exact sampleBatch_sim h n ds
  | sampleResume n ds => exact sampleResume_sim h n ds
  | workerSample rl d => exact workerSample_sim h rl d
  | reset => exact reset_sim h
  | close => exact close_sim v

end View
end Verif
