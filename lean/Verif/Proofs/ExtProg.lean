import Verif.Model.Extensions
/-
A program that nobody disturbs does what the critical section of `Model/Table.lean` does.
-/
namespace Verif

/-- A program without disturbance: the table, the result, and the requests that are made. -/
def Prog.exec {α : Type} : Prog α → Table × Res α × List ExtEvent
  | .ret t r => (t, r, [])
  | .ext t kind key next =>
    match t.data.get? key with
    | none => (t, .died, [])
    | some it => ((next t).exec.1, (next t).exec.2.1, kind.event it :: (next t).exec.2.2)

/-- The program does from `t` on what the function has as its result, and makes exactly the requests that are added to the log. -/
def Runs {α : Type} (p : Prog α) (t : Table) (o : Table × Res α) : Prop :=
  ∃ evs, p.exec = (o.1, o.2, evs) ∧ o.1.log = t.log ++ evs

theorem Runs.ret {α : Type} (t t' : Table) (r : Res α) (h : t'.log = t.log) : Runs (.ret t' r) t (t', r) :=
  ⟨[], rfl, by simp [h]⟩

theorem Runs.ext {α : Type} {t t' : Table} {kind : ExtKind} {key : Key} {next : Table → Prog α} {o : Table × Res α} {it : Item}
    (hk : t'.data.get? key = some it) (hl : t'.log = t.log ++ [kind.event it]) (h : Runs (next t') t' o) :
    Runs (.ext t' kind key next) t o := by
  obtain ⟨evs, h1, h2⟩ := h
  refine ⟨kind.event it :: evs, ?_, by rw [h2, hl]; simp⟩
  rw [Prog.exec, hk]
  simp only [h1]

theorem Prog.exec_bind {α β : Type} (f : Table → α → Prog β) (p : Prog α) :
    (p.bind f).exec =
      match p.exec.2.1 with
      | .ok a => ((f p.exec.1 a).exec.1, (f p.exec.1 a).exec.2.1, p.exec.2.2 ++ (f p.exec.1 a).exec.2.2)
      | .err e => (p.exec.1, .err e, p.exec.2.2)
      | .died => (p.exec.1, .died, p.exec.2.2) := by
  induction p with
  | ret t r => cases r <;> simp [Prog.bind, Prog.exec]
  | ext t kind key next ih =>
    simp only [Prog.bind, Prog.exec]
    cases t.data.get? key with
    | none => rfl
    | some it =>
      simp only [ih]
      cases h : (next t).exec.2.1 <;> simp

theorem Runs.bind_ok {α β : Type} {f : Table → α → Prog β} {p : Prog α} {t t1 : Table} {a : α} {o : Table × Res β}
    (h : Runs p t (t1, .ok a)) (hf : Runs (f t1 a) t1 o) : Runs (p.bind f) t o := by
  obtain ⟨e1, h1, l1⟩ := h
  obtain ⟨e2, h2, l2⟩ := hf
  refine ⟨e1 ++ e2, ?_, by rw [l2, l1]; simp⟩
  rw [Prog.exec_bind, h1]
  simp only [h2]

theorem Runs.bind_err {α β : Type} {f : Table → α → Prog β} {p : Prog α} {t t1 : Table} {e : Code}
    (h : Runs p t (t1, .err e)) : Runs (p.bind f) t (t1, .err e) := by
  obtain ⟨e1, h1, l1⟩ := h
  exact ⟨e1, by rw [Prog.exec_bind, h1], l1⟩

theorem Runs.bind_died {α β : Type} {f : Table → α → Prog β} {p : Prog α} {t t1 : Table}
    (h : Runs p t (t1, .died)) : Runs (p.bind f) t (t1, .died) := by
  obtain ⟨e1, h1, l1⟩ := h
  exact ⟨e1, by rw [Prog.exec_bind, h1], l1⟩

namespace Table

theorem deleteItem_eq (t : Table) (k : Key) : t.deleteItem k =
    match t.data.get? k with
    | none => (t, .ok ())
    | some it =>
      match decRefs t.episodeRefs t.numDeletedEpisodes it.chunks with
      | none => (t, .died)
      | some (refs, nd) => { t with
        episodeRefs := refs
        numDeletedEpisodes := nd
        log := t.log ++ [ExtEvent.delete it] }.erased k := by
  unfold deleteItem
  cases t.data.get? k with
  | none => rfl
  | some it =>
    cases h : decRefs t.episodeRefs t.numDeletedEpisodes it.chunks with
    | none => simp only [h]
    | some p => obtain ⟨refs, nd⟩ := p; simp only [h]; rfl

theorem erased_log (t : Table) (k : Key) : (t.erased k).1.log = t.log := by
  unfold erased
  dsimp only
  split <;> rfl

theorem deleteItemP_runs (t : Table) (k : Key) : Runs (t.deleteItemP k) t (t.deleteItem k) := by
  rw [deleteItem_eq, deleteItemP]
  cases hk : t.data.get? k with
  | none => exact .ret _ _ _ rfl
  | some it =>
    dsimp only
    cases hd : decRefs t.episodeRefs t.numDeletedEpisodes it.chunks with
    | none => exact .ret _ _ _ rfl
    | some p =>
      obtain ⟨refs, nd⟩ := p
      dsimp only
      refine Runs.ext (it := it) hk rfl ?_
      exact .ret _ _ _ (erased_log _ _)

theorem updateItemP_runs (t : Table) (k : Key) (p : Pri) : Runs (t.updateItemP k p) t (t.updateItem k p) := by
  unfold updateItem updateItemP
  cases hk : t.data.get? k with
  | none => exact .ret _ _ _ rfl
  | some it =>
    dsimp only
    cases (t.sampler.apply (.update k p)).2 with
    | err e => exact .ret _ _ _ rfl
    | died => exact .ret _ _ _ rfl
    | ok u =>
      dsimp only
      cases (t.remover.apply (.update k p)).2 with
      | err e => exact .ret _ _ _ rfl
      | died => exact .ret _ _ _ rfl
      | ok u =>
        dsimp only
        exact Runs.ext (AMap.get?_insert_self _ _ _) rfl (.ret _ _ _ rfl)

theorem insertEndP_runs (t : Table) (d : Draw) : Runs (t.insertEndP d) t
    (if t.maxSize < t.data.size then
        match t.remover.sample d with
        | .ok (victim, _) =>
          let r := t.deleteItem victim
          match r.2 with
          | .ok () => ({ r.1 with limiter := r.1.limiter.insert }, .ok ())
          | e => (r.1, e)
        | .err c => (t, .err c)
        | .died => (t, .died)
      else ({ t with limiter := t.limiter.insert }, .ok ())) := by
  unfold insertEndP
  split
  · cases t.remover.sample d with
    | err c => exact .ret _ _ _ rfl
    | died => exact .ret _ _ _ rfl
    | ok v =>
      obtain ⟨victim, pr⟩ := v
      dsimp only
      have h := deleteItemP_runs t victim
      generalize t.deleteItem victim = o at h
      obtain ⟨t1, r⟩ := o
      cases r with
      | ok u => exact h.bind_ok (.ret _ _ _ rfl)
      | err e => exact h.bind_err
      | died => exact h.bind_died
  · exact .ret _ _ _ rfl

theorem insertNewP_runs (t : Table) (i : Item) (now : Int) (d : Draw) : Runs (t.insertNewP i now d) t (t.insertNew i now d) := by
  unfold insertNew insertNewP
  dsimp only
  cases (t.sampler.apply (.insert i.key i.priority)).2 with
  | err e => exact .ret _ _ _ rfl
  | died => exact .ret _ _ _ rfl
  | ok u =>
    dsimp only
    cases (t.remover.apply (.insert i.key i.priority)).2 with
    | err e => exact .ret _ _ _ rfl
    | died => exact .ret _ _ _ rfl
    | ok u =>
      dsimp only
      refine Runs.ext (AMap.get?_insert_self _ _ _) rfl ?_
      dsimp only
      rw [AMap.get?_insert_self]
      dsimp only
      have h := insertEndP_runs { t with
        data := t.data.insert i.key { i with insertedAt := now }
        sampler := (t.sampler.apply (.insert i.key i.priority)).1
        remover := (t.remover.apply (.insert i.key i.priority)).1
        log := t.log ++ [ExtEvent.insert { i with insertedAt := now }]
        episodeRefs := incRefs t.episodeRefs i.chunks } d
      exact h

theorem replyP_runs {p : Prog Unit} {t : Table} {o : Table × Res Unit} (h : Runs p t o) : Runs (replyP p) t (reply o) := by
  obtain ⟨t1, r⟩ := o
  unfold replyP reply
  cases r with
  | ok u => exact h.bind_ok (.ret _ _ _ rfl)
  | err e => exact h.bind_err
  | died => exact h.bind_died

theorem insertResumeP_runs (t : Table) (i : Item) (now : Int) (d : Draw) :
    Runs (t.insertResumeP i now d) t (t.insertResume i now d) := by
  unfold insertResumeP insertResume
  cases t.limiter.awaitInsert with
  | cancelled => exact .ret _ _ _ rfl
  | wait => exact .ret _ _ _ rfl
  | proceed =>
    dsimp only
    split
    · exact replyP_runs (updateItemP_runs _ _ _)
    · exact replyP_runs (insertNewP_runs _ _ _ _)

theorem deleteAllP_runs (ks : List Key) (t : Table) : Runs (t.deleteAllP ks) t (t.deleteAll ks) := by
  induction ks generalizing t with
  | nil => exact .ret _ _ _ rfl
  | cons k ks ih =>
    rw [deleteAllP, deleteAll]
    have h := deleteItemP_runs t k
    generalize t.deleteItem k = o at h
    obtain ⟨t1, r⟩ := o
    cases r with
    | ok u => exact h.bind_ok (ih t1)
    | err e => exact h.bind_err
    | died => exact h.bind_died

theorem updateAllP_runs (us : List (Key × Pri)) (t : Table) : Runs (t.updateAllP us) t (t.updateAll us) := by
  induction us generalizing t with
  | nil => exact .ret _ _ _ rfl
  | cons u us ih =>
    rw [updateAllP, updateAll]
    have h := updateItemP_runs t u.1 u.2
    generalize t.updateItem u.1 u.2 = o at h
    obtain ⟨t1, r⟩ := o
    cases r with
    | ok u => exact h.bind_ok (ih t1)
    | err e => exact h.bind_err
    | died => exact h.bind_died

theorem sampleOneP_runs (t : Table) (rl : Bool) (d : Draw) : Runs (t.sampleOneP rl d) t (t.sampleOne rl d) := by
  unfold sampleOneP sampleOne
  cases t.sampler.sample d with
  | err e => exact .ret _ _ _ rfl
  | died => exact .ret _ _ _ rfl
  | ok v =>
    obtain ⟨k, pr⟩ := v
    dsimp only
    cases hk : t.data.get? k with
    | none => exact .ret _ _ _ rfl
    | some it =>
      dsimp only
      refine Runs.ext (AMap.get?_insert_self _ _ _) rfl ?_
      dsimp only
      rw [AMap.get?_insert_self]
      dsimp only
      split
      · have h := deleteItemP_runs { t with
          numUniqueSamples := if it.timesSampled = 0 then t.numUniqueSamples + 1 else t.numUniqueSamples
          data := t.data.insert k { it with timesSampled := it.timesSampled + 1 }
          log := t.log ++ [ExtEvent.sample { it with timesSampled := it.timesSampled + 1 }] } it.key
        generalize deleteItem _ it.key = o at h
        obtain ⟨t1, r⟩ := o
        cases r with
        | ok u => exact h.bind_ok (.ret _ _ _ rfl)
        | err e => exact h.bind_err
        | died => exact h.bind_died
      · exact .ret _ _ _ rfl

/-- The limiter of the table a program starts with does not matter for the log. -/
theorem Runs.start {α : Type} {p : Prog α} {t t' : Table} {o : Table × Res α} (h : Runs p t' o) (hl : t'.log = t.log) : Runs p t o := by
  obtain ⟨e, h1, h2⟩ := h
  exact ⟨e, h1, by rw [h2, hl]⟩

theorem sampleMoreP_runs (rl : Bool) (more : Nat) (t : Table) (acc : List Sampled) (ds : Nat → Draw) :
    Runs (sampleMoreP rl more t acc ds) t (t.sampleMore rl acc more ds) := by
  induction more generalizing t acc ds with
  | zero => exact .ret _ _ _ rfl
  | succ more ih =>
    rw [sampleMoreP, sampleMore]
    cases t.limiter.maybeCommitSample with
    | none => exact .ret _ _ _ rfl
    | some l =>
      dsimp only
      have h := sampleOneP_runs { t with limiter := l } rl (ds 0)
      refine Runs.start (t' := { t with limiter := l }) ?_ rfl
      generalize sampleOne { t with limiter := l } rl (ds 0) = o at h
      obtain ⟨t1, r⟩ := o
      cases r with
      | ok s => exact h.bind_ok (ih _ _ _)
      | err e => exact h.bind_err
      | died => exact h.bind_died

theorem sampleLoopP_runs (t : Table) (rl : Bool) (n : Nat) (ds : Nat → Draw) : Runs (t.sampleLoopP rl n ds) t (t.sampleLoop rl n ds) := by
  unfold sampleLoopP sampleLoop
  dsimp only
  have h := sampleOneP_runs t rl (ds 0)
  generalize t.sampleOne rl (ds 0) = o at h
  obtain ⟨t1, r⟩ := o
  cases r with
  | err e => exact h.bind_err
  | died => exact h.bind_died
  | ok s =>
    refine h.bind_ok ?_
    dsimp only
    have h := sampleMoreP_runs rl (n - 1) t1 [s] (fun i => ds (i + 1))
    generalize t1.sampleMore rl [s] (n - 1) (fun i => ds (i + 1)) = o at h
    obtain ⟨t2, r⟩ := o
    cases r with
    | ok l => exact h.bind_ok (.ret _ _ _ rfl)
    | err e => exact h.bind_err
    | died => exact h.bind_died

theorem sampleResumeP_runs (t : Table) (n : Nat) (ds : Nat → Draw) : Runs (t.sampleResumeP n ds) t (t.sampleResume n ds) := by
  unfold sampleResumeP sampleResume
  cases t.limiter.awaitSample with
  | cancelled => exact .ret _ _ _ rfl
  | wait => exact .ret _ _ _ rfl
  | proceed => exact Runs.start (sampleLoopP_runs _ _ _ _) rfl

/-- Every call. -/
theorem prog_runs (t : Table) (op : Op) (h : op ≠ .reset) : Runs (t.prog op) t (t.step op) := by
  cases op with
  | insert i now d =>
    show Runs (t.insertOrAssignP i now d) t (t.insertOrAssign i now d)
    unfold insertOrAssignP insertOrAssign
    split
    · exact .ret _ _ _ rfl
    · split
      · exact replyP_runs (updateItemP_runs _ _ _)
      · exact insertResumeP_runs _ _ _ _
  | insertResume i now d => exact insertResumeP_runs _ _ _ _
  | workerInsert i now d =>
    show Runs (t.workerInsertP i now d) t (t.workerInsert i now d)
    unfold workerInsertP workerInsert insertInternal
    split
    · refine replyP_runs ?_
      split
      · exact updateItemP_runs _ _ _
      · exact insertNewP_runs _ _ _ _
    · exact .ret _ _ _ rfl
  | mutate us ds =>
    show Runs (t.mutateItemsP us ds) t (t.mutateItems us ds)
    unfold mutateItemsP mutateItems
    dsimp only
    have h := deleteAllP_runs ds t
    generalize t.deleteAll ds = o at h
    obtain ⟨t1, r⟩ := o
    cases r with
    | ok u => exact h.bind_ok (replyP_runs (updateAllP_runs us t1))
    | err e => exact h.bind_err
    | died => exact h.bind_died
  | sample n ds =>
    show Runs (t.sampleBatchP n ds) t (t.sampleBatch n ds)
    unfold sampleBatchP sampleBatch
    cases t.limiter.maybeCommitSample with
    | none => exact sampleResumeP_runs _ _ _
    | some l => exact Runs.start (sampleLoopP_runs _ _ _ _) rfl
  | sampleResume n ds => exact sampleResumeP_runs _ _ _
  | workerSample rl d =>
    show Runs (t.workerSampleP rl d) t (t.workerSample rl d)
    unfold workerSampleP workerSample
    cases t.limiter.maybeCommitSample with
    | none => exact .ret _ _ _ rfl
    | some l =>
      dsimp only
      have h := sampleOneP_runs { t with limiter := l } rl d
      refine Runs.start (t' := { t with limiter := l }) ?_ rfl
      generalize sampleOne { t with limiter := l } rl d = o at h
      obtain ⟨t1, r⟩ := o
      cases r with
      | ok s => exact h.bind_ok (.ret _ _ _ rfl)
      | err e => exact h.bind_err
      | died => exact h.bind_died
  | reset => exact absurd rfl h
  | close => exact .ret _ _ _ rfl

end Table
end Verif
