import Verif.Model.Waiters
import Verif.Proofs.TableReach
import Verif.Proofs.Worker
/-
A critical section that changes the limiter signals after the last change; a caller that goes on after waiting always
signals.
-/
namespace Verif.Table

/-- The state of the limiter after the last signal. -/
def lastPoint (ps : List Limiter) (l : Limiter) : Limiter := ps.getLast?.getD l

@[simp] theorem lastPoint_nil (l : Limiter) : lastPoint [] l = l := rfl

@[simp] theorem lastPoint_single (a l : Limiter) : lastPoint [a] l = a := rfl

theorem lastPoint_append (a b : List Limiter) (l : Limiter) : lastPoint (a ++ b) l = lastPoint b (lastPoint a l) := by
  unfold lastPoint
  rw [List.getLast?_append]
  cases b.getLast? <;> simp

theorem lastPoint_cons (a : Limiter) (b : List Limiter) (l : Limiter) : lastPoint (a :: b) l = lastPoint b a := by
  rw [← List.singleton_append, lastPoint_append]; simp

theorem deletePoints_last (t : Table) (k : Key) : lastPoint (t.deletePoints k) t.limiter = (t.deleteItem k).1.limiter := by
  unfold deletePoints deleteItem
  cases h : t.data.get? k with
  | none => rfl
  | some it =>
    cases h2 : decRefs t.episodeRefs t.numDeletedEpisodes it.chunks with
    | none => simp [h2]
    | some x =>
      obtain ⟨refs, nd⟩ := x
      simp only [h2, lastPoint_single]
      split <;> rfl

theorem updateItem_limiter (t : Table) (k : Key) (p : Pri) : (t.updateItem k p).1.limiter = t.limiter := by
  unfold updateItem
  split
  · rfl
  · simp only
    split
    · split <;> rfl
    · rfl

theorem updateAll_limiter (t : Table) (us : List (Key × Pri)) : (t.updateAll us).1.limiter = t.limiter := by
  induction us generalizing t with
  | nil => rfl
  | cons u us ih =>
    simp only [updateAll]
    split
    · rw [ih, updateItem_limiter]
    · rw [updateItem_limiter]

theorem insertNewPoints_last (t : Table) (i : Item) (now : Int) (d : Draw) :
    lastPoint (t.insertNewPoints i now d) t.limiter = (t.insertNew i now d).1.limiter ∧
    ((t.insertNew i now d).2 = .ok () → t.insertNewPoints i now d ≠ []) := by
  simp only [insertNewPoints, insertNew]
  generalize hs : t.sampler.apply _ = rs
  obtain ⟨s', r1⟩ := rs
  cases r1 with
  | err c => simp
  | died => simp
  | ok u =>
    simp only
    generalize hr : t.remover.apply _ = rr
    obtain ⟨r', r2⟩ := rr
    cases r2 with
    | err c => simp
    | died => simp
    | ok u =>
      simp only
      split
      · generalize hv : Sel.sample r' d = v
        cases v with
        | err c => simp
        | died => simp
        | ok x =>
          obtain ⟨k, pr⟩ := x
          simp only
          generalize ht : ({ t with
            data := t.data.insert i.key { i with insertedAt := now }
            sampler := s'
            remover := r'
            log := t.log ++ [ExtEvent.insert { i with insertedAt := now }]
            episodeRefs := incRefs t.episodeRefs i.chunks } : Table) = t4
          have hl : t.limiter = t4.limiter := by rw [← ht]
          have hd := deletePoints_last t4 k
          cases hx : (t4.deleteItem k).2 with
          | ok u => simp [lastPoint_append]
          | err c => simp [hl, hd]
          | died => simp [hl, hd]
      · simp

theorem insertResumePoints_last (t : Table) (i : Item) (now : Int) (d : Draw) :
    lastPoint (t.insertResumePoints i now d) t.limiter = (t.insertResume i now d).1.limiter := by
  unfold insertResumePoints insertResume
  cases h : t.limiter.awaitInsert with
  | cancelled => rfl
  | wait => rfl
  | proceed =>
    simp only
    split
    · rw [reply_fst, updateItem_limiter]; rfl
    · rw [reply_fst, (insertNewPoints_last ..).1]

theorem insertPoints_last (t : Table) (i : Item) (now : Int) (d : Draw) :
    lastPoint (t.insertPoints i now d) t.limiter = (t.insertOrAssign i now d).1.limiter := by
  unfold insertPoints insertOrAssign
  split
  · rfl
  · split
    · rw [reply_fst, updateItem_limiter]; rfl
    · exact insertResumePoints_last ..

theorem deleteAllPoints_last (t : Table) (ks : List Key) :
    lastPoint (t.deleteAllPoints ks) t.limiter = (t.deleteAll ks).1.limiter := by
  induction ks generalizing t with
  | nil => rfl
  | cons k ks ih =>
    simp only [deleteAllPoints, deleteAll]
    split
    · rename_i h
      simp only [h]
      rw [lastPoint_append, deletePoints_last, ih]
    · rename_i h
      split
      · rename_i h2; exact absurd h2 h
      · exact deletePoints_last _ _

theorem sampleOnePoints_last (t : Table) (rl : Bool) (d : Draw) :
    lastPoint (t.sampleOnePoints d) t.limiter = (t.sampleOne rl d).1.limiter := by
  unfold sampleOnePoints sampleOne
  cases h : t.sampler.sample d with
  | err c => rfl
  | died => rfl
  | ok x =>
    obtain ⟨k, p⟩ := x
    simp only
    cases h1 : t.data.get? k with
    | none => rfl
    | some it =>
      simp only
      generalize ht : ({ t with
        numUniqueSamples := if it.timesSampled = 0 then t.numUniqueSamples + 1 else t.numUniqueSamples
        data := t.data.insert k { it with timesSampled := it.timesSampled + 1 }
        log := t.log ++ [ExtEvent.sample { it with timesSampled := it.timesSampled + 1 }] } : Table) = t1
      have hl : t.limiter = t1.limiter := by rw [← ht]
      rw [hl]
      have hd := deletePoints_last t1 it.key
      split
      · rw [hd]
        split <;> rfl
      · rfl

theorem sampleMorePoints_last (more : Nat) : ∀ (t : Table) (rl : Bool) (acc : List Sampled) (ds : Nat → Draw),
    lastPoint (t.sampleMorePoints rl more ds) t.limiter = (t.sampleMore rl acc more ds).1.limiter := by
  induction more with
  | zero => intros; rfl
  | succ n ih =>
    intro t rl acc ds
    simp only [sampleMorePoints, sampleMore]
    cases h : t.limiter.maybeCommitSample with
    | none => rfl
    | some l =>
      simp only
      cases h1 : (({ t with limiter := l } : Table).sampleOne rl (ds 0)).2 with
      | ok s =>
        simp only [List.cons_append]
        rw [lastPoint_cons, lastPoint_append]
        rw [show lastPoint (({ t with limiter := l } : Table).sampleOnePoints (ds 0)) l = _ from
          sampleOnePoints_last { t with limiter := l } rl (ds 0)]
        exact ih _ _ _ _
      | err c => rw [lastPoint_cons]; exact sampleOnePoints_last { t with limiter := l } rl (ds 0)
      | died => rw [lastPoint_cons]; exact sampleOnePoints_last { t with limiter := l } rl (ds 0)

theorem sampleLoopPoints_last (t : Table) (rl : Bool) (n : Nat) (ds : Nat → Draw) :
    lastPoint (t.sampleLoopPoints rl n ds) t.limiter = (t.sampleLoop rl n ds).1.limiter := by
  simp only [sampleLoopPoints, sampleLoop]
  cases h1 : (t.sampleOne rl (ds 0)).2 with
  | ok s =>
    simp only
    rw [lastPoint_append, sampleOnePoints_last t rl, sampleMorePoints_last _ _ _ [s]]
    split <;> rfl
  | err c => exact sampleOnePoints_last t rl (ds 0)
  | died => exact sampleOnePoints_last t rl (ds 0)

theorem sampleResumePoints_last (t : Table) (n : Nat) (ds : Nat → Draw) :
    lastPoint (t.sampleResumePoints n ds) t.limiter = (t.sampleResume n ds).1.limiter := by
  unfold sampleResumePoints sampleResume
  cases h : t.limiter.awaitSample with
  | cancelled => rfl
  | wait => rfl
  | proceed =>
    simp only
    rw [lastPoint_cons]
    exact sampleLoopPoints_last { t with limiter := { t.limiter with samples := t.limiter.samples + 1 } } true n ds

/-- The sections of the table worker. -/
def Op.byWorker : Op → Bool
  | .workerInsert .. => true
  | .workerSample .. => true
  | _ => false

/-- After its last signal a critical section does not change the limiter any more. -/
theorem points_last (t : Table) (op : Op) (hw : op.byWorker = false) (hc : op ≠ .close) :
    lastPoint (t.points op) t.limiter = (t.step op).1.limiter := by
  cases op with
  | insert i now d => exact insertPoints_last ..
  | insertResume i now d => exact insertResumePoints_last ..
  | workerInsert => simp [Op.byWorker] at hw
  | mutate us ds =>
    simp only [points, step, mutateItems]
    split
    · rw [reply_fst, updateAll_limiter, deleteAllPoints_last]
    · exact deleteAllPoints_last ..
    · exact deleteAllPoints_last ..
  | sample n ds =>
    simp only [points, step, samplePoints, sampleBatch]
    cases h : t.limiter.maybeCommitSample with
    | some l =>
      simp only
      rw [lastPoint_cons]
      exact sampleLoopPoints_last { t with limiter := l } false n ds
    | none => exact sampleResumePoints_last ..
  | sampleResume n ds => exact sampleResumePoints_last ..
  | workerSample => simp [Op.byWorker] at hw
  | reset => rfl
  | close => exact absurd rfl hc

theorem sampleLoop_not_blocked (t : Table) (rl : Bool) (n : Nat) (ds : Nat → Draw) :
    (t.sampleLoop rl n ds).2 ≠ .ok .blocked := by
  simp only [sampleLoop]
  split
  · split <;> simp
  · simp
  · simp

theorem reply_not_blocked (r : Table × Res Unit) : (reply r).2 ≠ .ok .blocked := by
  unfold reply; split <;> simp

/-- A call that has to wait has found the condition false, the table not cancelled, and has not done
anything. -/
theorem blocked_iff {t : Table} {op : Op} (hw : op.byWorker = false) (h : (t.step op).2 = .ok .blocked) :
    (t.step op).1 = t ∧ t.points op = [] ∧ t.limiter.cancelled = false ∧
      ((∃ i now d, (op = .insert i now d ∨ op = .insertResume i now d) ∧ t.limiter.canInsert 1 = false) ∨
       (∃ n ds, (op = .sample n ds ∨ op = .sampleResume n ds) ∧ t.limiter.canSample 1 = false)) := by
  have hins : ∀ i now d, (t.insertResume i now d).2 = .ok .blocked →
      (t.insertResume i now d).1 = t ∧ t.insertResumePoints i now d = [] ∧ t.limiter.cancelled = false ∧
      t.limiter.canInsert 1 = false := by
    intro i now d
    unfold insertResume insertResumePoints Limiter.awaitInsert
    cases t.limiter.cancelled <;> cases t.limiter.canInsert 1 <;> simp
    split <;> simp [reply_not_blocked]
  have hsmp : ∀ n ds, (t.sampleResume n ds).2 = .ok .blocked →
      (t.sampleResume n ds).1 = t ∧ t.sampleResumePoints n ds = [] ∧ t.limiter.cancelled = false ∧
      t.limiter.canSample 1 = false := by
    intro n ds
    unfold sampleResume sampleResumePoints Limiter.awaitSample
    cases t.limiter.cancelled <;> cases t.limiter.canSample 1 <;> simp [sampleLoop_not_blocked]
  cases op with
  | insert i now d =>
    simp only [step, insertOrAssign, points, insertPoints] at h ⊢
    split at h
    · simp at h
    · split at h
      · exact absurd h (reply_not_blocked _)
      · rename_i h1 h2
        obtain ⟨a, b, c, e⟩ := hins i now d h
        rw [if_neg h1, if_neg h2, if_neg h1, if_neg h2]
        exact ⟨a, b, c, .inl ⟨i, now, d, .inl rfl, e⟩⟩
  | insertResume i now d =>
    obtain ⟨a, b, c, e⟩ := hins i now d h
    exact ⟨a, b, c, .inl ⟨i, now, d, .inr rfl, e⟩⟩
  | workerInsert => simp [Op.byWorker] at hw
  | mutate us ds =>
    simp only [step, mutateItems] at h
    split at h
    · exact absurd h (reply_not_blocked _)
    · simp at h
    · simp at h
  | sample n ds =>
    simp only [step, sampleBatch, points, samplePoints] at h ⊢
    cases hm : t.limiter.maybeCommitSample with
    | some l => simp only [hm] at h; exact absurd h (sampleLoop_not_blocked _ _ _ _)
    | none =>
      simp only [hm] at h ⊢
      obtain ⟨a, b, c, e⟩ := hsmp n ds h
      exact ⟨a, b, c, .inr ⟨n, ds, .inl rfl, e⟩⟩
  | sampleResume n ds =>
    obtain ⟨a, b, c, e⟩ := hsmp n ds h
    exact ⟨a, b, c, .inr ⟨n, ds, .inr rfl, e⟩⟩
  | workerSample => simp [Op.byWorker] at hw
  | reset => simp [step] at h
  | close => simp [step] at h

/-- A caller that returns from its wait signals if it goes on. -/
theorem resume_points {t : Table} {op : Op} (h : (∃ i now d, op = .insertResume i now d) ∨ (∃ n ds, op = .sampleResume n ds))
    (hr : (t.step op).2 = .ok .done ∨ ∃ l, (t.step op).2 = .ok (.samples l)) : t.points op ≠ [] := by
  rcases h with ⟨i, now, d, rfl⟩ | ⟨n, ds, rfl⟩
  · simp only [step, points, insertResume, insertResumePoints] at hr ⊢
    cases ha : t.limiter.awaitInsert with
    | cancelled => simp [ha] at hr
    | wait => simp [ha] at hr
    | proceed =>
      simp only [ha] at hr ⊢
      split at hr
      · rename_i h1; simp [h1]
      · rename_i h1
        rw [if_neg h1]
        refine (insertNewPoints_last ..).2 ?_
        revert hr
        unfold reply
        split
        · rename_i h2; intro _; exact h2
        · simp
        · simp
  · simp only [step, points, sampleResume, sampleResumePoints] at hr ⊢
    cases ha : t.limiter.awaitSample with
    | cancelled => simp [ha] at hr
    | wait => simp [ha] at hr
    | proceed => simp

/-- On a cancelled table a caller that returns from its wait gets `Cancelled`. -/
theorem resume_cancelled {t : Table} {op : Op}
    (h : (∃ i now d, op = .insertResume i now d) ∨ (∃ n ds, op = .sampleResume n ds))
    (hc : t.limiter.cancelled = true) : t.step op = (t, .err .cancelled) ∧ t.points op = [] := by
  rcases h with ⟨i, now, d, rfl⟩ | ⟨n, ds, rfl⟩
  · simp [step, points, insertResume, insertResumePoints, Limiter.awaitInsert, hc]
  · simp [step, points, sampleResume, sampleResumePoints, Limiter.awaitSample, hc]

/-- A caller that returns from its wait never finds its arguments wrong. -/
theorem resume_err {t : Table} {op : Op} {kS kR : SelKind} (hi : Inv kS kR t) (ho : op.okFor kS kR)
    (h : (∃ i now d, op = .insertResume i now d) ∨ (∃ n ds, op = .sampleResume n ds)) {c : Code}
    (he : (t.step op).2 = .err c) : t.limiter.cancelled = true := by
  cases hc : t.limiter.cancelled with
  | true => rfl
  | false =>
    exfalso
    rcases h with ⟨i, now, d, rfl⟩ | ⟨n, ds, rfl⟩
    · cases hcan : t.limiter.canInsert 1 with
      | false => simp [step, insertResume, Limiter.awaitInsert, hc, hcan] at he
      | true =>
        have ha : t.limiter.awaitInsert = .proceed := by simp [Limiter.awaitInsert, hc, hcan]
        cases hk : t.data.get? i.key with
        | some it =>
          obtain ⟨t', h1, h2⟩ := hi.update hk ho
          simp [step, insertResume, ha, AMap.contains, hk, h1, reply] at he
        | none =>
          obtain ⟨t', v, h1, h2, _⟩ := hi.insertNew (now := now) hk ho hcan d
          simp [step, insertResume, ha, AMap.contains, hk, h1, reply] at he
    · cases hcan : t.limiter.canSample 1 with
      | false => simp [step, sampleResume, Limiter.awaitSample, hc, hcan] at he
      | true =>
        have ha : t.limiter.awaitSample = .proceed := by simp [Limiter.awaitSample, hc, hcan]
        obtain ⟨t', l, mvs, h1, h2, h3, h4⟩ := hi.sampleLoop hcan true n ds
        have e : t.step (.sampleResume n ds) = (t', .ok (.samples l)) := by
          simp only [step, sampleResume, ha]; exact h1
        simp [e] at he

end Verif.Table

namespace Verif.Waiters
open Table (Op)

/-! ### Signals -/

/-- Waiting threads with the same calls, of which at least the same are signalled. -/
inductive Woken : List Waiter → List Waiter → Prop
  | nil : Woken [] []
  | cons {a b : Waiter} {as bs : List Waiter} (hid : b.id = a.id) (hcall : b.call = a.call)
      (hs : a.signalled = true → b.signalled = true) (h : Woken as bs) : Woken (a :: as) (b :: bs)

theorem Woken.refl : ∀ ws, Woken ws ws
  | [] => .nil
  | _ :: ws => .cons rfl rfl id (Woken.refl ws)

theorem Woken.trans {a b c : List Waiter} (h1 : Woken a b) (h2 : Woken b c) : Woken a c := by
  induction h1 generalizing c with
  | nil => exact h2
  | cons i1 c1 s1 _ ih => cases h2 with | cons i2 c2 s2 h => exact .cons (i2.trans i1) (c2.trans c1) (s2 ∘ s1) (ih h)

theorem Woken.map (f : Waiter → Waiter) (hid : ∀ w, (f w).id = w.id) (hc : ∀ w, (f w).call = w.call)
    (hs : ∀ w, w.signalled = true → (f w).signalled = true) : ∀ ws, Woken ws (ws.map f)
  | [] => .nil
  | w :: ws => .cons (hid w) (hc w) (hs w) (Woken.map f hid hc hs ws)

/-- Some waiting thread satisfying `p`. -/
def some_ (p : Waiter → Bool) (ws : List Waiter) : Prop := ∃ w ∈ ws, p w = true

/-- Some signalled waiting thread satisfying `p`. -/
def awake (p : Waiter → Bool) (ws : List Waiter) : Prop := ∃ w ∈ ws, p w = true ∧ w.signalled = true

/-- A property of the call only. -/
def ofCall (p : Waiter → Bool) : Prop := ∀ a b : Waiter, b.call = a.call → p b = p a

theorem ofCall_inserts : ofCall Waiter.inserts := fun a b h => by simp [Waiter.inserts, h]
theorem ofCall_samples : ofCall Waiter.samples := fun a b h => by simp [Waiter.samples, h]

theorem Woken.back {a b : List Waiter} (h : Woken a b) : ∀ w ∈ b, ∃ v ∈ a, w.id = v.id ∧ w.call = v.call ∧
    (v.signalled = true → w.signalled = true) := by
  induction h with
  | nil => simp
  | cons i c s _ ih =>
    intro w hw
    rcases List.mem_cons.mp hw with rfl | hw
    · exact ⟨_, List.mem_cons_self, i, c, s⟩
    · obtain ⟨v, hv, e⟩ := ih w hw
      exact ⟨v, List.mem_cons_of_mem _ hv, e⟩

theorem Woken.forth {a b : List Waiter} (h : Woken a b) : ∀ w ∈ a, ∃ v ∈ b, v.id = w.id ∧ v.call = w.call ∧
    (w.signalled = true → v.signalled = true) := by
  induction h with
  | nil => simp
  | cons i c s _ ih =>
    intro w hw
    rcases List.mem_cons.mp hw with rfl | hw
    · exact ⟨_, List.mem_cons_self, i, c, s⟩
    · obtain ⟨v, hv, e⟩ := ih w hw
      exact ⟨v, List.mem_cons_of_mem _ hv, e⟩

theorem Woken.ids {a b : List Waiter} (h : Woken a b) : b.map Waiter.id = a.map Waiter.id := by
  induction h with
  | nil => rfl
  | cons i c s _ ih => simp [i, ih]

theorem Woken.awake {a b : List Waiter} (h : Woken a b) {p : Waiter → Bool} (hp : ofCall p) (ha : awake p a) : awake p b := by
  obtain ⟨w, hw, h1, h2⟩ := ha
  obtain ⟨v, hv, _, h4, h5⟩ := h.forth w hw
  exact ⟨v, hv, (hp w v h4).trans h1, h5 h2⟩

theorem Woken.some_back {a b : List Waiter} (h : Woken a b) {p : Waiter → Bool} (hp : ofCall p) (ha : some_ p b) : some_ p a := by
  obtain ⟨w, hw, h1⟩ := ha
  obtain ⟨v, hv, _, h4, _⟩ := h.back w hw
  exact ⟨v, hv, (hp v w h4).symm.trans h1⟩

theorem Woken.some_forth {a b : List Waiter} (h : Woken a b) {p : Waiter → Bool} (hp : ofCall p) (ha : some_ p a) : some_ p b := by
  obtain ⟨w, hw, h1⟩ := ha
  obtain ⟨v, hv, _, h4, _⟩ := h.forth w hw
  exact ⟨v, hv, (hp w v h4).trans h1⟩

theorem wakeOne_woken (p : Waiter → Bool) (n : Nat) (ws : List Waiter) : Woken ws (wakeOne p n ws) := by
  simp only [wakeOne]
  split
  · exact .refl _
  · refine .map _ ?_ ?_ ?_ _ <;> intro w <;> split <;> simp

/-- `Signal` leaves nobody waiting unsignalled alone. -/
theorem wakeOne_awake (p : Waiter → Bool) (hp : ofCall p) (n : Nat) (ws : List Waiter) (h : some_ p ws) :
    awake p (wakeOne p n ws) := by
  by_cases ha : awake p ws
  · exact (wakeOne_woken p n ws).awake hp ha
  · obtain ⟨w, hw, h1⟩ := h
    have hmem : w ∈ ws.filter fun w => p w && !w.signalled := by
      refine List.mem_filter.mpr ⟨hw, ?_⟩
      have : w.signalled = false := by
        cases hs : w.signalled with
        | false => rfl
        | true => exact absurd ⟨w, hw, h1, hs⟩ ha
      simp [h1, this]
    have hpos := List.length_pos_of_mem hmem
    have hlt := Nat.mod_lt n hpos
    simp only [wakeOne]
    rw [List.getElem?_eq_getElem hlt]
    generalize hx : (ws.filter fun w => p w && !w.signalled)[n % _] = x
    have hxm : x ∈ ws.filter fun w => p w && !w.signalled := hx ▸ List.getElem_mem hlt
    rw [List.mem_filter] at hxm
    refine ⟨{ x with signalled := true }, List.mem_map.mpr ⟨x, hxm.1, by simp⟩, ?_, rfl⟩
    have := hxm.2
    simp only [Bool.and_eq_true] at this
    exact (hp x { x with signalled := true } rfl).trans this.1

theorem signalAt_woken (pick : Nat → Nat) (ls : List Limiter) (ws : List Waiter) : Woken ws (signalAt pick ls ws) := by
  induction ls generalizing pick ws with
  | nil => exact .refl _
  | cons l ls ih =>
    simp only [signalAt]
    refine Woken.trans ?_ (ih _ _)
    have h1 : Woken ws (if l.canInsert 1 then wakeOne Waiter.inserts (pick 0) ws else ws) := by
      split
      · exact wakeOne_woken _ _ _
      · exact .refl _
    refine h1.trans ?_
    generalize (if l.canInsert 1 then wakeOne Waiter.inserts (pick 0) ws else ws) = ws1
    split
    · exact wakeOne_woken _ _ _
    · exact .refl _

/-- After the signals of a critical section, if the last of them found the condition true, somebody is signalled. -/
theorem signalAt_awake (pick : Nat → Nat) (ls : List Limiter) (ws : List Waiter) (hne : ls ≠ []) (l : Limiter)
    (hl : ls.getLast? = some l) :
    (l.canInsert 1 = true → some_ Waiter.inserts ws → awake Waiter.inserts (signalAt pick ls ws)) ∧
    (l.canSample 1 = true → some_ Waiter.samples ws → awake Waiter.samples (signalAt pick ls ws)) := by
  induction ls generalizing pick ws with
  | nil => exact absurd rfl hne
  | cons a ls ih =>
    simp only [signalAt]
    have hw1 : Woken ws (if a.canInsert 1 then wakeOne Waiter.inserts (pick 0) ws else ws) := by
      split
      · exact wakeOne_woken _ _ _
      · exact .refl _
    generalize h1 : (if a.canInsert 1 then wakeOne Waiter.inserts (pick 0) ws else ws) = ws1 at hw1
    have hw2 : Woken ws1 (if a.canSample 1 then wakeOne Waiter.samples (pick 1) ws1 else ws1) := by
      split
      · exact wakeOne_woken _ _ _
      · exact .refl _
    generalize h2 : (if a.canSample 1 then wakeOne Waiter.samples (pick 1) ws1 else ws1) = ws2 at hw2
    cases ls with
    | nil =>
      simp only [List.getLast?_singleton, Option.some.injEq] at hl
      subst hl
      simp only [signalAt]
      constructor
      · intro hc hs
        rw [if_pos hc] at h1
        exact hw2.awake ofCall_inserts (h1 ▸ wakeOne_awake _ ofCall_inserts _ _ hs)
      · intro hc hs
        rw [if_pos hc] at h2
        exact h2 ▸ wakeOne_awake _ ofCall_samples _ _ (hw1.some_forth ofCall_samples hs)
    | cons b ls =>
      have hw := hw1.trans hw2
      obtain ⟨i1, i2⟩ := ih (fun i => pick (i + 2)) ws2 (by simp) (by simpa using hl)
      exact ⟨fun hc hs => i1 hc (hw.some_forth ofCall_inserts hs), fun hc hs => i2 hc (hw.some_forth ofCall_samples hs)⟩

/-! ### Steps -/

/-- The call of a waiting thread. -/
def Call.waits : Call → Bool
  | .insert _ => true
  | .sample _ => true
  | _ => false

theorem start_not_worker (c : Call) (e : Env) : (c.start e).byWorker = false := by cases c <;> rfl
theorem resume_not_worker (c : Call) (e : Env) : (c.resume e).byWorker = false := by cases c <;> rfl

theorem resume_kind {c : Call} (h : c.waits = true) (e : Env) :
    (∃ i now d, c.resume e = .insertResume i now d) ∨ (∃ n ds, c.resume e = .sampleResume n ds) := by
  cases c with
  | insert i => exact .inl ⟨_, _, _, rfl⟩
  | sample n => exact .inr ⟨_, _, rfl⟩
  | _ => simp [Call.waits] at h

theorem resume_not_close {c : Call} (h : c.waits = true) (e : Env) : c.resume e ≠ .close := by
  cases c <;> simp [Call.resume, Call.waits] at h ⊢

theorem isClose_iff (op : Op) : op.isClose = true ↔ op = .close := by cases op <;> simp [Table.Op.isClose]

/-- The waiting threads after the signals of a section. -/
def signals (s : S) (op : Op) (e : Env) : List Waiter :=
  if op.isClose then signalAll (signalAt e.pick (s.table.points op) s.waiters)
  else signalAt e.pick (s.table.points op) s.waiters

theorem signalAll_woken (ws : List Waiter) : Woken ws (signalAll ws) :=
  Woken.map (fun w => { w with signalled := true }) (fun _ => rfl) (fun _ => rfl) (fun _ _ => rfl) ws

theorem signals_woken (s : S) (op : Op) (e : Env) : Woken s.waiters (signals s op e) := by
  unfold signals
  split
  · exact (signalAt_woken _ _ _).trans (signalAll_woken _)
  · exact signalAt_woken _ _ _

/-- The three outcomes of a section. -/
theorem section_cases (s : S) (id : Nat) (c : Call) (op : Op) (e : Env) :
    ((s.table.step op).2 = .ok .blocked ∧ section_ s id c op e = { s with
      table := (s.table.step op).1
      trace := s.trace ++ [(id, op)]
      waiters := signals s op e ++ [⟨id, c, false⟩] }) ∨
    ((s.table.step op).2 = .died ∧ section_ s id c op e = { s with
      table := (s.table.step op).1
      trace := s.trace ++ [(id, op)]
      waiters := signals s op e
      ended := s.ended ++ [(id, .returned .died)]
      dead := true }) ∨
    ((s.table.step op).2 ≠ .ok .blocked ∧ (s.table.step op).2 ≠ .died ∧ section_ s id c op e = { s with
      table := (s.table.step op).1
      trace := s.trace ++ [(id, op)]
      waiters := signals s op e
      ended := s.ended ++ [(id, .returned (s.table.step op).2)] }) := by
  simp only [section_, signals]
  split
  · rename_i h; exact .inl ⟨h, rfl⟩
  · rename_i h; exact .inr (.inl ⟨h, rfl⟩)
  · rename_i h1 h2; exact .inr (.inr ⟨h1, h2, rfl⟩)

/-- The ways to make a step. -/
inductive Tr (s : S) : Act → S → Prop
  | call (id : Nat) (c : Call) (e : Env) (hk : s.known id = false) : Tr s (.call id c e) (section_ s id c (c.start e) e)
  | wake (w : Waiter) (e : Env) (hw : w ∈ s.waiters) :
    Tr s (.wake w.id e) (section_ { s with waiters := s.waiters.filter (·.id ≠ w.id) } w.id w.call (w.call.resume e) e)
  | timeout (w : Waiter) (hw : w ∈ s.waiters) :
    Tr s (.timeout w.id) { s with
      waiters := s.waiters.filter (·.id ≠ w.id)
      ended := s.ended ++ [(w.id, .timedOut)] }

theorem tr_of_step {s s' : S} {a : Act} (h : step s a = some s') : s.dead = false ∧ Tr s a s' := by
  unfold step at h
  cases hd : s.dead with
  | true => simp [hd] at h
  | false =>
    refine ⟨rfl, ?_⟩
    simp only [hd, Bool.false_eq_true, if_false] at h
    cases a with
    | call id c e =>
      simp only at h
      split at h
      · simp at h
      · rename_i hk
        cases h
        exact .call id c e (by simpa using hk)
    | wake id e =>
      simp only at h
      split at h
      · simp at h
      · rename_i w hf
        cases h
        have h1 := List.find?_some hf
        have h2 := List.mem_of_find?_eq_some hf
        simp only [decide_eq_true_eq] at h1
        subst h1
        rw [← hd]
        exact .wake w e h2
    | timeout id =>
      simp only at h
      split at h
      · simp at h
      · rename_i w hf
        cases h
        have h1 := List.find?_some hf
        have h2 := List.mem_of_find?_eq_some hf
        simp only [decide_eq_true_eq] at h1
        subst h1
        rw [← hd]
        exact .timeout w h2

theorem run_append (s : S) (as bs : List Act) : run s (as ++ bs) = (run s as).bind fun s' => run s' bs := by
  induction as generalizing s with
  | nil => rfl
  | cons a as ih =>
    simp only [List.cons_append, run]
    cases step s a with
    | none => rfl
    | some s' => exact ih s'

/-- Induction over schedules, from the left to the right. -/
theorem run_ind {s0 : S} (P : List Act → S → Prop) (h0 : P [] s0)
    (hs : ∀ as s a s', run s0 as = some s → P as s → step s a = some s' → P (as ++ [a]) s') :
    ∀ as s, run s0 as = some s → P as s := by
  intro as
  generalize hn : as.length = n
  induction n generalizing as with
  | zero =>
    intro s h
    cases List.length_eq_zero_iff.mp hn
    cases h
    exact h0
  | succ n ih =>
    intro s h
    rcases List.eq_nil_or_concat as with rfl | ⟨bs, a, rfl⟩
    · simp at hn
    · rw [List.concat_eq_append] at h hn ⊢
      rw [run_append] at h
      cases hb : run s0 bs with
      | none => simp [hb] at h
      | some s1 =>
        simp only [hb, Option.bind_some, run] at h
        split at h
        · simp at h
        · rename_i s2 h2
          cases h
          exact hs bs s1 a _ hb (ih bs (by simpa using hn) s1 hb) h2

/-! ### Invariants that always hold -/

/-- The waiting threads wait for the limiter; on a cancelled table all of them are signalled. -/
structure Base (s : S) : Prop where
  kind : ∀ w ∈ s.waiters, w.call.waits = true
  closed : s.table.limiter.cancelled = true → ∀ w ∈ s.waiters, w.signalled = true
  nodup : (s.waiters.map Waiter.id).Nodup
  fresh : ∀ w ∈ s.waiters, ∀ x ∈ s.ended, x.1 ≠ w.id
  once : (s.ended.map Prod.fst).Nodup
  close : s.table.limiter.cancelled = true ↔ ∃ id, (id, Op.close) ∈ s.trace

theorem Base.init (c : Config) : Base (Waiters.init c.init) := by
  constructor <;> simp [Waiters.init]; rfl

theorem Base.filter {s : S} (h : Base s) (p : Waiter → Bool) : Base { s with waiters := s.waiters.filter p } where
  kind w hw := h.kind w (List.mem_filter.mp hw).1
  closed hc w hw := h.closed hc w (List.mem_filter.mp hw).1
  nodup := h.nodup.sublist (List.Sublist.map _ List.filter_sublist)
  fresh w hw := h.fresh w (List.mem_filter.mp hw).1
  once := h.once
  close := h.close

theorem Base.section {s : S} (h : Base s) {id : Nat} {c : Call} {op : Op} {e : Env} (hw : op.byWorker = false)
    (hc : c.waits = false → (s.table.step op).2 ≠ .ok .blocked)
    (hid : ∀ w ∈ s.waiters, w.id ≠ id) (hend : ∀ x ∈ s.ended, x.1 ≠ id) : Base (section_ s id c op e) := by
  have hwk := signals_woken s op e
  have hkind : ∀ w ∈ signals s op e, w.call.waits = true := by
    intro w hm
    obtain ⟨v, hv, _, h2, _⟩ := hwk.back w hm
    rw [h2]; exact h.kind v hv
  have hnod : ((signals s op e).map Waiter.id).Nodup := by rw [hwk.ids]; exact h.nodup
  have hids : ∀ w ∈ signals s op e, w.id ≠ id ∧ ∀ x ∈ s.ended, x.1 ≠ w.id := by
    intro w hm
    obtain ⟨v, hv, h1, _, _⟩ := hwk.back w hm
    rw [h1]; exact ⟨hid v hv, h.fresh v hv⟩
  have hclosed : (s.table.step op).1.limiter.cancelled = true → ∀ w ∈ signals s op e, w.signalled = true := by
    intro hcl w hm
    rcases (Table.step_cancelled s.table op).mp hcl with hcl | rfl
    · obtain ⟨v, hv, _, _, h3⟩ := hwk.back w hm
      exact h3 (h.closed hcl v hv)
    · simp only [signals, Table.Op.isClose, if_true, signalAll] at hm
      obtain ⟨v, _, rfl⟩ := List.mem_map.mp hm
      rfl
  have hfr : ∀ (r : Ending), ∀ w ∈ signals s op e, ∀ x ∈ s.ended ++ [(id, r)], x.1 ≠ w.id := by
    intro r w hm x hx
    rcases List.mem_append.mp hx with hx | hx
    · exact (hids w hm).2 x hx
    · simp only [List.mem_singleton] at hx; subst hx; exact fun e => (hids w hm).1 e.symm
  have honce : ∀ (r : Ending), ((s.ended ++ [(id, r)]).map Prod.fst).Nodup := by
    intro r
    simp only [List.map_append, List.map_cons, List.map_nil]
    rw [List.nodup_append]
    refine ⟨h.once, by simp, ?_⟩
    intro a ha b hb
    simp only [List.mem_singleton] at hb
    subst hb
    obtain ⟨x, hx, rfl⟩ := List.mem_map.mp ha
    exact hend x hx
  have hclose : (s.table.step op).1.limiter.cancelled = true ↔ ∃ j, (j, Op.close) ∈ s.trace ++ [(id, op)] := by
    rw [Table.step_cancelled, h.close]
    constructor
    · rintro (⟨j, hj⟩ | rfl)
      · exact ⟨j, List.mem_append_left _ hj⟩
      · exact ⟨id, by simp⟩
    · rintro ⟨j, hj⟩
      rcases List.mem_append.mp hj with hj | hj
      · exact .inl ⟨j, hj⟩
      · simp only [List.mem_singleton, Prod.mk.injEq] at hj; exact .inr hj.2.symm
  rcases section_cases s id c op e with ⟨hb, he⟩ | ⟨hb, he⟩ | ⟨hb1, hb2, he⟩
  · rw [he]
    have hcw : c.waits = true := by
      cases hx : c.waits with
      | true => rfl
      | false => exact absurd hb (hc hx)
    obtain ⟨h1, h2, h3, h4⟩ := Table.blocked_iff hw hb
    refine ⟨?_, ?_, ?_, ?_, h.once, hclose⟩
    · intro w hm
      rcases List.mem_append.mp hm with hm | hm
      · exact hkind w hm
      · simp only [List.mem_singleton] at hm; subst hm; exact hcw
    · intro hcl
      simp only [h1, h3] at hcl
      simp at hcl
    · simp only [List.map_append, List.map_cons, List.map_nil]
      rw [List.nodup_append]
      refine ⟨hnod, by simp, ?_⟩
      intro a ha b hb
      simp only [List.mem_singleton] at hb
      subst hb
      obtain ⟨w, hm, rfl⟩ := List.mem_map.mp ha
      exact (hids w hm).1
    · intro w hm
      rcases List.mem_append.mp hm with hm | hm
      · exact (hids w hm).2
      · simp only [List.mem_singleton] at hm; subst hm; exact hend
  · rw [he]; exact ⟨hkind, hclosed, hnod, hfr _, honce _, hclose⟩
  · rw [he]; exact ⟨hkind, hclosed, hnod, hfr _, honce _, hclose⟩

theorem not_blocked_of_not_waits {t : Table} {c : Call} (h : c.waits = false) (e : Env) : (t.step (c.start e)).2 ≠ .ok .blocked := by
  intro hb
  obtain ⟨_, _, _, h4⟩ := Table.blocked_iff (start_not_worker c e) hb
  rcases h4 with ⟨i, now, d, h5, _⟩ | ⟨n, ds, h5, _⟩
  · cases c <;> simp [Call.start, Call.waits] at h5 h
  · cases c <;> simp [Call.start, Call.waits] at h5 h

theorem unknown {s : S} {id : Nat} (h : s.known id = false) : (∀ w ∈ s.waiters, w.id ≠ id) ∧ ∀ x ∈ s.ended, x.1 ≠ id := by
  simpa [S.known] using h

theorem Base.step {s s' : S} {a : Act} (h : Base s) (hs : step s a = some s') : Base s' := by
  obtain ⟨_, ht⟩ := tr_of_step hs
  cases ht with
  | call id c e hk =>
    exact h.section (start_not_worker c e) (fun hc => not_blocked_of_not_waits hc e) (unknown hk).1 (unknown hk).2
  | wake w e hw =>
    refine (h.filter _).section (resume_not_worker _ e) (fun hc => ?_) ?_ ?_
    · rw [h.kind w hw] at hc; simp at hc
    · intro v hv
      simpa using (List.mem_filter.mp hv).2
    · exact h.fresh w hw
  | timeout w hw =>
    have hf := h.filter (fun v => decide (v.id ≠ w.id))
    refine ⟨hf.kind, hf.closed, hf.nodup, ?_, ?_, hf.close⟩
    case refine_2 =>
      simp only [List.map_append, List.map_cons, List.map_nil]
      rw [List.nodup_append]
      refine ⟨h.once, by simp, ?_⟩
      intro a ha b hb
      simp only [List.mem_singleton] at hb
      subst hb
      obtain ⟨x, hx, rfl⟩ := List.mem_map.mp ha
      exact h.fresh w hw x hx
    intro v hv x hx
    rcases List.mem_append.mp hx with hx | hx
    · exact hf.fresh v hv x hx
    · simp only [List.mem_singleton] at hx
      subst hx
      have := (List.mem_filter.mp hv).2
      simp only [decide_eq_true_eq] at this
      exact fun e => this e.symm

/-! ### Requests without effect -/

/-- The call has had an effect: it returned something other than a timeout or cancellation. -/
def Ending.effective : Ending → Bool
  | .timedOut => false
  | .returned (.err .cancelled) => false
  | _ => true

/-- The table is what one gets without the calls that were answered by timeout or cancellation. -/
def Clean (c : Config) (s : S) : Prop :=
  s.dead = false → ∀ p : Nat → Bool, (∀ x ∈ s.ended, x.2.effective = true → p x.1 = true) →
    c.init.run ((s.trace.filter fun y => p y.1).map Prod.snd) = some s.table

/-- Priorities are admitted, the table is as after sequential execution. -/
structure Sane (c : Config) (s : S) : Prop where
  reach : c.Reachable s.table
  alive : s.dead = false
  calls : ∀ w ∈ s.waiters, ∀ e, c.Admissible (w.call.resume e)

/-- The priorities in the call are admitted. -/
def Act.Ok (c : Config) : Act → Prop
  | .call _ k _ => ∀ e, c.Admissible (k.start e)
  | _ => True

theorem admissible_resume {c : Config} {k : Call} (h : ∀ e, c.Admissible (k.start e)) (e : Env) : c.Admissible (k.resume e) := by
  cases k with
  | insert i => exact h e
  | sample n => trivial
  | _ => exact h e

theorem Sane.section {c : Config} {s : S} (h : Sane c s) {id : Nat} {k : Call} {op : Op} {e : Env} (ho : c.Admissible op)
    (hk : ∀ e, c.Admissible (k.resume e)) : Sane c (section_ s id k op e) := by
  obtain ⟨mvs, hp⟩ := h.reach.inv.step op (c.okFor ho)
  have hr : c.Reachable (s.table.step op).1 := by
    obtain ⟨ops, h1, h2⟩ := h.reach
    refine ⟨ops ++ [op], ?_, ?_⟩
    · intro o hm
      rcases List.mem_append.mp hm with hm | hm
      · exact h1 o hm
      · simp only [List.mem_singleton] at hm; subst hm; exact ho
    · rw [Table.run_snoc h2]
      rcases hp.res with ⟨e, _⟩ | ⟨e, _⟩ | ⟨l, e, _⟩ | ⟨_, e, _⟩ <;> rw [e]
  have hw : ∀ w ∈ signals s op e, ∀ e, c.Admissible (w.call.resume e) := by
    intro w hm e'
    obtain ⟨v, hv, _, h2, _⟩ := (signals_woken s op e).back w hm
    rw [h2]; exact h.calls v hv e'
  rcases section_cases s id k op e with ⟨hb, he⟩ | ⟨hb, he⟩ | ⟨hb1, hb2, he⟩
  · rw [he]
    refine ⟨hr, h.alive, ?_⟩
    intro w hm
    rcases List.mem_append.mp hm with hm | hm
    · exact hw w hm
    · simp only [List.mem_singleton] at hm; subst hm; exact hk
  · exfalso
    rcases hp.res with ⟨e, _⟩ | ⟨e, _⟩ | ⟨l, e, _⟩ | ⟨_, e, _⟩ <;> rw [e] at hb <;> simp at hb
  · rw [he]; exact ⟨hr, h.alive, hw⟩

theorem Sane.filter {c : Config} {s : S} (h : Sane c s) (p : Waiter → Bool) : Sane c { s with waiters := s.waiters.filter p } :=
  ⟨h.reach, h.alive, fun w hw => h.calls w (List.mem_filter.mp hw).1⟩

theorem Sane.step {c : Config} {s s' : S} {a : Act} (h : Sane c s) (ha : a.Ok c) (hs : step s a = some s') : Sane c s' := by
  obtain ⟨_, ht⟩ := tr_of_step hs
  cases ht with
  | call id k e hk => exact h.section (ha e) (admissible_resume ha)
  | wake w e hw => exact (h.filter _).section (h.calls w hw e) (h.calls w hw)
  | timeout w hw => exact ⟨h.reach, h.alive, (h.filter _).calls⟩

theorem Sane.init (c : Config) : Sane c (Waiters.init c.init) :=
  ⟨⟨[], by simp, rfl⟩, rfl, by simp [Waiters.init]⟩

theorem Clean.section {c : Config} {s : S} (h : Clean c s) (hsane : Sane c s) {id : Nat} {k : Call} {op : Op} {e : Env}
    (ho : c.Admissible op) : Clean c (section_ s id k op e) := by
  obtain ⟨mvs, hp⟩ := hsane.reach.inv.step op (c.okFor ho)
  intro hd p hpe
  have hpe' : ∀ x ∈ s.ended, x.2.effective = true → p x.1 = true := by
    intro x hx
    refine hpe x ?_
    rcases section_cases s id k op e with ⟨_, he⟩ | ⟨_, he⟩ | ⟨_, _, he⟩ <;> rw [he]
    · exact hx
    · exact List.mem_append_left _ hx
    · exact List.mem_append_left _ hx
  have hrun := h hsane.alive p hpe'
  have htab : (section_ s id k op e).table = (s.table.step op).1 ∧ (section_ s id k op e).trace = s.trace ++ [(id, op)] := by
    rcases section_cases s id k op e with ⟨_, he⟩ | ⟨_, he⟩ | ⟨_, _, he⟩ <;> rw [he] <;> exact ⟨rfl, rfl⟩
  rw [htab.1, htab.2, List.filter_append, List.map_append]
  by_cases hpi : p id = true
  · simp only [List.filter_cons, hpi, if_true, List.filter_nil, List.map_cons, List.map_nil]
    rw [Table.run_snoc hrun]
    rcases hp.res with ⟨e, _⟩ | ⟨e, _⟩ | ⟨l, e, _⟩ | ⟨_, e, _⟩ <;> rw [e]
  · simp only [List.filter_cons, hpi, List.filter_nil]
    simp only [Bool.false_eq_true, if_false, List.map_nil, List.append_nil]
    rw [hrun]
    congr 1
    rcases hp.res with ⟨er, _⟩ | ⟨_, et, _⟩ | ⟨l, er, _⟩ | ⟨cd, _, _, et, _⟩
    · exfalso
      rcases section_cases s id k op e with ⟨hb, _⟩ | ⟨hb, _⟩ | ⟨_, _, he⟩
      · simp [er] at hb
      · simp [er] at hb
      · refine hpi (hpe (id, .returned (.ok .done)) ?_ rfl)
        rw [he, er]; simp
    · exact et.symm
    · exfalso
      rcases section_cases s id k op e with ⟨hb, _⟩ | ⟨hb, _⟩ | ⟨_, _, he⟩
      · simp [er] at hb
      · simp [er] at hb
      · refine hpi (hpe (id, .returned (.ok (.samples l))) ?_ rfl)
        rw [he, er]; simp
    · exact et.symm

theorem Clean.step {c : Config} {s s' : S} {a : Act} (h : Clean c s) (hsane : Sane c s) (ha : a.Ok c)
    (hs : step s a = some s') : Clean c s' := by
  obtain ⟨_, ht⟩ := tr_of_step hs
  cases ht with
  | call id k e hk => exact h.section hsane (ha e)
  | wake w e hw => exact Clean.section (s := { s with waiters := s.waiters.filter (·.id ≠ w.id) }) h (hsane.filter _) (hsane.calls w hw e)
  | timeout w hw => exact fun hd p hpe => h hd p fun x hx => hpe x (List.mem_append_left _ hx)

/-! ### No lost wake-up -/

/-- If some waiting thread could go on then one of its kind is signalled. -/
structure NoLost (s : S) : Prop where
  ins : s.table.limiter.canInsert 1 = true → some_ Waiter.inserts s.waiters → awake Waiter.inserts s.waiters
  smp : s.table.limiter.canSample 1 = true → some_ Waiter.samples s.waiters → awake Waiter.samples s.waiters

/-- What a section leaves behind, if its caller was not waiting, or signals, or was the last to be told. -/
theorem NoLost.section {s : S} (hb : Base s) {id : Nat} {c : Call} {op : Op} {e : Env} (hw : op.byWorker = false)
    (hkind : ((∃ i, c = .insert i) ↔ ∃ i now d, op = .insert i now d ∨ op = .insertResume i now d) ∧
      ((∃ n, c = .sample n) ↔ ∃ n ds, op = .sample n ds ∨ op = .sampleResume n ds))
    (h : s.table.points op ≠ [] ∨ s.table.limiter.cancelled = true ∨
      (op ≠ .close → (s.table.step op).2 ≠ .ok .blocked → NoLost s) ∧
      ((s.table.step op).2 = .ok .blocked →
        (s.table.limiter.canInsert 1 = true → some_ Waiter.inserts s.waiters → awake Waiter.inserts s.waiters) ∧
        (s.table.limiter.canSample 1 = true → some_ Waiter.samples s.waiters → awake Waiter.samples s.waiters))) :
    NoLost (section_ s id c op e) := by
  have hwk := signals_woken s op e
  -- the limiter at the end, if nobody has to wait
  have hfin : ∀ ws, ws = signals s op e → (s.table.step op).2 ≠ .ok .blocked →
      ((s.table.step op).1.limiter.canInsert 1 = true → some_ Waiter.inserts ws → awake Waiter.inserts ws) ∧
      ((s.table.step op).1.limiter.canSample 1 = true → some_ Waiter.samples ws → awake Waiter.samples ws) := by
    intro ws hws hnb
    subst hws
    have hall : (s.table.step op).1.limiter.cancelled = true → ∀ p, some_ p (signals s op e) → awake p (signals s op e) := by
      intro hcl p ⟨w, hm, h1⟩
      refine ⟨w, hm, h1, ?_⟩
      rcases (Table.step_cancelled s.table op).mp hcl with hcl | rfl
      · obtain ⟨v, hv, _, _, h3⟩ := hwk.back w hm
        exact h3 (hb.closed hcl v hv)
      · simp only [signals, Table.Op.isClose, if_true, signalAll] at hm
        obtain ⟨v, _, rfl⟩ := List.mem_map.mp hm
        rfl
    by_cases hcl : op = .close
    · have := (Table.step_cancelled s.table op).mpr (.inr hcl)
      exact ⟨fun _ => hall this _, fun _ => hall this _⟩
    · have hsig : signals s op e = signalAt e.pick (s.table.points op) s.waiters := by
        unfold signals
        rw [if_neg]
        intro h; exact hcl ((isClose_iff op).mp h)
      have hlast := Table.points_last s.table op hw hcl
      cases hpt : (s.table.points op).getLast? with
      | some l =>
        have hne : s.table.points op ≠ [] := by intro h0; simp [h0] at hpt
        simp only [Table.lastPoint, hpt, Option.getD_some] at hlast
        have := signalAt_awake e.pick (s.table.points op) s.waiters hne l hpt
        rw [← hlast, hsig]
        rw [hsig] at hwk
        exact ⟨fun hc hs => this.1 hc (hwk.some_back ofCall_inserts hs),
          fun hc hs => this.2 hc (hwk.some_back ofCall_samples hs)⟩
      | none =>
        have hnil : s.table.points op = [] := List.getLast?_eq_none_iff.mp hpt
        simp only [Table.lastPoint, hpt, Option.getD_none] at hlast
        rcases h with h | h | h
        · exact absurd hnil h
        · have := (Table.step_cancelled s.table op).mpr (.inl h)
          exact ⟨fun _ => hall this _, fun _ => hall this _⟩
        · have h1 := h.1 hcl hnb
          rw [← hlast]
          exact ⟨fun hc hs => hwk.awake ofCall_inserts (h1.ins hc (hwk.some_back ofCall_inserts hs)),
            fun hc hs => hwk.awake ofCall_samples (h1.smp hc (hwk.some_back ofCall_samples hs))⟩
  rcases section_cases s id c op e with ⟨hr, he⟩ | ⟨hr, he⟩ | ⟨hr1, hr2, he⟩
  · rw [he]
    obtain ⟨h1, h2, h3, h4⟩ := Table.blocked_iff hw hr
    have hcl : op ≠ .close := by rintro rfl; simp [Table.step] at hr
    have hsig : signals s op e = s.waiters := by
      unfold signals
      rw [if_neg (fun h => hcl ((isClose_iff op).mp h)), h2]
      rfl
    have h5 := (h.resolve_left (by simp [h2])).resolve_left (by simp [h3]) |>.2 hr
    rw [h1, hsig]
    constructor
    · intro hc hs
      have hc' : s.table.limiter.canInsert 1 = true := hc
      rcases h4 with ⟨i, now, d, _, h6⟩ | ⟨n, ds, h6, _⟩
      · rw [h6] at hc'; simp at hc'
      · have : some_ Waiter.inserts s.waiters := by
          obtain ⟨w, hm, h7⟩ := hs
          rcases List.mem_append.mp hm with hm | hm
          · exact ⟨w, hm, h7⟩
          · simp only [List.mem_singleton] at hm
            subst hm
            obtain ⟨n', hn'⟩ := hkind.2.mpr ⟨n, ds, h6⟩
            simp [Waiter.inserts, hn'] at h7
        obtain ⟨w, hm, h8⟩ := h5.1 hc' this
        exact ⟨w, List.mem_append_left _ hm, h8⟩
    · intro hc hs
      have hc' : s.table.limiter.canSample 1 = true := hc
      rcases h4 with ⟨i, now, d, h6, _⟩ | ⟨n, ds, _, h6⟩
      · have : some_ Waiter.samples s.waiters := by
          obtain ⟨w, hm, h7⟩ := hs
          rcases List.mem_append.mp hm with hm | hm
          · exact ⟨w, hm, h7⟩
          · simp only [List.mem_singleton] at hm
            subst hm
            obtain ⟨n', hn'⟩ := hkind.1.mpr ⟨i, now, d, h6⟩
            simp [Waiter.samples, hn'] at h7
        obtain ⟨w, hm, h8⟩ := h5.2 hc' this
        exact ⟨w, List.mem_append_left _ hm, h8⟩
      · rw [h6] at hc'; simp at hc'
  · rw [he]
    obtain ⟨h1, h2⟩ := hfin _ rfl (by rw [hr]; simp)
    exact ⟨h1, h2⟩
  · rw [he]
    obtain ⟨h1, h2⟩ := hfin _ rfl hr1
    exact ⟨h1, h2⟩

theorem kind_start (c : Call) (e : Env) :
    ((∃ i, c = .insert i) ↔ ∃ i now d, c.start e = .insert i now d ∨ c.start e = .insertResume i now d) ∧
      ((∃ n, c = .sample n) ↔ ∃ n ds, c.start e = .sample n ds ∨ c.start e = .sampleResume n ds) := by
  cases c <;> simp [Call.start]

theorem kind_resume (c : Call) (e : Env) :
    ((∃ i, c = .insert i) ↔ ∃ i now d, c.resume e = .insert i now d ∨ c.resume e = .insertResume i now d) ∧
      ((∃ n, c = .sample n) ↔ ∃ n ds, c.resume e = .sample n ds ∨ c.resume e = .sampleResume n ds) := by
  cases c <;> simp [Call.start, Call.resume]

theorem map_inj {α β : Type} {f : α → β} {ws : List α} (hn : (ws.map f).Nodup) {a b : α} (ha : a ∈ ws) (hb : b ∈ ws)
    (h : f a = f b) : a = b := by
  induction ws with
  | nil => simp at ha
  | cons w ws ih =>
    simp only [List.map_cons, List.nodup_cons] at hn
    rcases List.mem_cons.mp ha with rfl | ha' <;> rcases List.mem_cons.mp hb with rfl | hb'
    · rfl
    · exact absurd (List.mem_map.mpr ⟨b, hb', h.symm⟩) hn.1
    · exact absurd (List.mem_map.mpr ⟨a, ha', h⟩) hn.1
    · exact ih hn.2 ha' hb'

/-- Of another kind than the one that leaves. -/
theorem filter_other {s : S} {w : Waiter} (hn : (s.waiters.map Waiter.id).Nodup) (hw : w ∈ s.waiters) (p : Waiter → Bool)
    (hp : p w = false) (h : some_ p s.waiters → awake p s.waiters) :
    some_ p (s.waiters.filter (·.id ≠ w.id)) → awake p (s.waiters.filter (·.id ≠ w.id)) := by
  intro ⟨v, hv, h1⟩
  obtain ⟨u, hu, h2, h3⟩ := h ⟨v, (List.mem_filter.mp hv).1, h1⟩
  refine ⟨u, List.mem_filter.mpr ⟨hu, ?_⟩, h2, h3⟩
  simp only [decide_eq_true_eq]
  intro hid
  have : u = w := map_inj hn hu hw hid
  rw [this, hp] at h2
  simp at h2

/-- A schedule in which no signalled thread times out. -/
def NoLost.Keeps (s : S) : Act → Prop
  | .timeout id => ∀ w ∈ s.waiters, w.id = id → w.signalled = false
  | _ => True

theorem NoLost.step {c : Config} {s s' : S} {a : Act} (h : NoLost s) (hb : Base s) (hsane : Sane c s)
    (ha : NoLost.Keeps s a) (hs : step s a = some s') : NoLost s' := by
  obtain ⟨_, ht⟩ := tr_of_step hs
  cases ht with
  | call id k e hk =>
    exact NoLost.section hb (start_not_worker k e) (kind_start k e)
      (.inr (.inr ⟨fun _ _ => h, fun _ => ⟨h.ins, h.smp⟩⟩))
  | wake w e hw =>
    have hkd := resume_kind (hb.kind w hw) e
    refine NoLost.section (hb.filter _) (resume_not_worker _ e) (kind_resume _ e) ?_
    obtain ⟨mvs, hp⟩ := hsane.reach.inv.step (w.call.resume e) (c.okFor (hsane.calls w hw e))
    rcases hp.res with ⟨er, _⟩ | ⟨er, et, _⟩ | ⟨l, er, _⟩ | ⟨cd, er, _⟩
    · exact .inl (Table.resume_points hkd (.inl er))
    · refine .inr (.inr ⟨fun _ hn => absurd er hn, fun _ => ?_⟩)
      obtain ⟨h1, h2, h3, h4⟩ := Table.blocked_iff (resume_not_worker _ e) er
      constructor
      · intro hc
        rcases h4 with ⟨i, now, d, _, h5⟩ | ⟨n, ds, h5, _⟩
        · have hc' : s.table.limiter.canInsert 1 = true := hc
          rw [h5] at hc'; simp at hc'
        · obtain ⟨n', hn'⟩ := (kind_resume w.call e).2.mpr ⟨n, ds, h5⟩
          exact filter_other hb.nodup hw _ (by simp [Waiter.inserts, hn']) (h.ins hc)
      · intro hc
        rcases h4 with ⟨i, now, d, h5, _⟩ | ⟨n, ds, _, h5⟩
        · obtain ⟨n', hn'⟩ := (kind_resume w.call e).1.mpr ⟨i, now, d, h5⟩
          exact filter_other hb.nodup hw _ (by simp [Waiter.samples, hn']) (h.smp hc)
        · have hc' : s.table.limiter.canSample 1 = true := hc
          rw [h5] at hc'; simp at hc'
    · exact .inl (Table.resume_points hkd (.inr ⟨l, er⟩))
    · exact .inr (.inl (Table.resume_err hsane.reach.inv (c.okFor (hsane.calls w hw e)) hkd er))
  | timeout w hw =>
    have hu : w.signalled = false := ha w hw rfl
    have key : ∀ p, (some_ p s.waiters → awake p s.waiters) →
        some_ p (s.waiters.filter (·.id ≠ w.id)) → awake p (s.waiters.filter (·.id ≠ w.id)) := by
      intro p hpp ⟨v, hv, h1⟩
      obtain ⟨u, hum, h2, h3⟩ := hpp ⟨v, (List.mem_filter.mp hv).1, h1⟩
      refine ⟨u, List.mem_filter.mpr ⟨hum, ?_⟩, h2, h3⟩
      simp only [decide_eq_true_eq]
      intro hid
      have : u = w := map_inj hb.nodup hum hw hid
      rw [this, hu] at h3
      simp at h3
    exact ⟨fun hc => key _ (h.ins hc), fun hc => key _ (h.smp hc)⟩

theorem NoLost.init (t : Table) : NoLost (Waiters.init t) :=
  ⟨fun _ ⟨w, hw, _⟩ => by simp [Waiters.init] at hw, fun _ ⟨w, hw, _⟩ => by simp [Waiters.init] at hw⟩

/-- A section that makes a condition true signals. -/
theorem section_signal (s : S) (id : Nat) (k : Call) (op : Op) (e : Env) (hw : op.byWorker = false) :
    (s.table.limiter.canInsert 1 = false → (section_ s id k op e).table.limiter.canInsert 1 = true →
      some_ Waiter.inserts (section_ s id k op e).waiters → awake Waiter.inserts (section_ s id k op e).waiters) ∧
    (s.table.limiter.canSample 1 = false → (section_ s id k op e).table.limiter.canSample 1 = true →
      some_ Waiter.samples (section_ s id k op e).waiters → awake Waiter.samples (section_ s id k op e).waiters) := by
  by_cases hc : op = .close
  · subst hc
    constructor
    · intro h1 h2
      exact absurd (h1.symm.trans h2) (by simp)
    · intro h1 h2
      exact absurd (h1.symm.trans h2) (by simp)
  · have hl := Table.points_last s.table op hw hc
    have hnc : op.isClose = false := by
      cases hx : op.isClose with
      | false => rfl
      | true => exact absurd ((isClose_iff _).mp hx) hc
    have hkey : (section_ s id k op e).table.limiter = s.table.limiter ∨
        ((section_ s id k op e).waiters = signalAt e.pick (s.table.points op) s.waiters ∧ s.table.points op ≠ [] ∧
          (s.table.points op).getLast? = some (section_ s id k op e).table.limiter) := by
      have htab : (section_ s id k op e).table = (s.table.step op).1 := by
        rcases section_cases s id k op e with ⟨_, he⟩ | ⟨_, he⟩ | ⟨_, _, he⟩ <;> rw [he]
      rw [htab, ← hl]
      cases hp : (s.table.points op).getLast? with
      | none => exact .inl (by simp [Table.lastPoint, hp])
      | some l =>
        have hne : s.table.points op ≠ [] := by intro h; simp [h] at hp
        refine .inr ⟨?_, hne, by simp [Table.lastPoint, hp]⟩
        rcases section_cases s id k op e with ⟨hb, _⟩ | ⟨_, he⟩ | ⟨_, _, he⟩
        · exact absurd (Table.blocked_iff hw hb).2.1 hne
        · rw [he]; simp [signals, hnc]
        · rw [he]; simp [signals, hnc]
    rcases hkey with h | ⟨h1, h2, h3⟩
    · rw [h]
      exact ⟨fun a b => absurd (a.symm.trans b) (by simp), fun a b => absurd (a.symm.trans b) (by simp)⟩
    · obtain ⟨a1, a2⟩ := signalAt_awake e.pick _ s.waiters h2 _ h3
      have hwk := signalAt_woken e.pick (s.table.points op) s.waiters
      rw [h1]
      exact ⟨fun _ hb hs => a1 hb (hwk.some_back ofCall_inserts hs), fun _ hb hs => a2 hb (hwk.some_back ofCall_samples hs)⟩

end Verif.Waiters
