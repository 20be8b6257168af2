import Verif.Spec.DPrio
import Verif.Proofs.Dbl
import Verif.Props.C05_Prioritized
/-
The prioritized selector in the arithmetic of `double`: keys and sums.
-/
namespace Verif
open Spec (Call)

namespace DPrio

/-- Keys and indices agree with those of the selector in exact arithmetic. -/
structure Skel (d : DPrio) (s : Prio) : Prop where
  cap : d.capacity = s.capacity
  keys : d.keyAt = s.keyAt
  index : d.index = s.index

theorem Skel.n {d : DPrio} {s : Prio} (h : Skel d s) : d.n = s.n := by
  unfold DPrio.n Prio.n
  rw [h.index]

/-- The fields that `SetNode` leaves. -/
structure Same (d d' : DPrio) : Prop where
  pow : d'.pow = d.pow
  cap : d'.capacity = d.capacity
  keys : d'.keyAt = d.keyAt
  index : d'.index = d.index

theorem Same.trans {a b c : DPrio} (h : Same a b) (g : Same b c) : Same a c :=
  ⟨g.pow.trans h.pow, g.cap.trans h.cap, g.keys.trans h.keys, g.index.trans h.index⟩

theorem Same.refl (a : DPrio) : Same a a := ⟨rfl, rfl, rfl, rfl⟩

theorem addTo_same (s : DPrio) (i : Nat) (d : Dbl) : Same s (s.addTo i d) := ⟨rfl, rfl, rfl, rfl⟩

theorem addTo_value (s : DPrio) (i : Nat) (d : Dbl) : (s.addTo i d).value = s.value := rfl

theorem updateParents_same (s : DPrio) (e : Dbl) (i : Nat) (d : Dbl) :
    Same s (s.updateParents e i d).1 ∧ (s.updateParents e i d).1.value = s.value := by
  fun_induction updateParents s e i d with
  | case1 s e i h ih => exact ⟨(addTo_same s _ d).trans ih.1, ih.2⟩
  | case2 s e i h => exact ⟨Same.refl s, rfl⟩

theorem reinit_same (s : DPrio) (m : Nat) : Same s (s.reinit m) ∧ (s.reinit m).value = s.value := by
  induction m generalizing s with
  | zero => exact ⟨Same.refl s, rfl⟩
  | succ i ih =>
    unfold reinit
    have := ih { s with sum := fun j => if j = i then ((s.value i).add (s.nodeSum (2 * i + 1))).add (s.nodeSum (2 * i + 2)) else s.sum j }
    exact ⟨⟨this.1.pow, this.1.cap, this.1.keys, this.1.index⟩, this.2⟩

theorem pathSums_same (s : DPrio) (i : Nat) (v : Dbl) :
    Same s (s.pathSums i v).1 ∧ (s.pathSums i v).1.value = fun j => if j = i then v else s.value j := by
  unfold pathSums
  have := updateParents_same (({ s with value := fun j => if j = i then v else s.value j } : DPrio).addTo i (v.sub (s.value i)))
    ((({ s with value := fun j => if j = i then v else s.value j } : DPrio).addTo i (v.sub (s.value i))).errorAt i) i (v.sub (s.value i))
  exact ⟨⟨this.1.pow, this.1.cap, this.1.keys, this.1.index⟩, this.2⟩

theorem setNode_same (s : DPrio) (i : Nat) (v : Dbl) :
    Same s (s.setNode i v) ∧ (s.setNode i v).value = fun j => if j = i then v else s.value j := by
  obtain ⟨h1, h2⟩ := pathSums_same s i v
  unfold setNode
  split
  · obtain ⟨h3, h4⟩ := reinit_same (s.pathSums i v).1 s.capacity
    exact ⟨h1.trans h3, h4.trans h2⟩
  · exact ⟨h1, h2⟩

end DPrio

namespace Prio

/-- The fields that `SetNode` leaves. -/
structure Same (d d' : Prio) : Prop where
  cap : d'.capacity = d.capacity
  keys : d'.keyAt = d.keyAt
  index : d'.index = d.index

theorem updateParents_same (s : Prio) (e : Rat) (i : Nat) (d : Rat) : Same s (s.updateParents e i d).1 := by
  fun_induction updateParents s e i d with
  | case1 s e i h r ih => exact ⟨ih.cap, ih.keys, ih.index⟩
  | case2 s e i h => exact ⟨rfl, rfl, rfl⟩

theorem reinit_same (s : Prio) (m : Nat) : Same s (s.reinit m) := by
  induction m generalizing s with
  | zero => exact ⟨rfl, rfl, rfl⟩
  | succ i ih =>
    unfold reinit
    have := ih { s with sum := fun j => if j = i then s.value i + s.nodeSum (2 * i + 1) + s.nodeSum (2 * i + 2) else s.sum j }
    exact ⟨this.cap, this.keys, this.index⟩

theorem setNode_same (s : Prio) (i : Nat) (v : Rat) : Same s (s.setNode i v) := by
  unfold setNode
  simp only
  split
  · refine ⟨?_, ?_, ?_⟩
    · rw [(reinit_same _ _).cap, (updateParents_same _ _ _ _).cap]
      rfl
    · rw [(reinit_same _ _).keys, (updateParents_same _ _ _ _).keys]
      rfl
    · rw [(reinit_same _ _).index, (updateParents_same _ _ _ _).index]
      rfl
  · refine ⟨?_, ?_, ?_⟩
    · rw [(updateParents_same _ _ _ _).cap]
      rfl
    · rw [(updateParents_same _ _ _ _).keys]
      rfl
    · rw [(updateParents_same _ _ _ _).index]
      rfl

end Prio

/-- A priority without its amount. -/
def Dbl.erased (p : Dbl) : Pri := if DPrio.validPriority p then .val 0 else .nan

/-- A call without the amounts of priorities. -/
def DCall.erased : DCall → Call
  | .insert k p => .insert k p.erased
  | .update k p => .update k p.erased
  | .delete k => .delete k
  | .clear => .clear

namespace DPrio

theorem validPriority_eq (p : Dbl) : validPriority p = p.accepted := by
  cases p with
  | fin q =>
    simp only [validPriority, Dbl.accepted, Dbl.lt]
    by_cases h : q < 0
    · rw [decide_eq_true h, decide_eq_false (by grind)]
      rfl
    · rw [decide_eq_false h, decide_eq_true (by grind)]
      rfl
  | _ => rfl

theorem Skel.setNode {d : DPrio} {s : Prio} (h : Skel d s) (i : Nat) (v : Dbl) (v' : Rat) : Skel (d.setNode i v) (s.setNode i v') := by
  have h1 := (setNode_same d i v).1
  have h2 := Prio.setNode_same s i v'
  exact ⟨by rw [h1.cap, h2.cap, h.cap], by rw [h1.keys, h2.keys, h.keys], by rw [h1.index, h2.index, h.index]⟩

theorem Skel.step {d : DPrio} {s : Prio} (h : Skel d s) (c : DCall) :
    Skel (d.apply c).1 (s.apply c.erased).1 ∧ (d.apply c).2 = (s.apply c.erased).2 := by
  have hn := h.n
  cases c with
  | insert k p =>
    simp only [DPrio.apply, DPrio.insert, DCall.erased, Prio.apply, Prio.insert, Dbl.erased]
    by_cases hv : validPriority p = true
    · rw [if_pos hv, if_pos hv]
      have hg : Skel d.grown (if s.n = s.capacity then { s with capacity := s.capacity * 2 } else s) := by
        unfold grown
        rw [hn, h.cap]
        split
        · exact ⟨rfl, h.keys, h.index⟩
        · exact h
      have hi : (if s.n = s.capacity then { s with capacity := s.capacity * 2 } else s : Prio).index = s.index := by split <;> rfl
      have hk : (if s.n = s.capacity then { s with capacity := s.capacity * 2 } else s : Prio).keyAt = s.keyAt := by split <;> rfl
      simp only [Prio.checkPriority, Rat.lt_irrefl, if_false]
      generalize (if s.n = s.capacity then { s with capacity := s.capacity * 2 } else s : Prio) = s' at hg hi hk ⊢
      rw [hi, ← h.index]
      cases hget : d.index.get? k with
      | some i => exact ⟨hg, rfl⟩
      | none =>
        simp only
        rw [hn, hg.cap]
        split
        · refine ⟨?_, rfl⟩
          apply Skel.setNode
          exact ⟨rfl, by simp only [hk, h.keys], rfl⟩
        · exact ⟨hg, rfl⟩
    · rw [if_neg hv, if_neg hv]
      exact ⟨h, rfl⟩
  | update k p =>
    simp only [DPrio.apply, DPrio.update, DCall.erased, Prio.apply, Prio.update, Dbl.erased]
    by_cases hv : validPriority p = true
    · rw [if_pos hv, if_pos hv]
      simp only [Prio.checkPriority, Rat.lt_irrefl, if_false]
      rw [← h.index]
      cases hget : d.index.get? k with
      | some i => exact ⟨h.setNode _ _ _, rfl⟩
      | none => exact ⟨h, rfl⟩
    · rw [if_neg hv, if_neg hv]
      exact ⟨h, rfl⟩
  | delete k =>
    simp only [DPrio.apply, DPrio.delete, DCall.erased, Prio.apply, Prio.delete]
    rw [← h.index]
    cases hget : d.index.get? k with
    | none => exact ⟨h, rfl⟩
    | some i =>
      simp only
      have hr : Skel (d.replaceByLast i) (if i ≠ s.n - 1 then
          { s.setNode i (s.value (s.n - 1)) with
            keyAt := fun j => if j = i then (s.setNode i (s.value (s.n - 1))).keyAt (s.n - 1) else (s.setNode i (s.value (s.n - 1))).keyAt j,
            index := (s.setNode i (s.value (s.n - 1))).index.insert ((s.setNode i (s.value (s.n - 1))).keyAt (s.n - 1)) i }
          else s) := by
        unfold replaceByLast
        rw [hn]
        split
        · have h1 := (setNode_same d i (d.value (s.n - 1))).1
          have h2 := Prio.setNode_same s i (s.value (s.n - 1))
          refine ⟨?_, ?_, ?_⟩
          · show (d.setNode i (d.value (s.n - 1))).capacity = _
            rw [h1.cap, h2.cap, h.cap]
          · simp only [h2.keys, h.keys]
          · simp only [h2.keys, h2.index, h.keys, h.index]
        · exact h
      have h3 := hr.setNode (s.n - 1) (.fin 0) 0
      refine ⟨⟨?_, ?_, ?_⟩, trivial⟩
      · rw [hn]
        exact h3.cap
      · rw [hn]
        exact h3.keys
      · have h4 := (Prio.setNode_same (if i ≠ s.n - 1 then
          { s.setNode i (s.value (s.n - 1)) with
            keyAt := fun j => if j = i then (s.setNode i (s.value (s.n - 1))).keyAt (s.n - 1) else (s.setNode i (s.value (s.n - 1))).keyAt j,
            index := (s.setNode i (s.value (s.n - 1))).index.insert ((s.setNode i (s.value (s.n - 1))).keyAt (s.n - 1)) i }
          else s) (s.n - 1) 0).index
        simp only
        rw [h4, hr.index]
  | clear => exact ⟨⟨h.cap, h.keys, rfl⟩, rfl⟩

theorem book_holds (cs : List DCall) : ∀ (t : Nat) (b : Spec.Book) (h : Holds), (∀ k, (b k).isSome = (h k).isSome) → ∀ k,
    (Spec.Book.runFrom Spec.acceptNonneg t b (cs.map DCall.erased) k).isSome = (cs.foldl Holds.step h k).isSome := by
  induction cs with
  | nil => intro t b h hb k; exact hb k
  | cons c cs ih =>
    intro t b h hb k
    refine ih (t + 1) _ _ (fun k' => ?_) k
    have ha : ∀ p : Dbl, Spec.acceptNonneg p.erased = p.accepted := by
      intro p
      unfold Dbl.erased
      rw [← validPriority_eq]
      cases validPriority p with
      | true => simp [Spec.acceptNonneg]
      | false => simp [Spec.acceptNonneg]
    have hnone : ∀ k, b k = none ↔ h k = none := by
      intro k
      have := hb k
      cases h1 : b k <;> cases h2 : h k <;> simp_all
    cases c with
    | insert k0 p =>
      simp only [DCall.erased, Spec.Book.step, Holds.step, ha, hnone]
      split
      · rfl
      · exact hb k'
    | update k0 p =>
      simp only [DCall.erased, Spec.Book.step, Holds.step, ha]
      by_cases hk : k' = k0
      · subst hk
        cases hp : p.accepted
        · simp [hb]
        · simp only [and_self, if_true, true_and, Option.isSome_map, hb]
          cases hh : h k' <;> simp [hh]
      · simp [hk, hb]
    | delete k0 =>
      simp only [DCall.erased, Spec.Book.step, Holds.step]
      split
      · rfl
      · exact hb k'
    | clear => rfl

/-- The exact selector that only counts keys. -/
def powNone : PowFn := ⟨fun _ => 0, fun _ _ => Rat.le_refl⟩

theorem Skel.run (cs : List DCall) : ∀ {d : DPrio} {s : Prio}, Skel d s →
    Skel (cs.foldl (fun s c => (s.apply c).1) d) (runCalls Prio.apply s (cs.map DCall.erased)) := by
  induction cs with
  | nil => intro d s h; exact h
  | cons c cs ih => intro d s h; exact ih (h.step c).1

theorem skel (w : PowD) (cs : List DCall) : Skel (DPrio.after w cs) (prioAfter powNone (cs.map DCall.erased)) :=
  Skel.run cs ⟨rfl, rfl, rfl⟩

/-- The keys that are left and their indices. -/
theorem keys_of (w : PowD) (cs : List DCall) :
    (∀ k i, (DPrio.after w cs).index.get? k = some i ↔ i < (DPrio.after w cs).n ∧ (DPrio.after w cs).keyAt i = k) ∧
    (∀ k, ((DPrio.after w cs).index.get? k).isSome = (holds cs k).isSome) ∧
    (DPrio.after w cs).n ≤ (DPrio.after w cs).capacity ∧
    ∀ i, i < (DPrio.after w cs).n → (holds cs ((DPrio.after w cs).keyAt i)).isSome := by
  have hs := skel w cs
  obtain ⟨hr, _⟩ := Prio.R.runFrom (cs.map DCall.erased) 0 (Prio.R.init powNone)
  change Prio.R (prioAfter powNone (cs.map DCall.erased)) _ at hr
  have hbij := hr.wf.bij
  have hpres := hr.present
  have hcap := hr.wf.cap
  rw [← hs.index, ← hs.n, ← hs.keys] at hbij
  rw [← hs.index] at hpres
  rw [← hs.n, ← hs.cap] at hcap
  have h2 : ∀ k, ((DPrio.after w cs).index.get? k).isSome = (holds cs k).isSome := fun k =>
    (hpres k).trans (book_holds cs 0 _ _ (fun _ => rfl) k)
  refine ⟨hbij, h2, hcap, fun i hi => ?_⟩
  rw [← h2, (hbij _ i).mpr ⟨hi, rfl⟩]
  rfl

end DPrio

namespace Dbl

/-- Not negative; NaN counts as not negative. -/
def NotNeg (d : Dbl) : Prop := d.lt (.fin 0) = false

theorem NotNeg.cases {d : Dbl} (h : d.NotNeg) : d = .nan ∨ d.Nonneg := by
  cases d with
  | nan => exact .inl rfl
  | pinf => exact .inr trivial
  | ninf => simp [NotNeg, lt] at h
  | fin q =>
    simp only [NotNeg, lt, decide_eq_false_iff_not] at h
    exact .inr (show 0 ≤ q by grind)

theorem Nonneg.notNeg {d : Dbl} (h : d.Nonneg) : d.NotNeg := by
  cases d with
  | nan => rfl
  | pinf => rfl
  | ninf => cases h
  | fin q =>
    have : 0 ≤ q := h
    simp only [NotNeg, lt, decide_eq_false_iff_not]
    grind

theorem add_notNeg {a b : Dbl} (ha : a.NotNeg) (hb : b.NotNeg) : (a.add b).NotNeg := by
  rcases ha.cases with rfl | ha'
  · rfl
  rcases hb.cases with rfl | hb'
  · cases a <;> rfl
  cases a with
  | nan => rfl
  | ninf => cases ha'
  | pinf => cases b <;> first | rfl | cases hb'
  | fin p =>
    cases b with
    | nan => rfl
    | ninf => cases hb'
    | pinf => rfl
    | fin q =>
      have h1 : 0 ≤ p := ha'
      have h2 : 0 ≤ q := hb'
      exact (round_nonneg (q := p + q) (by grind)).notNeg

/-- What is left after a sum that is not larger is taken away. -/
theorem sub_notNeg {t s : Dbl} (ht : t.NotNeg) (hs : s.NotNeg) (h : t.lt s = false) : (t.sub s).NotNeg := by
  rcases ht.cases with rfl | ht'
  · rfl
  rcases hs.cases with rfl | hs'
  · cases t <;> rfl
  cases t with
  | nan => rfl
  | ninf => cases ht'
  | pinf => cases s <;> first | rfl | cases hs'
  | fin p =>
    cases s with
    | nan => rfl
    | ninf => cases hs'
    | pinf => simp [lt] at h
    | fin q =>
      simp only [lt, decide_eq_false_iff_not] at h
      exact (round_nonneg (q := p + -q) (by grind)).notNeg

theorem mul_notNeg {u : Rat} {s : Dbl} (hu : 0 ≤ u) (hs : s.NotNeg) : ((fin u).mul s).NotNeg := by
  rcases hs.cases with rfl | hs'
  · rfl
  cases s with
  | nan => rfl
  | ninf => cases hs'
  | pinf =>
    simp only [mul]
    split
    · rfl
    · rw [if_pos (by grind)]
      rfl
  | fin q => exact (round_nonneg (Rat.mul_nonneg hu hs')).notNeg

end Dbl

namespace DPrio

/-- No sum and no weight is negative. -/
structure Sums (s : DPrio) : Prop where
  sum : ∀ i : Nat, (s.sum i).NotNeg
  value : ∀ i : Nat, (s.value i).Nonneg

theorem clamped_notNeg (x : Dbl) : (clamped x).NotNeg := by
  unfold clamped
  split
  · rfl
  · rename_i h
    exact Bool.eq_false_iff.mpr h

theorem addTo_sums {s : DPrio} (h : ∀ j, (s.sum j).NotNeg) (i : Nat) (d : Dbl) : ∀ j, ((s.addTo i d).sum j).NotNeg := by
  intro j
  unfold addTo
  simp only
  split
  · exact clamped_notNeg _
  · exact h j

theorem updateParents_sums (s : DPrio) (e : Dbl) (i : Nat) (d : Dbl) (h : ∀ j, (s.sum j).NotNeg) :
    ∀ j, ((s.updateParents e i d).1.sum j).NotNeg := by
  fun_induction updateParents s e i d with
  | case1 s e i hc ih => exact ih (addTo_sums h _ _)
  | case2 s e i hc => exact h

theorem nodeSum_notNeg {s : DPrio} (h : ∀ j, (s.sum j).NotNeg) (i : Nat) : (s.nodeSum i).NotNeg := by
  unfold nodeSum
  split
  · exact h i
  · rfl

theorem reinit_sums (m : Nat) : ∀ (s : DPrio), (∀ j, (s.sum j).NotNeg) → (∀ j, (s.value j).Nonneg) →
    ∀ j, ((s.reinit m).sum j).NotNeg := by
  induction m with
  | zero => intro s h _; exact h
  | succ i ih =>
    intro s h hv
    unfold reinit
    refine ih _ (fun j => ?_) hv
    simp only
    split
    · exact Dbl.add_notNeg (Dbl.add_notNeg (hv i).notNeg (nodeSum_notNeg h _)) (nodeSum_notNeg h _)
    · exact h j

theorem Sums.setNode {s : DPrio} (h : Sums s) (i : Nat) {v : Dbl} (hv : v.Nonneg) : Sums (s.setNode i v) := by
  have hval : ∀ j, ((s.setNode i v).value j).Nonneg := by
    intro j
    rw [(setNode_same s i v).2]
    simp only
    split
    · exact hv
    · exact h.value j
  have hp : ∀ j, ((s.pathSums i v).1.sum j).NotNeg := updateParents_sums _ _ _ _ (addTo_sums h.sum _ _)
  refine ⟨?_, hval⟩
  unfold DPrio.setNode
  split
  · refine reinit_sums _ _ hp fun j => ?_
    rw [(pathSums_same s i v).2]
    simp only
    split
    · exact hv
    · exact h.value j
  · exact hp

theorem Sums.of_eq {s s' : DPrio} (h : Sums s) (h1 : s'.sum = s.sum) (h2 : s'.value = s.value) : Sums s' :=
  ⟨by rw [h1]; exact h.sum, by rw [h2]; exact h.value⟩

theorem power_nonneg (w : PowD) {p : Dbl} (h : validPriority p = true) : (w.power p).Nonneg := by
  unfold PowD.power
  split
  · exact Rat.le_refl
  · refine w.nonneg p ?_
    rw [validPriority_eq] at h
    cases p with
    | nan => cases h
    | ninf => cases h
    | pinf => trivial
    | fin q => simpa [Dbl.accepted, Dbl.Nonneg] using h

theorem Sums.apply {s : DPrio} (h : Sums s) (c : DCall) : Sums (s.apply c).1 := by
  cases c with
  | insert k p =>
    simp only [DPrio.apply, DPrio.insert]
    have hg1 : s.grown.sum = s.sum := by unfold grown; split <;> rfl
    have hg2 : s.grown.value = s.value := by unfold grown; split <;> rfl
    by_cases hv : validPriority p = true
    · rw [if_pos hv]
      cases s.index.get? k with
      | some i => exact h.of_eq hg1 hg2
      | none =>
        simp only
        split
        · apply Sums.setNode
          · exact h.of_eq hg1 hg2
          · exact power_nonneg _ hv
        · exact h.of_eq hg1 hg2
    · rw [if_neg hv]
      exact h
  | update k p =>
    simp only [DPrio.apply, DPrio.update]
    by_cases hv : validPriority p = true
    · rw [if_pos hv]
      cases s.index.get? k with
      | some i => exact h.setNode i (power_nonneg _ hv)
      | none => exact h
    · rw [if_neg hv]
      exact h
  | delete k =>
    simp only [DPrio.apply, DPrio.delete]
    cases s.index.get? k with
    | none => exact h
    | some i =>
      simp only
      have hr : Sums (s.replaceByLast i) := by
        unfold replaceByLast
        split
        · exact (h.setNode i (h.value _)).of_eq rfl rfl
        · exact h
      exact (hr.setNode (s.n - 1) (v := .fin 0) Rat.le_refl).of_eq rfl rfl
  | clear =>
    refine ⟨fun i => ?_, fun i => ?_⟩
    · simp only [DPrio.apply, DPrio.clear]
      split
      · rfl
      · exact h.sum i
    · simp only [DPrio.apply, DPrio.clear]
      split
      · exact Rat.le_refl
      · exact h.value i

theorem sums (w : PowD) (cs : List DCall) : Sums (DPrio.after w cs) := by
  unfold DPrio.after
  have : ∀ (cs : List DCall) (s : DPrio), Sums s → Sums (cs.foldl (fun s c => (s.apply c).1) s) := by
    intro cs
    induction cs with
    | nil => intro s h; exact h
    | cons c cs ih => intro s h; exact ih _ (h.apply c)
  exact this cs _ ⟨fun _ => rfl, fun _ => Rat.le_refl⟩

/-- The walk ends at an element. -/
theorem walk_some {s : DPrio} (h : ∀ j, (s.sum j).NotNeg) (i : Nat) (t : Dbl) (hi : i < s.n) (ht : t.NotNeg) :
    ∃ j, s.walk i t = some j ∧ j < s.n := by
  fun_induction walk s i t with
  | case1 i t h1 h2 ih => exact ih h2 ht
  | case2 i t h1 h2 =>
    unfold nodeSum at h1
    rw [if_neg h2, show t.lt (.fin 0) = false from ht] at h1
    cases h1
  | case3 i t h1 t1 h2 h3 ih => exact ih h3 (Dbl.sub_notNeg ht (nodeSum_notNeg h _) (by simpa using h1))
  | case4 i t h1 t1 h2 h3 =>
    have ht1 : t1.NotNeg := Dbl.sub_notNeg ht (nodeSum_notNeg h _) (by simpa using h1)
    unfold nodeSum at h2
    rw [if_neg h3, show t1.lt (.fin 0) = false from ht1] at h2
    cases h2
  | case5 i t h1 t1 h2 => exact ⟨i, rfl, hi⟩

end DPrio
end Verif
