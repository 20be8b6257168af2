import Verif.Proofs.Sel
/-
Selectors that no sequence of calls can tell apart, and the proof that a cleared selector is such a twin
of a new one.
-/
namespace Verif
open Spec (Call Book Entry)

/-- After every sequence of calls the two selectors return the same statuses and the same samples. -/
def Sel.Equiv (s s' : Sel) : Prop :=
  ∀ cs : List Call, (∀ d, (runCalls Sel.apply s' cs).sample d = (runCalls Sel.apply s cs).sample d) ∧
    ∀ c, ((runCalls Sel.apply s' cs).apply c).2 = ((runCalls Sel.apply s cs).apply c).2

namespace Sel.Equiv

theorem sample {s s' : Sel} (h : Sel.Equiv s s') (d : Draw) : s'.sample d = s.sample d := (h []).1 d

theorem apply {s s' : Sel} (h : Sel.Equiv s s') (c : Call) : (s'.apply c).2 = (s.apply c).2 := (h []).2 c

theorem next {s s' : Sel} (h : Sel.Equiv s s') (c : Call) : Sel.Equiv (s.apply c).1 (s'.apply c).1 :=
  fun cs => h (c :: cs)

theorem refl (s : Sel) : Sel.Equiv s s := fun _ => ⟨fun _ => rfl, fun _ => rfl⟩

theorem symm {s s' : Sel} (h : Sel.Equiv s s') : Sel.Equiv s' s :=
  fun cs => ⟨fun d => ((h cs).1 d).symm, fun c => ((h cs).2 c).symm⟩

/-- A simulation proves equivalence. -/
theorem of_sim (P : Sel → Sel → Prop) (hs : ∀ s s', P s s' → ∀ d, s'.sample d = s.sample d)
    (ha : ∀ s s', P s s' → ∀ c, (s'.apply c).2 = (s.apply c).2 ∧ P (s.apply c).1 (s'.apply c).1)
    {s s' : Sel} (h : P s s') : Sel.Equiv s s' := by
  intro cs
  have hp : ∀ cs s s', P s s' → P (runCalls Sel.apply s cs) (runCalls Sel.apply s' cs) := by
    intro cs
    induction cs with
    | nil => intro s s' h; exact h
    | cons c cs ih => intro s s' h; exact ih _ _ (ha s s' h c).2
  exact ⟨hs _ _ (hp cs s s' h), fun c => (ha _ _ (hp cs s s' h) c).1⟩

end Sel.Equiv

namespace ListSel

/-- Same lists, node addresses shifted by `δ`. -/
structure Shift (δ : Nat) (s s' : ListSel) : Prop where
  nodes : s'.nodes = s.nodes.map (fun n => (n.1 + δ, n.2))
  iters : ∀ k, s'.iters.get? k = (s.iters.get? k).map (· + δ)
  next : s'.next = s.next + δ

theorem Shift.sample {δ s s'} (h : Shift δ s s') : s'.sample = s.sample := by
  unfold ListSel.sample
  rw [h.nodes]
  cases s.nodes <;> rfl

theorem Shift.delete {δ s s'} (h : Shift δ s s') (k : Key) :
    (s'.delete k).2 = (s.delete k).2 ∧ Shift δ (s.delete k).1 (s'.delete k).1 := by
  unfold ListSel.delete
  rw [h.iters]
  cases hk : s.iters.get? k with
  | none => exact ⟨rfl, h⟩
  | some id =>
    simp only [Option.map_some]
    refine ⟨trivial, ?_, ?_, h.next⟩
    · simp only [h.nodes, List.filter_map]
      congr 1
      apply List.filter_congr
      intro n _
      simp
    · intro k'
      simp only [AMap.get?_erase, h.iters]
      split <;> rfl

theorem Shift.insertBack {δ s s'} (h : Shift δ s s') (k : Key) (p : Pri) :
    (s'.insertBack k p).2 = (s.insertBack k p).2 ∧ Shift δ (s.insertBack k p).1 (s'.insertBack k p).1 := by
  unfold ListSel.insertBack
  rw [h.iters]
  cases hk : s.iters.get? k with
  | some id => exact ⟨rfl, h⟩
  | none =>
    simp only [Option.map_none]
    refine ⟨trivial, ?_, ?_, ?_⟩
    · simp [h.nodes, h.next]
    · intro k'
      simp only [AMap.get?_insert, h.iters, h.next]
      split <;> simp
    · simp [h.next]; omega

theorem Shift.insertFront {δ s s'} (h : Shift δ s s') (k : Key) (p : Pri) :
    (s'.insertFront k p).2 = (s.insertFront k p).2 ∧ Shift δ (s.insertFront k p).1 (s'.insertFront k p).1 := by
  unfold ListSel.insertFront
  rw [h.iters]
  cases hk : s.iters.get? k with
  | some id => exact ⟨rfl, h⟩
  | none =>
    simp only [Option.map_none]
    refine ⟨trivial, ?_, ?_, ?_⟩
    · simp [h.nodes, h.next]
    · intro k'
      simp only [AMap.get?_insert, h.iters, h.next]
      split <;> simp
    · simp [h.next]; omega

theorem Shift.update {δ s s'} (h : Shift δ s s') (k : Key) (p : Pri) :
    (s'.update k p).2 = (s.update k p).2 ∧ Shift δ (s.update k p).1 (s'.update k p).1 := by
  unfold ListSel.update
  rw [h.iters]
  cases hk : s.iters.get? k <;> exact ⟨rfl, h⟩

theorem Shift.clear {δ s s'} (h : Shift δ s s') : Shift δ s.clear s'.clear :=
  ⟨rfl, fun _ => rfl, h.next⟩

theorem Shift.applyFifo {δ s s'} (h : Shift δ s s') (c : Call) :
    (s'.applyFifo c).2 = (s.applyFifo c).2 ∧ Shift δ (s.applyFifo c).1 (s'.applyFifo c).1 := by
  cases c with
  | insert k p => exact h.insertBack k p
  | update k p => exact h.update k p
  | delete k => exact h.delete k
  | clear => exact ⟨rfl, h.clear⟩

theorem Shift.applyLifo {δ s s'} (h : Shift δ s s') (c : Call) :
    (s'.applyLifo c).2 = (s.applyLifo c).2 ∧ Shift δ (s.applyLifo c).1 (s'.applyLifo c).1 := by
  cases c with
  | insert k p => exact h.insertFront k p
  | update k p => exact h.update k p
  | delete k => exact h.delete k
  | clear => exact ⟨rfl, h.clear⟩

end ListSel

/-- The node with its update number shifted. -/
def HNode.later (δ : Nat) (x : HNode) : HNode := { x with upd := x.upd + δ }

theorem HNode.later_lt (δ : Nat) (x y : HNode) : (x.later δ).lt (y.later δ) = x.lt y := by
  simp [HNode.lt, HNode.later]

namespace HArr

/-- Same heap, update numbers shifted by `δ`; entries beyond the size do not matter. -/
structure Shift (δ : Nat) (a a' : HArr) : Prop where
  n : a'.n = a.n
  pos : a'.pos = a.pos
  at_ : ∀ i, i < a.n → a'.at_ i = (a.at_ i).later δ

variable {δ : Nat} {a a' : HArr}

theorem Shift.put (h : Shift δ a a') (i : Nat) (t : HNode) : Shift δ (a.put i t) (a'.put i (t.later δ)) := by
  refine ⟨h.n, ?_, ?_⟩
  · simp only [HArr.put, h.pos]; rfl
  · intro j hj
    simp only [HArr.put]
    split
    · rfl
    · exact h.at_ j hj

theorem Shift.fixUp (t : HNode) (i : Nat) : ∀ {a a' : HArr}, Shift δ a a' → i < a.n →
    Shift δ (a.fixUp i t) (a'.fixUp i (t.later δ)) := by
  induction i using Nat.strongRecOn with
  | _ i ih =>
    intro a a' h hi
    unfold HArr.fixUp
    split
    · exact h.put 0 t
    · rw [h.at_ ((i - 1) / 2) (by omega), HNode.later_lt]
      split
      · exact h.put i t
      · exact ih ((i - 1) / 2) (by omega) (h.put i _) (by show (i - 1) / 2 < a.n; omega)

theorem Shift.minKid (h : Shift δ a a') (i : Nat) (hi : 2 * i + 1 < a.n) :
    a'.minKid i = a.minKid i ∧ a.minKid i < a.n ∧ i < a.minKid i := by
  unfold HArr.minKid
  rw [h.n, h.at_ (2 * i + 1) hi]
  by_cases h2 : 2 * i + 2 < a.n
  · rw [h.at_ (2 * i + 2) h2, HNode.later_lt]
    refine ⟨rfl, ?_, ?_⟩ <;> split <;> omega
  · simp only [h2, decide_false, Bool.false_and, Bool.false_eq_true, if_false]
    exact ⟨trivial, hi, by omega⟩

theorem Shift.fixDown (t : HNode) (i : Nat) : ∀ {a a' : HArr}, Shift δ a a' → i < a.n →
    Shift δ (a.fixDown i t) (a'.fixDown i (t.later δ)) := by
  intro a
  induction hm : a.n - i using Nat.strongRecOn generalizing i a with
  | _ m ih =>
    intro a' h hi
    unfold HArr.fixDown
    rw [h.n]
    by_cases hk : 2 * i + 1 < a.n
    · obtain ⟨e1, e2, e3⟩ := h.minKid i hk
      simp only [hk, dif_pos]
      rw [e1, h.at_ _ e2, HNode.later_lt]
      split
      · exact h.put i t
      · exact ih (a.n - a.minKid i) (by omega) (a.minKid i) (a := a.put i (a.at_ (a.minKid i))) rfl
          (h.put i _) e2
    · simp only [hk, dif_neg, not_false_eq_true]
      exact h.put i t

theorem Shift.push (h : Shift δ a a') (t : HNode) : Shift δ (a.push t) (a'.push (t.later δ)) := by
  unfold HArr.push
  simp only [h.n]
  apply Shift.fixUp
  · refine ⟨rfl, (h.put a.n t).pos, ?_⟩
    intro i hi
    simp only [HArr.put]
    split
    · rfl
    · exact h.at_ i (by simp only at hi; omega)
  · simp

theorem Shift.contains (h : Shift δ a a') (t : HNode) : a'.contains (t.later δ) = a.contains t := by
  unfold HArr.contains
  rw [h.pos, h.n]
  show (match a.pos t.key with | none => _ | some i => _) = _
  cases a.pos t.key with
  | none => rfl
  | some i =>
    simp only
    by_cases hi : i < a.n
    · rw [h.at_ i hi]; rfl
    · simp [hi]

theorem Shift.adjust (h : Shift δ a a') (t : HNode) :
    (∃ b b', a.adjust t = some b ∧ a'.adjust (t.later δ) = some b' ∧ Shift δ b b') ∨
    (a.adjust t = none ∧ a'.adjust (t.later δ) = none) := by
  unfold HArr.adjust
  rw [h.pos, h.contains]
  show _ ∨ (_ ∧ (match a.pos t.key with | none => _ | some i => _) = _)
  have hkey : (t.later δ).key = t.key := rfl
  rw [hkey]
  cases hp : a.pos t.key with
  | none => right; exact ⟨rfl, rfl⟩
  | some i =>
    by_cases hc : a.contains t = true
    · have hi : i < a.n := by
        unfold HArr.contains at hc
        rw [hp] at hc
        simp at hc; exact hc.1
      left
      simp only [hc, if_true]
      have h' := h.put i t
      have hat := h'.at_ ((i - 1) / 2) (by show (i - 1) / 2 < a.n; omega)
      rw [hat, HNode.later_lt]
      split
      · exact ⟨_, _, rfl, rfl, Shift.fixUp t i h' hi⟩
      · exact ⟨_, _, rfl, rfl, Shift.fixDown t i h' hi⟩
    · right; simp [hc]

theorem Shift.remove (h : Shift δ a a') (t : HNode) :
    (∃ b b', a.remove t = some b ∧ a'.remove (t.later δ) = some b' ∧ Shift δ b b') ∨
    (a.remove t = none ∧ a'.remove (t.later δ) = none) := by
  unfold HArr.remove
  rw [h.contains]
  have hkey : (t.later δ).key = t.key := rfl
  simp only [h.pos, h.n, hkey]
  cases hp : a.pos t.key with
  | none => right; exact ⟨rfl, rfl⟩
  | some i =>
    by_cases hc : a.contains t = true
    · have hi : i < a.n := by
        unfold HArr.contains at hc
        rw [hp] at hc
        simp at hc; exact hc.1
      simp only [hc, if_true]
      by_cases hl : i = a.n - 1
      · left
        simp only [hl, if_true]
        refine ⟨_, _, rfl, rfl, rfl, rfl, ?_⟩
        intro j hj
        exact h.at_ j (by simp only at hj; omega)
      · simp only [hl, if_false]
        have hlast : a'.at_ (a.n - 1) = (a.at_ (a.n - 1)).later δ := h.at_ _ (by omega)
        rw [hlast]
        apply Shift.adjust
        refine ⟨rfl, ?_, ?_⟩
        · simp only [HArr.put]; rfl
        · intro j hj
          simp only [HArr.put] at hj ⊢
          split
          · rfl
          · exact h.at_ j (by omega)
    · right; simp [hc]

end HArr

namespace HeapSel

/-- Same heap selector, update numbers shifted by `δ`. -/
structure Shift (δ : Nat) (s s' : HeapSel) : Prop where
  minHeap : s'.minHeap = s.minHeap
  heap : HArr.Shift δ s.heap s'.heap
  nodes : ∀ k, s'.nodes.get? k = (s.nodes.get? k).map (HNode.later δ)
  size : s'.nodes.size = s.nodes.size
  updates : s'.updates = s.updates + δ

theorem Shift.sample {δ s s'} (h : Shift δ s s') : s'.sample = s.sample := by
  unfold HeapSel.sample
  rw [h.size, h.heap.n]
  split
  · rfl
  · split
    · rfl
    · rename_i hn
      rw [h.heap.at_ 0 (by omega)]; rfl

theorem Shift.setNode {δ s s'} (h : Shift δ s s') (k : Key) (t : HNode) {a a' : HArr} (ha : HArr.Shift δ a a') :
    Shift δ { s with heap := a, nodes := s.nodes.insert k t, updates := s.updates + 1 }
      { s' with heap := a', nodes := s'.nodes.insert k (t.later δ), updates := s'.updates + 1 } := by
  refine ⟨h.minHeap, ha, ?_, ?_, by simp [h.updates]; omega⟩
  · intro k'
    simp only [AMap.get?_insert, h.nodes]
    split <;> rfl
  · simp only [AMap.size_insert, h.nodes, h.size, Option.isSome_map]

theorem Shift.apply {δ s s'} (h : Shift δ s s') (c : Call) :
    (s'.apply c).2 = (s.apply c).2 ∧ Shift δ (s.apply c).1 (s'.apply c).1 := by
  cases c with
  | insert k p =>
    simp only [HeapSel.apply, HeapSel.insert]
    rw [h.nodes]
    cases hk : s.nodes.get? k with
    | some x => exact ⟨rfl, h⟩
    | none =>
      simp only [Option.map_none, h.minHeap]
      refine ⟨trivial, ?_⟩
      have : (⟨k, p.signed s.minHeap, s'.updates⟩ : HNode) = HNode.later δ ⟨k, p.signed s.minHeap, s.updates⟩ := by
        simp [HNode.later, h.updates]
      rw [this]
      exact h.minHeap ▸ h.setNode k _ (h.heap.push _)
  | update k p =>
    simp only [HeapSel.apply, HeapSel.update]
    rw [h.nodes]
    cases hk : s.nodes.get? k with
    | none => exact ⟨rfl, h⟩
    | some x =>
      have : (⟨k, p.signed s'.minHeap, s'.updates⟩ : HNode) = HNode.later δ ⟨k, p.signed s.minHeap, s.updates⟩ := by
        simp [HNode.later, h.updates, h.minHeap]
      simp only [Option.map_some, this]
      rcases h.heap.adjust ⟨k, p.signed s.minHeap, s.updates⟩ with ⟨b, b', e1, e2, e3⟩ | ⟨e1, e2⟩
      · rw [e1, e2]; exact ⟨rfl, h.setNode k _ e3⟩
      · rw [e1, e2]; exact ⟨rfl, h⟩
  | delete k =>
    simp only [HeapSel.apply, HeapSel.delete]
    rw [h.nodes]
    cases hk : s.nodes.get? k with
    | none => exact ⟨rfl, h⟩
    | some x =>
      simp only [Option.map_some]
      rcases h.heap.remove x with ⟨b, b', e1, e2, e3⟩ | ⟨e1, e2⟩
      · rw [e1, e2]
        refine ⟨rfl, h.minHeap, e3, ?_, ?_, h.updates⟩
        · intro k'
          simp only [AMap.get?_erase, h.nodes]
          split <;> rfl
        · simp only [AMap.size_erase, h.nodes, h.size, Option.isSome_map]
      · rw [e1, e2]; exact ⟨rfl, h⟩
  | clear =>
    refine ⟨rfl, h.minHeap, ⟨rfl, rfl, ?_⟩, ?_, rfl, h.updates⟩
    · intro i hi; simp [HeapSel.apply, HeapSel.clear] at hi
    · intro k; rfl

end HeapSel

namespace Prio

/-- Same tree and index; the capacity and the stale keys beyond the size may differ. -/
structure Sim (s s' : Prio) : Prop where
  wf : WF s
  wf' : WF s'
  pow : s'.pow = s.pow
  index : s'.index = s.index
  value : s'.value = s.value
  keyAt : ∀ i, i < s.n → s'.keyAt i = s.keyAt i

variable {s s' : Prio}

theorem Sim.n (h : Sim s s') : s'.n = s.n := by simp [Prio.n, h.index]

theorem Sim.sum (h : Sim s s') : s'.sum = s.sum := (sum_unique h.wf.tree h.wf'.tree h.n.symm h.value.symm).symm

theorem Sim.walk (h : Sim s s') (i : Nat) (t : Rat) : s'.walk i t = s.walk i t := by
  induction hm : s.n - i using Nat.strongRecOn generalizing i t with
  | _ m ih =>
    unfold Prio.walk
    have e1 : ∀ j, s'.nodeSum j = s.nodeSum j := by intro j; simp [nodeSum, h.n, h.sum]
    simp only [e1, h.n]
    split
    · split
      · rw [ih (s.n - (2 * i + 1)) (by omega) _ _ rfl]
      · rfl
    · split
      · split
        · rw [ih (s.n - (2 * i + 2)) (by omega) _ _ rfl]
        · rfl
      · rfl

theorem Sim.sampleAt (h : Sim s s') {u : Rat} (h0 : 0 ≤ u) (h1 : u < 1) : s'.sampleAt u = s.sampleAt u := by
  unfold Prio.sampleAt
  rw [h.walk, h.n, h.sum, h.value]
  split
  · rfl
  · rename_i hn
    split
    · have hnpos : (0 : Rat) < (s.n : Rat) := by
        have : ((0 : Nat) : Rat) < (s.n : Rat) := Rat.natCast_lt_natCast.mpr (by omega)
        simpa using this
      have ht0 : 0 ≤ u * s.n := Rat.mul_nonneg h0 (by grind)
      have ht1 : u * s.n < s.n := by
        have := Rat.mul_lt_mul_of_pos_right h1 hnpos
        grind
      have hf0 : 0 ≤ (u * s.n).floor := Rat.le_floor_iff.mpr (by simpa using ht0)
      have hf1 : (u * s.n).floor < (s.n : Int) := Rat.floor_lt_iff.mpr (by rw [Rat.intCast_natCast]; exact ht1)
      rw [h.keyAt _ (by omega)]
    · split
      · rfl
      · split
        · rename_i hi; rw [h.keyAt _ hi]
        · rfl

theorem Sim.capacity (h : Sim s s') {c c' : Nat} (hc : s.capacity ≤ c) (hc' : s'.capacity ≤ c') :
    Sim { s with capacity := c } { s' with capacity := c' } :=
  ⟨h.wf.withCap c (by have := h.wf.cap; omega) (by have := h.wf.cap_pos; omega),
   h.wf'.withCap c' (by have := h.wf'.cap; omega) (by have := h.wf'.cap_pos; omega), h.pow, h.index, h.value, h.keyAt⟩

theorem WF.clear (h : WF s) : WF s.clear := by
  have e1 : s.clear.sum = fun _ => 0 := by
    funext i; simp only [Prio.clear]; split
    · rfl
    · exact h.tree.sum_zero i (by omega)
  have e2 : s.clear.value = fun _ => 0 := by
    funext i; simp only [Prio.clear]; split
    · rfl
    · exact h.tree.value_zero i (by omega)
  refine ⟨⟨?_, ?_, ?_, ?_, ?_⟩, h.cap_pos, Nat.zero_le _, ?_⟩
  · intro i; rw [e1, e2]; grind
  · intro i; simp [e2]
  · intro i; simp [e1]
  · intro i _; simp [e2]
  · intro i _; simp [e1]
  · intro k i; simp [Prio.clear, Prio.n]

theorem Sim.apply (h : Sim s s') (c : Call) :
    (s'.apply c).2 = (s.apply c).2 ∧ Sim (s.apply c).1 (s'.apply c).1 := by
  have hg : ∀ k, s'.index.get? k = s.index.get? k := by intro k; rw [h.index]
  cases c with
  | insert k p =>
    simp only [Prio.apply]
    cases hk : s.index.get? k with
    | some i =>
      obtain ⟨c1, e1, l1⟩ := insert_dup (s := s) (p := p) hk
      obtain ⟨c2, e2, l2⟩ := insert_dup (s := s') (p := p) ((hg k).trans hk)
      rw [e1, e2]
      exact ⟨rfl, h.capacity l1 l2⟩
    | none =>
      by_cases ha : Spec.acceptNonneg p = true
      · obtain ⟨q, rfl, hq⟩ := checkPriority_some ha
        obtain ⟨f, c1, e1, w1⟩ := insert_ok h.wf hq hk
        obtain ⟨g, c2, e2, w2⟩ := insert_ok h.wf' hq ((hg k).trans hk)
        rw [e1, e2]
        refine ⟨rfl, w1, w2, h.pow, ?_, ?_, ?_⟩
        · simp only [h.index, h.n]
        · simp only [h.n, h.pow, h.value]
        · intro i hi
          simp only [Prio.n, AMap.size_insert_of_none _ hk] at hi
          simp only [h.n]
          split
          · rfl
          · exact h.keyAt i (by simp only [Prio.n] at *; omega)
      · have ha : Spec.acceptNonneg p = false := by simpa using ha
        have he : ∀ s : Prio, s.insert k p = (s, .err .invalidArgument) := by
          intro s; simp [Prio.insert, checkPriority_none ha]
        rw [he, he]
        exact ⟨rfl, h⟩
  | update k p =>
    simp only [Prio.apply]
    by_cases ha : Spec.acceptNonneg p = true
    · obtain ⟨q, rfl, hq⟩ := checkPriority_some ha
      cases hk : s.index.get? k with
      | some i =>
        obtain ⟨f, e1, w1⟩ := update_ok h.wf hq hk
        obtain ⟨g, e2, w2⟩ := update_ok h.wf' hq ((hg k).trans hk)
        rw [e1, e2]
        exact ⟨rfl, w1, w2, h.pow, h.index, by simp only [h.pow, h.value], h.keyAt⟩
      | none =>
        have he : ∀ s : Prio, s.index.get? k = none → s.update k (.val q) = (s, .err .invalidArgument) := by
          intro s hk; simp only [Prio.update, hk]; split <;> rfl
        rw [he s hk, he s' ((hg k).trans hk)]
        exact ⟨rfl, h⟩
    · have ha : Spec.acceptNonneg p = false := by simpa using ha
      have he : ∀ s : Prio, s.update k p = (s, .err .invalidArgument) := by
        intro s; simp [Prio.update, checkPriority_none ha]
      rw [he, he]
      exact ⟨rfl, h⟩
  | delete k =>
    simp only [Prio.apply]
    cases hk : s.index.get? k with
    | some i =>
      obtain ⟨s1, e1, w1, p1, ⟨f, hf⟩, _⟩ := delete_ok h.wf hk
      obtain ⟨s2, e2, w2, p2, ⟨g, hg'⟩, _⟩ := delete_ok h.wf' ((hg k).trans hk)
      rw [e1, e2]
      have hin := ((h.wf.bij k i).mp hk).1
      have hlast := h.keyAt (s.n - 1) (by omega)
      refine ⟨rfl, w1, w2, p2.trans (h.pow.trans p1.symm), ?_, ?_, ?_⟩
      · rw [hf, hg']; unfold deleted; rw [h.n, h.index]; split
        · rfl
        · simp only [hlast]
      · rw [hf, hg']; unfold deleted; rw [h.n, h.value]; split <;> rfl
      · intro j hj
        have hjn : j < s.n := by
          rw [hf] at hj
          unfold deleted at hj
          split at hj
          · simp only [Prio.n, AMap.size_erase, hk, Option.isSome_some, if_true] at hj ⊢; omega
          · simp only [Prio.n, AMap.size_erase, AMap.size_insert] at hj ⊢
            have : (s.index.get? (s.keyAt (s.n - 1))).isSome := by
              rw [(h.wf.bij _ (s.n - 1)).mpr ⟨by omega, rfl⟩]; rfl
            simp only [Prio.n] at this
            rw [this] at hj
            simp only [if_true] at hj
            split at hj <;> omega
        rw [hf, hg']; unfold deleted; rw [h.n]; split
        · exact h.keyAt j hjn
        · simp only [hlast]
          split
          · rfl
          · exact h.keyAt j hjn
    | none =>
      have he : ∀ s : Prio, s.index.get? k = none → s.delete k = (s, .err .invalidArgument) := by
        intro s hk; simp [Prio.delete, hk]
      rw [he s hk, he s' ((hg k).trans hk)]
      exact ⟨rfl, h⟩
  | clear =>
    refine ⟨rfl, h.wf.clear, h.wf'.clear, h.pow, rfl, ?_, ?_⟩
    · simp only [Prio.apply, Prio.clear, h.n, h.value]
    · intro i hi; simp [Prio.apply, Prio.clear, Prio.n] at hi

end Prio

namespace Sel

/-- A simulation between selectors of the same kind. -/
def Sim : Sel → Sel → Prop
  | .fifo s, .fifo s' => ∃ δ, ListSel.Shift δ s s'
  | .lifo s, .lifo s' => ∃ δ, ListSel.Shift δ s s'
  | .uniform s, .uniform s' => s = s'
  | .heap s, .heap s' => ∃ δ, HeapSel.Shift δ s s'
  | .prio s, .prio s' => Prio.Sim s s'
  | _, _ => False

theorem Sim.equiv {s s' : Sel} (h : Sim s s') : Sel.Equiv s s' := by
  refine Sel.Equiv.of_sim Sim ?_ ?_ h
  · intro s s' h d
    cases s <;> cases s' <;> simp only [Sim] at h
    · obtain ⟨δ, h⟩ := h; exact h.sample
    · obtain ⟨δ, h⟩ := h; exact h.sample
    · rw [h]
    · obtain ⟨δ, h⟩ := h; exact h.sample
    · exact h.sampleAt d.u_nonneg d.u_lt_one
  · intro s s' h c
    cases s <;> cases s' <;> simp only [Sim] at h
    · obtain ⟨δ, h⟩ := h; exact ⟨(h.applyFifo c).1, δ, (h.applyFifo c).2⟩
    · obtain ⟨δ, h⟩ := h; exact ⟨(h.applyLifo c).1, δ, (h.applyLifo c).2⟩
    · subst h; exact ⟨rfl, rfl⟩
    · obtain ⟨δ, h⟩ := h; exact ⟨(h.apply c).1, δ, (h.apply c).2⟩
    · exact ⟨(h.apply c).1, (h.apply c).2⟩

/-- A cleared selector cannot be told from a new one. -/
theorem Inv.clear_equiv {kind : SelKind} {s : Sel} {b : Book} {t : Nat} (h : Inv kind s b t) :
    Sel.Equiv kind.make (s.apply .clear).1 := by
  apply Sim.equiv
  cases kind <;> cases s <;> simp only [Inv] at h
  · rename_i s; exact ⟨s.next, rfl, fun _ => rfl, by simp [ListSel.init, ListSel.applyFifo, ListSel.clear]⟩
  · rename_i s; exact ⟨s.next, rfl, fun _ => rfl, by simp [ListSel.init, ListSel.applyLifo, ListSel.clear]⟩
  · rfl
  · rename_i s
    refine ⟨s.updates, h.2, ⟨rfl, rfl, ?_⟩, fun _ => rfl, rfl, ?_⟩
    · intro i hi; simp [HeapSel.init] at hi
    · simp [HeapSel.init, HeapSel.apply, HeapSel.clear]
  · rename_i s
    obtain ⟨hr, hp⟩ := h
    refine ⟨Prio.WF.init _, hr.wf.clear, hp, rfl, ?_, ?_⟩
    · funext i
      simp only [Prio.apply, Prio.clear, Prio.init]
      split
      · rfl
      · exact hr.wf.tree.value_zero i (by omega)
    · intro i hi; simp [Prio.init, Prio.n] at hi

end Sel
end Verif
