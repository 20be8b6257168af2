import Verif.Proofs.HeapSel
import Verif.Props.C01_C02_ListSel
/-
C04: the heap selector.
-/
namespace Verif
open Spec (Call)

/-- The heap selector after a history of calls. -/
def heapAfter (minHeap : Bool) (cs : List Call) : HeapSel :=
  runCalls HeapSel.apply (HeapSel.init minHeap) cs

/-- Entry `e` is to be sampled rather than `e'`: its priority is strictly better (lower for a
min-heap, higher for a max-heap), or equal and it was written earlier. -/
def Spec.preferred (minHeap : Bool) (e e' : Spec.Entry) : Prop :=
  match e.pri, e'.pri with
  | .val p, .val p' => (if minHeap then p < p' else p' < p) ∨ (p = p' ∧ e.written < e'.written)
  | _, _ => False

/-- The call does not carry a NaN. -/
def Spec.ordinary : Call → Prop
  | .insert _ p => p ≠ .nan
  | .update _ p => p ≠ .nan
  | _ => True

/-- C04: after any history without NaN priorities, `Sample` returns `(k, pr)` exactly if `pr = 1`, `k` is
present and preferred to every other present key. -/
theorem C04_heap_sample (minHeap : Bool) (cs : List Call) (hn : ∀ c ∈ cs, Spec.ordinary c)
    (k : Key) (pr : Rat) :
    (heapAfter minHeap cs).sample = .ok (k, pr) ↔
      pr = 1 ∧ ∃ e, Spec.book Spec.acceptAll cs k = some e ∧
        ∀ k' e', Spec.book Spec.acceptAll cs k' = some e' → k' ≠ k → Spec.preferred minHeap e e' := by
  have hn' : ∀ c ∈ cs, HeapSel.NotNan c := by
    intro c hc
    have := hn c hc
    cases c <;> simpa [HeapSel.NotNan, Spec.ordinary] using this
  obtain ⟨hr, hmin0, hg0⟩ := HeapSel.R.runFrom cs (HeapSel.R.init minHeap)
  have hg := hg0 (HeapSel.Good.init minHeap) hn'
  have hmin : (heapAfter minHeap cs).minHeap = minHeap := hmin0
  clear hg0 hmin0
  change HeapSel.R (heapAfter minHeap cs) (Spec.book Spec.acceptAll cs) _ at hr
  change (heapAfter minHeap cs).Good at hg
  generalize heapAfter minHeap cs = s at *
  generalize Spec.book Spec.acceptAll cs = b at *
  subst hmin
  -- the comparison of the code agrees with `preferred`
  have hcmp : ∀ k k' x x' e e', s.nodes.get? k = some x → s.nodes.get? k' = some x' →
      b k = some e → b k' = some e' → (x.lt x' = true ↔ Spec.preferred s.minHeap e e') := by
    intro k k' x x' e e' hx hx' he he'
    have hm := hr.mono _ _ _ _ _ _ hx hx' he he'
    obtain ⟨e1, he1, hp1⟩ := hr.some_ _ _ hx
    obtain ⟨e2, he2, hp2⟩ := hr.some_ _ _ hx'
    rw [he] at he1; rw [he'] at he2
    simp at he1 he2; subst he1; subst he2
    unfold HNode.lt Spec.preferred
    rw [hp1, hp2]
    cases e.pri <;> cases e'.pri <;> simp [Pri.signed, Pri.lt, Pri.eqb]
    rw [hm]
    cases s.minHeap <;> simp <;> grind
  unfold HeapSel.sample
  by_cases h0 : s.nodes.size = 0
  · simp only [h0, if_true, reduceCtorEq, false_iff]
    rintro ⟨_, e, he, _⟩
    have := hr.get_isSome k
    rw [(AMap.size_eq_zero_iff _).mp h0 k, he] at this
    simp at this
  · have hn0 : s.heap.n ≠ 0 := fun hc => h0 (hr.wf.n_zero_iff.mp hc)
    simp only [h0, hn0, if_false, Res.ok.injEq, Prod.mk.injEq]
    have hroot := hg.ord.root hg.valid
    generalize hx0 : s.heap.at_ 0 = x0 at *
    have hget0 : s.nodes.get? x0.key = some x0 :=
      (hr.wf.nodes _ _).mpr ⟨⟨0, by omega, hx0⟩, rfl⟩
    obtain ⟨e0, he0, _⟩ := hr.some_ _ _ hget0
    have hbest : ∀ k' e', b k' = some e' → k' ≠ x0.key → Spec.preferred s.minHeap e0 e' := by
      intro k' e' he' hne
      obtain ⟨x', hx'⟩ : ∃ x', s.nodes.get? k' = some x' := by
        have := hr.get_isSome k'
        rw [he'] at this
        exact Option.isSome_iff_exists.mp (by simpa using this)
      rw [← hcmp _ _ _ _ _ _ hget0 hx' he0 he']
      obtain ⟨⟨i, hi, hxi⟩, hkey'⟩ := (hr.wf.nodes _ _).mp hx'
      have hle := hroot i hi
      rw [hxi] at hle
      have hv0 := hg.valid 0 (by omega)
      have hvi := hg.valid i hi
      rw [hx0] at hv0; rw [hxi] at hvi
      -- the write times differ
      have hm1 := hr.mono _ _ _ _ _ _ hget0 hx' he0 he'
      have hm2 := hr.mono _ _ _ _ _ _ hx' hget0 he' he0
      have hupd : x0.upd ≠ x'.upd := by
        intro hu
        exact hne (hr.inj _ _ _ _ hget0 hx' hu).symm
      unfold HNode.le at hle
      obtain ⟨k0, p0, u0⟩ := x0
      obtain ⟨k1, p1, u1⟩ := x'
      cases p0 <;> cases p1 <;> simp_all [HNode.Valid, HNode.lt, Pri.lt, Pri.eqb]
      grind
    constructor
    · rintro ⟨rfl, rfl⟩
      exact ⟨rfl, e0, he0, hbest⟩
    · rintro ⟨rfl, e, he, hmin⟩
      refine ⟨?_, rfl⟩
      apply Classical.byContradiction
      intro hne
      have h1 := hbest k e he (fun hc => hne hc.symm)
      have h2 := hmin x0.key e0 he0 hne
      unfold Spec.preferred at h1 h2
      cases hp : e.pri <;> cases hp0 : e0.pri <;> simp_all
      cases hm : s.minHeap <;> simp [hm] at h1 h2 <;> grind

/-- C04: on such a history sampling succeeds exactly when some key is present. -/
theorem C04_heap_sample_total (minHeap : Bool) (cs : List Call) :
    (∃ k, (heapAfter minHeap cs).sample = .ok (k, 1)) ↔
      ∃ k e, Spec.book Spec.acceptAll cs k = some e := by
  obtain ⟨hr, _, _⟩ := HeapSel.R.runFrom cs (HeapSel.R.init minHeap)
  change HeapSel.R (heapAfter minHeap cs) (Spec.book Spec.acceptAll cs) _ at hr
  generalize heapAfter minHeap cs = s at *
  generalize Spec.book Spec.acceptAll cs = b at *
  unfold HeapSel.sample
  by_cases h0 : s.nodes.size = 0
  · simp only [h0, if_true, reduceCtorEq, exists_false, false_iff]
    rintro ⟨k, e, he⟩
    have := hr.get_isSome k
    rw [(AMap.size_eq_zero_iff _).mp h0 k, he] at this
    simp at this
  · have hn0 : s.heap.n ≠ 0 := fun hc => h0 (hr.wf.n_zero_iff.mp hc)
    simp only [h0, hn0, if_false]
    constructor
    · intro _
      obtain ⟨e, he, _⟩ := hr.some_ _ _ ((hr.wf.nodes (s.heap.at_ 0).key _).mpr ⟨⟨0, by omega, rfl⟩, rfl⟩)
      exact ⟨_, e, he⟩
    · intro _; exact ⟨_, rfl⟩

/-- A history with ties: 7 and 9 have equal priority and 9 was written last. -/
def demoTies : List Call :=
  [.insert 5 (.val 3), .insert 9 (.val 2), .insert 7 (.val 2), .update 9 (.val 2), .insert 1 (.val 4),
   .update 5 (.val 4), .delete 8]

example : (heapAfter true demoTies).sample = .ok (7, 1) := by decide +kernel
example : (heapAfter false demoTies).sample = .ok (1, 1) := by decide +kernel
example : ∀ c ∈ demoTies, Spec.ordinary c := by simp [demoTies, Spec.ordinary]

end Verif
