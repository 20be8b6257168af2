import Verif.Model.Selector
import Verif.Proofs.ListSel
namespace Verif
open Spec (Call Book Entry)

namespace Uniform

/-- Key vector and key→index map are inverse to each other. -/
def WF (s : Uniform) : Prop := ∀ k i, s.index.get? k = some i ↔ s.keys[i]? = some k

theorem WF.init : WF init := by intro k i; simp [Uniform.init]

theorem WF.mem_iff {s : Uniform} (h : s.WF) (k : Key) :
    k ∈ s.keys ↔ (s.index.get? k).isSome := by
  rw [Option.isSome_iff_exists, List.mem_iff_getElem?]
  simp only [h k]

theorem WF.nodup {s : Uniform} (h : s.WF) : s.keys.Nodup := by
  rw [List.Nodup, List.pairwise_iff_getElem]
  intro i j hi hj hij heq
  have hj' : s.keys[j]? = some s.keys[j] := by simp [hj]
  have hi' : s.keys[i]? = some s.keys[j] := by simp [hi, heq]
  have h1 := (h _ _).mpr hj'
  have h2 := (h _ _).mpr hi'
  rw [h1] at h2; simp at h2; omega

theorem WF.insert {s : Uniform} (h : s.WF) {k : Key} (hk : s.index.get? k = none) :
    WF ⟨s.keys ++ [k], s.index.insert k s.keys.length⟩ := by
  intro k' i
  simp only [AMap.get?_insert, List.getElem?_append, List.getElem?_singleton]
  by_cases hkk : k' = k
  · subst hkk
    simp only [if_true, Option.some.injEq]
    by_cases hi : i < s.keys.length
    · have := h k' i
      simp [hk] at this
      simp only [hi, if_true]
      constructor
      · omega
      · intro hc; exact absurd hc this
    · simp only [hi, if_false]
      by_cases h0 : i - s.keys.length = 0 <;> simp [h0] <;> omega
  · simp only [hkk, if_false, h k' i]
    by_cases hi : i < s.keys.length
    · simp [hi]
    · simp only [hi, if_false]
      rw [List.getElem?_eq_none (by omega)]
      by_cases h0 : i - s.keys.length = 0
      · simp [h0]; exact fun hc => hkk hc.symm
      · simp [h0]

theorem delete_eq {s : Uniform} (h : s.WF) {k : Key} {i : Nat} (hk : s.index.get? k = some i) :
    ∃ s', s.delete k = (s', .ok ()) ∧ s'.WF ∧ ∀ k', k' ∈ s'.keys ↔ k' ∈ s.keys ∧ k' ≠ k := by
  have hi := (h k i).mp hk
  have hlt : i < s.keys.length := by
    rcases Nat.lt_or_ge i s.keys.length with h1 | h1
    · exact h1
    · rw [List.getElem?_eq_none h1] at hi; simp at hi
  have hlast : s.keys.getLast? = some (s.keys[s.keys.length - 1]'(by omega)) := by
    rw [List.getLast?_eq_getElem?]; simp
  generalize hL : s.keys[s.keys.length - 1]'(by omega) = lastKey at hlast
  have hlidx : s.keys[s.keys.length - 1]? = some lastKey := by
    rw [← hL]; simp
  have hlget := (h lastKey _).mpr hlidx
  unfold Uniform.delete
  rw [hk]; simp only [hlast]
  by_cases hc : i = s.keys.length - 1
  · have hkl : k = lastKey := by
      rw [hc] at hi; rw [hi] at hlidx; simpa using hlidx
    simp only [hc, ne_eq, not_true_eq_false, if_false]
    have hwf : WF ⟨s.keys.dropLast, s.index.erase k⟩ := by
      intro k' j
      simp only [AMap.get?_erase, List.getElem?_dropLast]
      by_cases hkk : k' = k
      · subst hkk
        simp only [if_true, reduceCtorEq, false_iff]
        split
        · intro hj
          have := (h k' j).mpr hj
          rw [hk] at this; simp at this; omega
        · simp
      · simp only [hkk, if_false, h k' j]
        split
        · rfl
        · constructor
          · intro hj
            have hjl : j < s.keys.length := by
              rcases Nat.lt_or_ge j s.keys.length with h1 | h1
              · exact h1
              · rw [List.getElem?_eq_none h1] at hj; simp at hj
            have : j = s.keys.length - 1 := by omega
            rw [this, hlidx] at hj
            simp at hj; exact absurd (hj.symm.trans hkl.symm) hkk
          · simp
    refine ⟨_, rfl, hwf, ?_⟩
    intro k'
    rw [hwf.mem_iff, h.mem_iff, AMap.get?_erase]
    by_cases hkk : k' = k <;> simp [hkk]
  · have hkl : k ≠ lastKey := by
      rintro rfl
      rw [hk] at hlget; simp at hlget; exact hc hlget
    simp only [ne_eq, hc, not_false_eq_true, if_true]
    have hwf : WF ⟨(s.keys.set i lastKey).dropLast, (s.index.erase k).insert lastKey i⟩ := by
      intro k' j
      simp only [AMap.get?_insert, AMap.get?_erase, List.getElem?_dropLast, List.length_set,
        List.getElem?_set]
      by_cases hl : k' = lastKey
      · subst hl
        simp only [if_true, Option.some.injEq]
        constructor
        · rintro rfl
          simp [hlt]; omega
        · split
          · split
            · intro _; assumption
            · intro hj
              have := (h k' j).mpr hj
              rw [hlget] at this; simp at this; omega
          · simp
      · simp only [hl, if_false]
        by_cases hkk : k' = k
        · subst hkk
          simp only [if_true, reduceCtorEq, false_iff]
          split
          · split
            · simp; exact fun hc => hl hc.symm
            · intro hj
              have := (h k' j).mpr hj
              rw [hk] at this; simp at this; omega
          · simp
        · simp only [hkk, if_false, h k' j]
          split
          · split
            · rename_i h1 h2
              subst h2
              simp only [Option.some.injEq]
              rw [hi]
              simp
              constructor
              · intro hc'; exact absurd hc'.symm hkk
              · intro hc'; exact absurd hc'.symm hl
            · rfl
          · constructor
            · intro hj
              have hjl : j < s.keys.length := by
                rcases Nat.lt_or_ge j s.keys.length with h1 | h1
                · exact h1
                · rw [List.getElem?_eq_none h1] at hj; simp at hj
              have : j = s.keys.length - 1 := by omega
              rw [this, hlidx] at hj
              simp at hj; exact absurd hj.symm hl
            · simp
    refine ⟨_, rfl, hwf, ?_⟩
    intro k'
    rw [hwf.mem_iff, h.mem_iff]
    simp only [AMap.get?_insert, AMap.get?_erase]
    by_cases hl : k' = lastKey
    · subst hl
      simp [hlget]; exact fun hc' => hkl hc'.symm
    · by_cases hkk : k' = k <;> simp [hkk, hl, hkl]

/-- Refinement relation to the book of the specification. -/
structure R (s : Uniform) (b : Book) : Prop where
  wf : s.WF
  present : ∀ k, k ∈ s.keys ↔ (b k).isSome

theorem R.init : R Uniform.init (fun _ => none) := ⟨WF.init, by simp [Uniform.init]⟩

theorem R.step {s : Uniform} {b : Book} (h : R s b) (t : Nat) (c : Call) :
    R (s.apply c).1 (b.step Spec.acceptAll t c) ∧
    (s.apply c).2 = (if Spec.succeeds Spec.acceptAll b c then .ok () else .err .invalidArgument) ∧
    ((s.apply c).2 ≠ .ok () → (s.apply c).1 = s) := by
  have hg : ∀ k, (s.index.get? k).isSome = (b k).isSome := by
    intro k; rw [Bool.eq_iff_iff, ← h.wf.mem_iff, h.present]
  cases c with
  | insert k p =>
    have hgk := hg k
    simp only [apply, Uniform.insert]
    cases hk : s.index.get? k with
    | some i =>
      rw [hk] at hgk
      have hs : (b k).isSome := by simpa using hgk.symm
      refine ⟨?_, ?_, fun _ => rfl⟩
      · rw [ListSel.sameSince_insert_fail _ _ _ _ _ (Or.inr hs)]; exact h
      · cases hbk : b k <;> simp_all [Spec.succeeds]
    | none =>
      rw [hk] at hgk
      have hs : b k = none := by cases hbk : b k <;> simp_all
      refine ⟨⟨h.wf.insert hk, ?_⟩, by simp [Spec.succeeds, Spec.acceptAll, hs], by simp⟩
      intro k'
      simp only [List.mem_append, List.mem_singleton, h.present, Book.step, Spec.acceptAll, hs]
      by_cases hkk : k' = k <;> simp [hkk]
  | update k p =>
    have hgk := hg k
    have hpres : ∀ k', k' ∈ s.keys ↔ (b.step Spec.acceptAll t (.update k p) k').isSome := by
      intro k'
      rw [h.present]
      have := ListSel.sameSince_update Spec.acceptAll t b k p k'
      cases h1 : b k' <;> cases h2 : b.step Spec.acceptAll t (.update k p) k' <;> simp_all
    simp only [apply, Uniform.update]
    cases hk : s.index.get? k with
    | some i =>
      rw [hk] at hgk
      refine ⟨⟨h.wf, hpres⟩, ?_, fun _ => rfl⟩
      simp [Spec.succeeds, Spec.acceptAll, ← hgk]
    | none =>
      rw [hk] at hgk
      refine ⟨⟨h.wf, hpres⟩, ?_, fun _ => rfl⟩
      simp [Spec.succeeds, Spec.acceptAll, ← hgk]
  | delete k =>
    have hgk := hg k
    simp only [apply]
    cases hk : s.index.get? k with
    | some i =>
      rw [hk] at hgk
      obtain ⟨s', he, hwf, hm⟩ := delete_eq h.wf hk
      rw [he]
      refine ⟨⟨hwf, ?_⟩, by simp [Spec.succeeds, ← hgk], by simp⟩
      intro k'
      simp only [hm, h.present, Book.step]
      by_cases hkk : k' = k <;> simp [hkk]
    | none =>
      rw [hk] at hgk
      have hs : b k = none := by cases hbk : b k <;> simp_all
      simp only [Uniform.delete, hk]
      refine ⟨?_, by simp [Spec.succeeds, hs], by simp⟩
      rw [ListSel.step_delete_absent _ _ _ _ hs]; exact h
  | clear =>
    refine ⟨⟨?_, ?_⟩, by simp [apply, Spec.succeeds], by simp [apply]⟩
    · exact WF.init
    · simp [apply, Uniform.clear, Book.step]

theorem R.runFrom (cs : List Call) : ∀ {s b t}, R s b →
    R (runCalls Uniform.apply s cs) (Book.runFrom Spec.acceptAll t b cs) := by
  induction cs with
  | nil => intro s b t h; exact h
  | cons c cs ih => intro s b t h; exact ih (h.step t c).1

end Uniform
end Verif
