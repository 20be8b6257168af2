import Verif.Proofs.TableValid
/-
More about the result of a request for a batch: it never times out by itself, and all samples are reported to the extensions in order.
-/
namespace Verif
open Spec (Call)

theorem Sel.sample_no_err {s : Sel} {d : Draw} {c : Code} : s.sample d ≠ .err c := by
  cases s <;> simp only [Sel.sample, ListSel.sample, Uniform.sampleAt, HeapSel.sample, Prio.sampleAt] <;> intro h <;> (repeat' split at h) <;>
    simp_all

theorem Sel.delete_err {s : Sel} {k : Key} {c : Code} (h : (s.apply (.delete k)).2 = .err c) : c = .invalidArgument := by
  cases s <;> simp only [Sel.apply, ListSel.applyFifo, ListSel.applyLifo, Uniform.apply, HeapSel.apply, Prio.apply, ListSel.delete, Uniform.delete,
    HeapSel.delete, Prio.delete] at h <;> (repeat' split at h) <;> simp_all

namespace Table

theorem deleteItem_err {t : Table} {k : Key} {c : Code} (h : (t.deleteItem k).2 = .err c) : c = .invalidArgument := by
  unfold deleteItem at h
  split at h
  · cases h
  · split at h
    · cases h
    · simp only at h
      split at h
      · exact Sel.delete_err h
      · exact Sel.delete_err h

theorem sampleOne_err {t : Table} {b : Bool} {d : Draw} {c : Code} (h : (t.sampleOne b d).2 = .err c) : c = .invalidArgument := by
  unfold sampleOne at h
  split at h
  · rename_i hs; exact absurd hs Sel.sample_no_err
  · cases h
  · split at h
    · cases h
    · simp only at h
      split at h
      · split at h
        · cases h
        · rename_i hd
          cases h
          exact deleteItem_err hd
        · cases h
      · cases h

theorem sampleMore_err (b : Bool) : ∀ (n : Nat) {t : Table} {acc : List Sampled} {ds : Nat → Draw} {c : Code},
    (t.sampleMore b acc n ds).2 = .err c → c = .invalidArgument
  | 0, t, acc, ds, c, h => by simp [sampleMore] at h
  | n + 1, t, acc, ds, c, h => by
    simp only [sampleMore] at h
    split at h
    · cases h
    · split at h
      · exact sampleMore_err b n h
      · rename_i hd
        cases h
        exact sampleOne_err hd
      · cases h

theorem sampleLoop_err {t : Table} {b : Bool} {n : Nat} {ds : Nat → Draw} {c : Code} (h : (t.sampleLoop b n ds).2 = .err c) :
    c = .invalidArgument := by
  unfold sampleLoop at h
  simp only at h
  split at h
  · split at h
    · cases h
    · rename_i hd
      cases h
      exact sampleMore_err b _ hd
    · cases h
  · rename_i hd
    cases h
    exact sampleOne_err hd
  · cases h

theorem sampleResume_err {t : Table} {n : Nat} {ds : Nat → Draw} {c : Code} (h : (t.step (.sampleResume n ds)).2 = .err c) :
    c = .invalidArgument ∨ c = .cancelled := by
  simp only [step, sampleResume] at h
  split at h
  · cases h; exact .inr rfl
  · cases h
  · exact .inl (sampleLoop_err h)

theorem sample_err {t : Table} {n : Nat} {ds : Nat → Draw} {c : Code} (h : (t.step (.sample n ds)).2 = .err c) :
    c = .invalidArgument ∨ c = .cancelled := by
  simp only [step, sampleBatch] at h
  split at h
  · exact .inl (sampleLoop_err h)
  · exact sampleResume_err h

/-- Samples are reported: the log has grown by entries among which these are. -/
def Reports (t t' : Table) (l : List Sampled) : Prop := ∃ added, t'.log = t.log ++ added ∧ (l.map fun y => ExtEvent.sample y.item).Sublist added

theorem sampleOne_reports {t : Table} {b : Bool} {d : Draw} {s : Sampled} (h : (t.sampleOne b d).2 = .ok s) :
    Reports t (t.sampleOne b d).1 [s] := by
  unfold sampleOne at h ⊢
  split at h
  · cases h
  · cases h
  · split at h
    · cases h
    · rename_i k _ hs _ it he
      simp only [he] at h ⊢
      split at h
      · rename_i hm
        rw [if_pos hm]
        have hg := fun t1 : Table => (deleteItem_grows t1 it.key).log
        split at h
        · rename_i hd
          cases h
          simp only [hd]
          obtain ⟨l, hl⟩ := hg _
          refine ⟨_, by rw [← hl]; simp only; rw [List.append_assoc], ?_⟩
          simp
        · cases h
        · cases h
      · rename_i hm
        rw [if_neg hm]
        cases h
        exact ⟨_, rfl, by simp⟩

theorem Reports.trans {a b c : Table} {l m : List Sampled} (h : Reports a b l) (g : Reports b c m) : Reports a c (l ++ m) := by
  obtain ⟨x, h1, h2⟩ := h
  obtain ⟨y, g1, g2⟩ := g
  refine ⟨x ++ y, by rw [g1, h1, List.append_assoc], ?_⟩
  rw [List.map_append]
  exact h2.append g2

theorem sampleMore_reports (b : Bool) : ∀ (n : Nat) {t : Table} {acc : List Sampled} {ds : Nat → Draw} {l : List Sampled},
    (t.sampleMore b acc n ds).2 = .ok l → ∃ m, l = acc ++ m ∧ Reports t (t.sampleMore b acc n ds).1 m
  | 0, t, acc, ds, l, h => by
    simp only [sampleMore] at h
    cases h
    exact ⟨[], by simp, [], by simp [sampleMore], by simp⟩
  | n + 1, t, acc, ds, l, h => by
    simp only [sampleMore] at h ⊢
    split at h
    · cases h
      exact ⟨[], by simp, [], by simp, by simp⟩
    · rename_i lm hl
      split at h
      · rename_i s hs
        obtain ⟨m, h1, h2⟩ := sampleMore_reports b n h
        have h0 : Reports t _ [s] := sampleOne_reports (t := { t with limiter := lm }) hs
        exact ⟨s :: m, by rw [h1]; simp, h0.trans h2⟩
      · cases h
      · cases h

theorem sampleLoop_reports {t : Table} {b : Bool} {n : Nat} {ds : Nat → Draw} {l : List Sampled}
    (h : (t.sampleLoop b n ds).2 = .ok (.samples l)) : Reports t (t.sampleLoop b n ds).1 l := by
  unfold sampleLoop at h ⊢
  simp only at h ⊢
  split at h
  · rename_i s hs
    split at h
    · rename_i hm
      cases h
      simp only
      obtain ⟨m, h1, h2⟩ := sampleMore_reports b _ hm
      rw [h1]
      exact (sampleOne_reports hs).trans h2
    · cases h
    · cases h
  · cases h
  · cases h

theorem sampleResume_reports {t : Table} {n : Nat} {ds : Nat → Draw} {l : List Sampled}
    (h : (t.step (.sampleResume n ds)).2 = .ok (.samples l)) : Reports t (t.step (.sampleResume n ds)).1 l := by
  simp only [step, sampleResume] at h ⊢
  split at h
  · cases h
  · cases h
  · exact sampleLoop_reports h

theorem sample_reports {t : Table} {n : Nat} {ds : Nat → Draw} {l : List Sampled}
    (h : (t.step (.sample n ds)).2 = .ok (.samples l)) : Reports t (t.step (.sample n ds)).1 l := by
  simp only [step, sampleBatch] at h ⊢
  split at h
  · exact sampleLoop_reports h
  · exact sampleResume_reports h

end Table
end Verif
