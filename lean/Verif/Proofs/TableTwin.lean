import Verif.Model.Table
import Verif.Proofs.SelEquiv
import Verif.Proofs.TableReach
/-
Tables that differ only in selectors that cannot be told apart, and in old notifications.
-/
namespace Verif
open Spec (Call)

namespace AMap
variable {κ α : Type} [DecidableEq κ] {m m' : AMap κ α}

/-- Two representations of the same map. -/
def Same (m m' : AMap κ α) : Prop := ∀ k, m'.get? k = m.get? k

theorem Same.refl (m : AMap κ α) : Same m m := fun _ => rfl

theorem Same.symm (h : Same m m') : Same m' m := fun k => (h k).symm

theorem Same.insert (h : Same m m') (k : κ) (v : α) : Same (m.insert k v) (m'.insert k v) := by
  intro k'; simp only [get?_insert, h k']

theorem Same.erase (h : Same m m') (k : κ) : Same (m.erase k) (m'.erase k) := by
  intro k'; simp only [get?_erase, h k']

theorem Same.contains (h : Same m m') (k : κ) : m'.contains k = m.contains k := by
  simp only [AMap.contains, h k]

theorem Same.size (h : Same m m') : m'.size = m.size := by
  rw [← length_keys, ← length_keys]
  apply length_eq_of_nodup_of_mem m'.keys_nodup m.keys_nodup
  intro k; rw [mem_keys_iff, mem_keys_iff, h k]

end AMap

namespace Table

theorem same_incRefs (cs : List ChunkRef) : ∀ {m m' : AMap Key Nat}, AMap.Same m m' →
    AMap.Same (incRefs m cs) (incRefs m' cs) := by
  induction cs with
  | nil => intro m m' h; exact h
  | cons c cs ih => intro m m' h; simp only [incRefs, h c.episode]; exact ih (h.insert _ _)

theorem same_decRefs (cs : List ChunkRef) : ∀ {m m' : AMap Key Nat} (n : Int), AMap.Same m m' →
    (decRefs m n cs = none ∧ decRefs m' n cs = none) ∨
    ∃ r r' n', decRefs m n cs = some (r, n') ∧ decRefs m' n cs = some (r', n') ∧ AMap.Same r r' := by
  induction cs with
  | nil => intro m m' n h; exact .inr ⟨m, m', n, rfl, rfl, h⟩
  | cons c cs ih =>
    intro m m' n h
    simp only [decRefs, h c.episode]
    split
    · exact .inl ⟨rfl, rfl⟩
    · split
      · exact ih _ (h.erase _)
      · exact ih _ (h.insert _ _)

/-- The table with other selectors, other representations of its maps and a longer notification history. -/
def re (t : Table) (S R : Sel) (D : AMap Key Item) (E : AMap Key Nat) (pre : List ExtEvent) : Table :=
  { t with
    sampler := S
    remover := R
    data := D
    episodeRefs := E
    log := pre ++ t.log }

/-- `t'` behaves like `t`; it has sent the notifications `pre` in addition, before all others. -/
def Twin (pre : List ExtEvent) (t t' : Table) : Prop :=
  ∃ S R D E, Sel.Equiv t.sampler S ∧ Sel.Equiv t.remover R ∧ AMap.Same t.data D ∧ AMap.Same t.episodeRefs E ∧
    t' = t.re S R D E pre

/-- Two results of the same function on twins. -/
def TwinRes {α : Type} (pre : List ExtEvent) (r r' : Table × α) : Prop := r'.2 = r.2 ∧ Twin pre r.1 r'.1

variable {pre : List ExtEvent} {t t' : Table}

theorem Twin.deleteItem (h : Twin pre t t') (k : Key) : TwinRes pre (t.deleteItem k) (t'.deleteItem k) := by
  obtain ⟨S, R, D, E, hS, hR, hD, hE, rfl⟩ := h
  simp only [Table.deleteItem, re, hD k]
  cases t.data.get? k with
  | none => exact ⟨rfl, S, R, D, E, hS, hR, hD, hE, rfl⟩
  | some it =>
    simp only
    rcases same_decRefs it.chunks t.numDeletedEpisodes hE with ⟨e1, e2⟩ | ⟨r, r', n', e1, e2, e3⟩
    · rw [e1, e2]; exact ⟨rfl, S, R, D, E, hS, hR, hD, hE, rfl⟩
    · rw [e1, e2]
      simp only
      rw [hS.apply]
      cases hr : (t.sampler.apply (.delete k)).2 with
      | ok u =>
        simp only
        exact ⟨hR.apply _, _, _, _, _, hS.next _, hR.next _, hD.erase _, e3, by simp [re]⟩
      | err c => exact ⟨rfl, _, _, _, _, hS.next _, hR, hD.erase _, e3, by simp [re]⟩
      | died => exact ⟨rfl, _, _, _, _, hS.next _, hR, hD.erase _, e3, by simp [re]⟩

theorem Twin.updateItem (h : Twin pre t t') (k : Key) (p : Pri) :
    TwinRes pre (t.updateItem k p) (t'.updateItem k p) := by
  obtain ⟨S, R, D, E, hS, hR, hD, hE, rfl⟩ := h
  simp only [Table.updateItem, re, hD k]
  cases t.data.get? k with
  | none => exact ⟨rfl, S, R, D, E, hS, hR, hD, hE, rfl⟩
  | some it =>
    simp only
    rw [hS.apply]
    cases hr : (t.sampler.apply (.update k p)).2 with
    | ok u =>
      simp only
      rw [hR.apply]
      cases hr : (t.remover.apply (.update k p)).2 with
      | ok u => exact ⟨rfl, _, _, _, _, hS.next _, hR.next _, hD.insert _ _, hE, by simp [re]⟩
      | err c => exact ⟨rfl, _, _, _, _, hS.next _, hR.next _, hD.insert _ _, hE, by simp [re]⟩
      | died => exact ⟨rfl, _, _, _, _, hS.next _, hR.next _, hD.insert _ _, hE, by simp [re]⟩
    | err c => exact ⟨rfl, _, _, _, _, hS.next _, hR, hD.insert _ _, hE, by simp [re]⟩
    | died => exact ⟨rfl, _, _, _, _, hS.next _, hR, hD.insert _ _, hE, by simp [re]⟩

theorem Twin.withLimiter (h : Twin pre t t') (f : Limiter → Limiter) :
    Twin pre { t with limiter := f t.limiter } { t' with limiter := f t'.limiter } := by
  obtain ⟨S, R, D, E, hS, hR, hD, hE, rfl⟩ := h
  exact ⟨S, R, D, E, hS, hR, hD, hE, rfl⟩

theorem Twin.limiter (h : Twin pre t t') : t'.limiter = t.limiter := by
  obtain ⟨S, R, D, E, hS, hR, hD, hE, rfl⟩ := h; rfl

theorem Twin.data (h : Twin pre t t') : AMap.Same t.data t'.data := by
  obtain ⟨S, R, D, E, hS, hR, hD, hE, rfl⟩ := h; exact hD

theorem Twin.insertNew (h : Twin pre t t') (i : Item) (now : Int) (d : Draw) :
    TwinRes pre (t.insertNew i now d) (t'.insertNew i now d) := by
  obtain ⟨S, R, D, E, hS, hR, hD, hE, rfl⟩ := h
  have hD' := hD.insert i.key { i with insertedAt := now }
  have hE' := same_incRefs i.chunks hE
  simp only [Table.insertNew, re, hD'.size]
  rw [hS.apply]
  cases hr : (t.sampler.apply (.insert i.key i.priority)).2 with
  | ok u =>
    simp only
    rw [hR.apply]
    cases hr : (t.remover.apply (.insert i.key i.priority)).2 with
    | ok u =>
      simp only
      by_cases hfull : t.maxSize < (t.data.insert i.key { i with insertedAt := now }).size
      · simp only [hfull, if_true]
        rw [(hR.next _).sample]
        cases hv : (t.remover.apply (.insert i.key i.priority)).1.sample d with
        | ok v =>
          simp only
          have htw : Twin pre { t with
              data := t.data.insert i.key { i with insertedAt := now }
              sampler := (t.sampler.apply (.insert i.key i.priority)).1
              remover := (t.remover.apply (.insert i.key i.priority)).1
              log := t.log ++ [ExtEvent.insert { i with insertedAt := now }]
              episodeRefs := incRefs t.episodeRefs i.chunks }
            { t with
              data := D.insert i.key { i with insertedAt := now }
              sampler := (S.apply (.insert i.key i.priority)).1
              remover := (R.apply (.insert i.key i.priority)).1
              log := pre ++ t.log ++ [ExtEvent.insert { i with insertedAt := now }]
              episodeRefs := incRefs E i.chunks } :=
            ⟨_, _, _, _, hS.next _, hR.next _, hD', hE', by simp [re]⟩
          obtain ⟨h1, h2⟩ := htw.deleteItem v.1
          rw [h1]
          split
          · exact ⟨rfl, h2.withLimiter Limiter.insert⟩
          · exact ⟨rfl, h2⟩
        | err c => exact ⟨rfl, _, _, _, _, hS.next _, hR.next _, hD', hE', by simp [re]⟩
        | died => exact ⟨rfl, _, _, _, _, hS.next _, hR.next _, hD', hE', by simp [re]⟩
      · simp only [hfull, if_false]
        exact ⟨rfl, _, _, _, _, hS.next _, hR.next _, hD', hE', by simp [re]⟩
    | err c => exact ⟨rfl, _, _, _, _, hS.next _, hR.next _, hD', hE, by simp [re]⟩
    | died => exact ⟨rfl, _, _, _, _, hS.next _, hR.next _, hD', hE, by simp [re]⟩
  | err c => exact ⟨rfl, _, _, _, _, hS.next _, hR, hD', hE, by simp [re]⟩
  | died => exact ⟨rfl, _, _, _, _, hS.next _, hR, hD', hE, by simp [re]⟩

theorem TwinRes.reply {r r' : Table × Res Unit} (h : TwinRes pre r r') : TwinRes pre (Table.reply r) (Table.reply r') := by
  obtain ⟨h1, h2⟩ := h
  unfold Table.reply
  rw [h1]
  split <;> exact ⟨rfl, h2⟩

theorem Twin.insertResume (h : Twin pre t t') (i : Item) (now : Int) (d : Draw) :
    TwinRes pre (t.insertResume i now d) (t'.insertResume i now d) := by
  unfold Table.insertResume
  rw [h.limiter, h.data.contains]
  split
  · exact ⟨rfl, h⟩
  · exact ⟨rfl, h⟩
  · split
    · exact (h.updateItem _ _).reply
    · exact (h.insertNew _ _ _).reply

theorem Twin.deleteAll (ks : List Key) : ∀ {t t' : Table}, Twin pre t t' → TwinRes pre (t.deleteAll ks) (t'.deleteAll ks) := by
  induction ks with
  | nil => intro t t' h; exact ⟨rfl, h⟩
  | cons k ks ih =>
    intro t t' h
    obtain ⟨h1, h2⟩ := h.deleteItem k
    simp only [Table.deleteAll]
    rw [h1]
    split
    · exact ih h2
    · exact ⟨rfl, h2⟩

theorem Twin.updateAll (us : List (Key × Pri)) : ∀ {t t' : Table}, Twin pre t t' →
    TwinRes pre (t.updateAll us) (t'.updateAll us) := by
  induction us with
  | nil => intro t t' h; exact ⟨rfl, h⟩
  | cons u us ih =>
    intro t t' h
    obtain ⟨h1, h2⟩ := h.updateItem u.1 u.2
    simp only [Table.updateAll]
    rw [h1]
    split
    · exact ih h2
    · exact ⟨rfl, h2⟩

theorem Twin.sampleOne (h : Twin pre t t') (rl : Bool) (d : Draw) :
    TwinRes pre (t.sampleOne rl d) (t'.sampleOne rl d) := by
  have hs : t'.sampler.sample d = t.sampler.sample d := by
    obtain ⟨S, R, D, E, hS, hR, hD, hE, rfl⟩ := h; exact hS.sample d
  obtain ⟨S, R, D, E, hS, hR, hD, hE, rfl⟩ := h
  unfold Table.sampleOne
  rw [hs]
  cases t.sampler.sample d with
  | err c => exact ⟨rfl, S, R, D, E, hS, hR, hD, hE, rfl⟩
  | died => exact ⟨rfl, S, R, D, E, hS, hR, hD, hE, rfl⟩
  | ok v =>
    obtain ⟨k, prob⟩ := v
    simp only [re, hD k, hD.size]
    cases t.data.get? k with
    | none => exact ⟨rfl, S, R, D, E, hS, hR, hD, hE, rfl⟩
    | some it =>
      simp only
      have htw : Twin pre
          { t with
            numUniqueSamples := if it.timesSampled = 0 then t.numUniqueSamples + 1 else t.numUniqueSamples
            data := t.data.insert k { it with timesSampled := it.timesSampled + 1 }
            log := t.log ++ [ExtEvent.sample { it with timesSampled := it.timesSampled + 1 }] }
          { t with
            sampler := S
            remover := R
            numUniqueSamples := if it.timesSampled = 0 then t.numUniqueSamples + 1 else t.numUniqueSamples
            data := D.insert k { it with timesSampled := it.timesSampled + 1 }
            episodeRefs := E
            log := pre ++ t.log ++ [ExtEvent.sample { it with timesSampled := it.timesSampled + 1 }] } :=
        ⟨S, R, _, _, hS, hR, hD.insert _ _, hE, by simp [re]⟩
      by_cases hlast : it.timesSampled + 1 = t.maxTimesSampled
      · simp only [hlast, if_true] at htw ⊢
        obtain ⟨h1, h2⟩ := htw.deleteItem it.key
        rw [h1]
        split
        · exact ⟨rfl, h2⟩
        · exact ⟨rfl, h2⟩
        · exact ⟨rfl, h2⟩
      · simp only [hlast, if_false]
        exact ⟨rfl, htw⟩

theorem Twin.setLimiter (h : Twin pre t t') (l : Limiter) : Twin pre { t with limiter := l } { t' with limiter := l } :=
  h.withLimiter (fun _ => l)

theorem Twin.sampleMore (rl : Bool) (more : Nat) : ∀ {t t' : Table} (acc : List Sampled) (ds : Nat → Draw), Twin pre t t' →
    TwinRes pre (t.sampleMore rl acc more ds) (t'.sampleMore rl acc more ds) := by
  induction more with
  | zero => intro t t' acc ds h; exact ⟨rfl, h⟩
  | succ m ih =>
    intro t t' acc ds h
    simp only [Table.sampleMore]
    rw [h.limiter]
    split
    · exact ⟨rfl, h⟩
    · rename_i l _
      obtain ⟨h1, h2⟩ := (h.setLimiter l).sampleOne rl (ds 0)
      rw [h1]
      split
      · exact ih _ _ h2
      · exact ⟨rfl, h2⟩
      · exact ⟨rfl, h2⟩

theorem Twin.sampleLoop (h : Twin pre t t') (rl : Bool) (n : Nat) (ds : Nat → Draw) :
    TwinRes pre (t.sampleLoop rl n ds) (t'.sampleLoop rl n ds) := by
  simp only [Table.sampleLoop]
  obtain ⟨h1, h2⟩ := h.sampleOne rl (ds 0)
  rw [h1]
  split
  · rename_i s _
    obtain ⟨h3, h4⟩ := Twin.sampleMore rl (n - 1) [s] (fun i => ds (i + 1)) h2
    rw [h3]
    split <;> exact ⟨rfl, h4⟩
  · exact ⟨rfl, h2⟩
  · exact ⟨rfl, h2⟩

theorem Twin.sampleResume (h : Twin pre t t') (n : Nat) (ds : Nat → Draw) :
    TwinRes pre (t.sampleResume n ds) (t'.sampleResume n ds) := by
  unfold Table.sampleResume
  rw [h.limiter]
  split
  · exact ⟨rfl, h⟩
  · exact ⟨rfl, h⟩
  · exact (h.setLimiter _).sampleLoop _ _ _

theorem Twin.step (h : Twin pre t t') (op : Op) : TwinRes pre (t.step op) (t'.step op) := by
  cases op with
  | insert i now d =>
    simp only [Table.step, Table.insertOrAssign]
    rw [h.data.contains]
    split
    · exact ⟨rfl, h⟩
    · split
      · exact (h.updateItem _ _).reply
      · exact h.insertResume _ _ _
  | insertResume i now d => exact h.insertResume _ _ _
  | workerInsert i now d =>
    simp only [Table.step, Table.workerInsert, Table.insertInternal]
    rw [h.limiter, h.data.contains]
    split
    · split
      · exact (h.updateItem _ _).reply
      · exact (h.insertNew _ _ _).reply
    · exact ⟨rfl, h⟩
  | mutate us ds =>
    simp only [Table.step, Table.mutateItems]
    obtain ⟨h1, h2⟩ := Twin.deleteAll ds h
    rw [h1]
    split
    · exact (Twin.updateAll us h2).reply
    · exact ⟨rfl, h2⟩
    · exact ⟨rfl, h2⟩
  | sample n ds =>
    simp only [Table.step, Table.sampleBatch]
    rw [h.limiter]
    split
    · exact (h.setLimiter _).sampleLoop _ _ _
    · exact h.sampleResume _ _
  | sampleResume n ds => exact h.sampleResume _ _
  | workerSample rl d =>
    simp only [Table.step, Table.workerSample]
    rw [h.limiter]
    split
    · exact ⟨rfl, h⟩
    · rename_i l _
      obtain ⟨h1, h2⟩ := (h.setLimiter l).sampleOne rl d
      rw [h1]
      split <;> exact ⟨rfl, h2⟩
  | reset =>
    obtain ⟨S, R, D, E, hS, hR, hD, hE, rfl⟩ := h
    exact ⟨rfl, _, _, _, _, hS.next _, hR.next _, AMap.Same.refl _, AMap.Same.refl _,
      by simp [re, Table.step, Table.reset]⟩
  | close =>
    obtain ⟨S, R, D, E, hS, hR, hD, hE, rfl⟩ := h
    exact ⟨rfl, S, R, D, E, hS, hR, hD, hE, rfl⟩

theorem Twin.replies (ops : List Op) : ∀ {t t' : Table}, Twin pre t t' → t'.replies ops = t.replies ops := by
  induction ops with
  | nil => intro t t' _; rfl
  | cons op ops ih =>
    intro t t' h
    obtain ⟨h1, h2⟩ := h.step op
    simp only [Table.replies]
    rw [h1, ih h2]

theorem Twin.run (ops : List Op) : ∀ {t t' : Table}, Twin pre t t' →
    (t.run ops = none ∧ t'.run ops = none) ∨
    ∃ u u', t.run ops = some u ∧ t'.run ops = some u' ∧ Twin pre u u' := by
  induction ops with
  | nil => intro t t' h; exact .inr ⟨t, t', rfl, rfl, h⟩
  | cons op ops ih =>
    intro t t' h
    obtain ⟨h1, h2⟩ := h.step op
    simp only [Table.run]
    rw [h1]
    split
    · exact .inl ⟨rfl, rfl⟩
    · exact ih h2

end Table
end Verif
