import Verif.Proofs.TableLog
/-
Sample counts of items, from the notifications.
-/
namespace Verif
namespace Table

/-- The fold behind `uniqueSamples`. -/
def uniqueState (log : List ExtEvent) : List Key × Int := log.foldl Spec.observeUnique ([], 0)

theorem uniqueState_snoc (log : List ExtEvent) (e : ExtEvent) :
    uniqueState (log ++ [e]) = Spec.observeUnique (uniqueState log) e := by
  simp [uniqueState, List.foldl_append]

theorem samplesOf_insert (k : Key) (log : List ExtEvent) (i : Item) :
    Spec.samplesOf k (log ++ [.insert i]) = if i.key = k then 0 else Spec.samplesOf k log := by
  simp [Spec.samplesOf, List.foldl_append]

theorem samplesOf_sample (k : Key) (log : List ExtEvent) (i : Item) :
    Spec.samplesOf k (log ++ [.sample i]) =
      if i.key = k then Spec.samplesOf k log + 1 else Spec.samplesOf k log := by
  simp [Spec.samplesOf, List.foldl_append]

theorem samplesOf_delete (k : Key) (log : List ExtEvent) (i : Item) :
    Spec.samplesOf k (log ++ [.delete i]) = if i.key = k then 0 else Spec.samplesOf k log := by
  simp [Spec.samplesOf, List.foldl_append]

theorem samplesOf_update (k : Key) (log : List ExtEvent) (i : Item) :
    Spec.samplesOf k (log ++ [.update i]) = Spec.samplesOf k log := by
  simp [Spec.samplesOf, List.foldl_append]

theorem samplesOf_reset (k : Key) (log : List ExtEvent) :
    Spec.samplesOf k (log ++ [.reset]) = 0 := by
  simp [Spec.samplesOf, List.foldl_append]

/-- Every sample notification carries the right count. -/
def CountsRight (M : Int) (log : List ExtEvent) : Prop :=
  ∀ pre i post, log = pre ++ .sample i :: post →
    i.timesSampled = ((Spec.samplesOf i.key pre : Nat) : Int) + 1 ∧ (0 < M → i.timesSampled ≤ M)

theorem CountsRight.snoc {M log e} (h : CountsRight M log)
    (he : ∀ i, e = .sample i → i.timesSampled = ((Spec.samplesOf i.key log : Nat) : Int) + 1 ∧ (0 < M → i.timesSampled ≤ M)) :
    CountsRight M (log ++ [e]) := by
  intro pre i post heq
  rcases List.eq_nil_or_concat post with rfl | ⟨post', x, rfl⟩
  · have h2 := List.append_inj' heq rfl
    obtain ⟨rfl, h3⟩ := h2
    exact he i (by simpa using h3)
  · rw [List.concat_eq_append, ← List.cons_append, ← List.append_assoc] at heq
    have h2 := List.append_inj' heq rfl
    exact h pre i post' h2.1

/-- Sample counts as the log tells them. -/
structure SmpSt (M : Int) (log : List ExtEvent) (m : AMap Key Item) (unique : Int) : Prop where
  pres : ∀ k it, m.get? k = some it → it.timesSampled = ((Spec.samplesOf k log : Nat) : Int)
  abs : ∀ k, m.get? k = none → Spec.samplesOf k log = 0
  seen : ∀ k, k ∈ (uniqueState log).1 ↔ 0 < Spec.samplesOf k log
  uniq : unique = (uniqueState log).2
  fine : CountsRight M log

theorem SmpSt.insert {M log m u} (h : SmpSt M log m u) {i : Item} (hk : m.get? i.key = none)
    (hf : i.timesSampled = 0) : SmpSt M (log ++ [.insert i]) (m.insert i.key i) u := by
  refine ⟨?_, ?_, ?_, ?_, h.fine.snoc (by simp)⟩
  · intro k it hit
    rw [samplesOf_insert]
    rw [AMap.get?_insert] at hit
    split at hit
    · rename_i he; subst he; simp at hit; subst hit; simp [hf]
    · rename_i he
      rw [if_neg (fun hc => he hc.symm)]
      exact h.pres k it hit
  · intro k hkn
    rw [samplesOf_insert]
    rw [AMap.get?_insert] at hkn
    split at hkn
    · simp at hkn
    · rename_i he
      rw [if_neg (fun hc => he hc.symm)]
      exact h.abs k hkn
  · intro k
    rw [uniqueState_snoc, samplesOf_insert]
    have hs := h.seen k
    generalize uniqueState log = us at *
    obtain ⟨seen, n⟩ := us
    simp only [Spec.observeUnique, List.mem_filter]
    by_cases he : i.key = k
    · simp [he]
    · have he' : k ≠ i.key := fun hc => he hc.symm
      simp [he, he'] at hs ⊢; exact hs
  · rw [uniqueState_snoc, h.uniq]
    generalize uniqueState log = us at *
    rfl

theorem SmpSt.delete {M log m u} (h : SmpSt M log m u) {i : Item} :
    SmpSt M (log ++ [.delete i]) (m.erase i.key) u := by
  refine ⟨?_, ?_, ?_, ?_, h.fine.snoc (by simp)⟩
  · intro k it hit
    rw [samplesOf_delete]
    rw [AMap.get?_erase] at hit
    split at hit
    · simp at hit
    · rename_i he
      rw [if_neg (fun hc => he hc.symm)]
      exact h.pres k it hit
  · intro k hkn
    rw [samplesOf_delete]
    rw [AMap.get?_erase] at hkn
    split at hkn
    · rename_i he; simp [he]
    · rename_i he
      rw [if_neg (fun hc => he hc.symm)]
      exact h.abs k hkn
  · intro k
    rw [uniqueState_snoc, samplesOf_delete]
    have hs := h.seen k
    generalize uniqueState log = us at *
    obtain ⟨seen, n⟩ := us
    simp only [Spec.observeUnique, List.mem_filter]
    by_cases he : i.key = k
    · simp [he]
    · have he' : k ≠ i.key := fun hc => he hc.symm
      simp [he, he'] at hs ⊢; exact hs
  · rw [uniqueState_snoc, h.uniq]
    generalize uniqueState log = us at *
    rfl

theorem SmpSt.update {M log m u} (h : SmpSt M log m u) {it : Item} {p : Pri} (hk : m.get? it.key = some it) :
    SmpSt M (log ++ [.update { it with priority := p }]) (m.insert it.key { it with priority := p }) u := by
  refine ⟨?_, ?_, ?_, ?_, h.fine.snoc (by simp)⟩
  · intro k x hit
    rw [samplesOf_update]
    rw [AMap.get?_insert] at hit
    split at hit
    · rename_i he
      subst he
      simp only [Option.some.injEq] at hit
      subst hit
      exact h.pres _ it hk
    · exact h.pres k x hit
  · intro k hkn
    rw [samplesOf_update]
    rw [AMap.get?_insert] at hkn
    split at hkn
    · simp at hkn
    · exact h.abs k hkn
  · intro k
    rw [uniqueState_snoc, samplesOf_update]
    exact h.seen k
  · rw [uniqueState_snoc, h.uniq]
    generalize uniqueState log = us at *
    rfl

theorem SmpSt.sample {M log m u} (h : SmpSt M log m u) {it : Item} (hk : m.get? it.key = some it)
    (hM : 0 < M → it.timesSampled < M) :
    SmpSt M (log ++ [.sample (bump it)]) (m.insert it.key (bump it))
      (if it.timesSampled = 0 then u + 1 else u) := by
  have hp := h.pres _ _ hk
  refine ⟨?_, ?_, ?_, ?_, h.fine.snoc ?_⟩
  · intro k x hit
    rw [samplesOf_sample, bump_key]
    rw [AMap.get?_insert] at hit
    split at hit
    · rename_i he
      subst he
      simp only [Option.some.injEq] at hit
      subst hit
      simp [bump, hp]
    · rename_i he
      rw [if_neg (fun hc => he hc.symm)]
      exact h.pres k x hit
  · intro k hkn
    rw [samplesOf_sample, bump_key]
    rw [AMap.get?_insert] at hkn
    split at hkn
    · simp at hkn
    · rename_i he
      rw [if_neg (fun hc => he hc.symm)]
      exact h.abs k hkn
  · intro k
    rw [uniqueState_snoc, samplesOf_sample]
    have hs := h.seen k
    generalize uniqueState log = us at *
    obtain ⟨seen, n⟩ := us
    simp only [Spec.observeUnique, bump_key] at hs ⊢
    by_cases he : it.key = k
    · subst he
      by_cases hmem : it.key ∈ seen <;> simp [hmem]
    · have he' : k ≠ it.key := fun hc => he hc.symm
      by_cases hmem : it.key ∈ seen <;> simp [he, he', hs, hmem]
  · rw [uniqueState_snoc, h.uniq]
    have hs := h.seen it.key
    generalize uniqueState log = us at *
    obtain ⟨seen, n⟩ := us
    simp only [Spec.observeUnique, bump_key] at hs ⊢
    by_cases hz : it.timesSampled = 0
    · have : ¬ it.key ∈ seen := by rw [hs]; omega
      simp [hz, this]
    · have : it.key ∈ seen := by rw [hs]; omega
      simp [hz, this]
  · rintro i hi
    cases hi
    refine ⟨by simp [bump, hp], ?_⟩
    intro h0
    have := hM h0
    simp only [bump]; omega

theorem SmpSt.reset {M log m u} (h : SmpSt M log m u) : SmpSt M (log ++ [.reset]) AMap.empty 0 := by
  refine ⟨by simp, ?_, ?_, ?_, h.fine.snoc (by simp)⟩
  · intro k _; rw [samplesOf_reset]
  · intro k
    rw [uniqueState_snoc, samplesOf_reset]
    generalize uniqueState log = us at *
    simp [Spec.observeUnique]
  · rw [uniqueState_snoc]
    generalize uniqueState log = us at *
    rfl

/-- Sample counts and limits of a table. -/
structure SmpOk (t : Table) : Prop where
  st : SmpSt t.maxTimesSampled t.log t.data t.numUniqueSamples
  lt : 0 < t.maxTimesSampled → ∀ k it, t.data.get? k = some it → it.timesSampled < t.maxTimesSampled

theorem SmpOk.mstep {t t' mv} (h : SmpOk t) (hm : MStep t mv t')
    (hf : ∀ i v, mv = .insert i v → i.timesSampled = 0) : SmpOk t' := by
  cases mv with
  | update it p =>
    obtain ⟨hk, he, _, _⟩ := hm
    refine ⟨?_, ?_⟩
    · rw [he.data, he.log, he.maxTimes, he.unique]; exact h.st.update hk
    · rw [he.data, he.maxTimes]
      intro h0 k x hx
      rw [AMap.get?_insert] at hx
      split at hx
      · simp only [Option.some.injEq] at hx; subst hx; exact h.lt h0 _ it hk
      · exact h.lt h0 k x hx
  | insert i v =>
    have hz := hf i v rfl
    cases v with
    | none =>
      obtain ⟨_, hk, _, he, _⟩ := hm
      refine ⟨?_, ?_⟩
      · rw [he.data, he.log, he.maxTimes, he.unique]; exact h.st.insert hk hz
      · rw [he.data, he.maxTimes]
        intro h0 k x hx
        rw [AMap.get?_insert] at hx
        split at hx
        · simp only [Option.some.injEq] at hx; subst hx; omega
        · exact h.lt h0 k x hx
    | some v =>
      obtain ⟨_, hk, _, hv, _, he, _, _, _⟩ := hm
      refine ⟨?_, ?_⟩
      · rw [he.data, he.log, he.maxTimes, he.unique]
        have := (h.st.insert hk hz).delete (i := v)
        rw [List.append_assoc] at this
        exact this
      · rw [he.data, he.maxTimes]
        intro h0 k x hx
        rw [AMap.get?_erase] at hx
        split at hx
        · simp at hx
        rw [AMap.get?_insert] at hx
        split at hx
        · simp only [Option.some.injEq] at hx; subst hx; omega
        · exact h.lt h0 k x hx
  | sample it out gone =>
    obtain ⟨_, hk, _, hg, he, _⟩ := hm
    have hlt : 0 < t.maxTimesSampled → it.timesSampled < t.maxTimesSampled := fun h0 => h.lt h0 _ it hk
    cases gone with
    | true =>
      simp only [if_true] at he
      refine ⟨?_, ?_⟩
      · rw [he.data, he.log, he.maxTimes, he.unique]
        have := (h.st.sample hk hlt).delete (i := bump it)
        rw [List.append_assoc] at this
        exact this
      · rw [he.data, he.maxTimes]
        intro h0 k x hx
        rw [AMap.get?_erase] at hx
        split at hx
        · simp at hx
        rw [AMap.get?_insert] at hx
        split at hx
        · contradiction
        · exact h.lt h0 k x hx
    | false =>
      simp only [Bool.false_eq_true, if_false] at he
      refine ⟨?_, ?_⟩
      · rw [he.data, he.log, he.maxTimes, he.unique]; exact h.st.sample hk hlt
      · rw [he.data, he.maxTimes]
        intro h0 k x hx
        rw [AMap.get?_insert] at hx
        split at hx
        · simp only [Option.some.injEq] at hx
          subst hx
          have := hlt h0
          have hg : ¬ it.timesSampled + 1 = t.maxTimesSampled := by simpa using hg
          simp only [bump]; omega
        · exact h.lt h0 k x hx
  | delete it =>
    obtain ⟨hk, he, _⟩ := hm
    refine ⟨?_, ?_⟩
    · rw [he.data, he.log, he.maxTimes, he.unique]; exact h.st.delete
    · rw [he.data, he.maxTimes]
      intro h0 k x hx
      rw [AMap.get?_erase] at hx
      split at hx
      · simp at hx
      · exact h.lt h0 k x hx
  | reset =>
    obtain ⟨he, _, _⟩ := hm
    refine ⟨?_, ?_⟩
    · rw [he.data, he.log, he.maxTimes, he.unique]; exact h.st.reset
    · rw [he.data]; intro _ k x hx; simp at hx
  | close =>
    obtain ⟨he, _, _⟩ := hm
    refine ⟨?_, ?_⟩
    · rw [he.data, he.log, he.maxTimes, he.unique, List.append_nil]; exact h.st
    · rw [he.data, he.maxTimes]; exact h.lt

theorem SmpOk.path {kS kR t mvs t'} (hp : Path kS kR t mvs t') : SmpOk t →
    (∀ i v, Mv.insert i v ∈ mvs → i.timesSampled = 0) → SmpOk t' := by
  induction hp with
  | nil _ => intro h _; exact h
  | cons hi hm hp ih =>
    intro h hf
    refine ih (h.mstep hm ?_) (fun i v hm => hf i v (List.mem_cons_of_mem _ hm))
    rintro i v rfl
    exact hf i v (by simp)

theorem SmpOk.make (maxSize : Nat) (m : Int) (kS kR : SelKind) (l : Limiter) :
    SmpOk (Table.make maxSize m kS kR l) := by
  refine ⟨⟨?_, ?_, ?_, ?_, ?_⟩, ?_⟩ <;> simp [Table.make, Spec.samplesOf, uniqueState, CountsRight]

end Table
end Verif
