import Verif.Props.TableDemo
import Verif.Props.C09_NoDeadlock
/-
C07, C08: what the rate limiter grants. The counts are those an extension sees: `Spec.inserted`,
`Spec.deleted` and `Spec.sampled` count notifications since the last reset.
-/
namespace Verif
open Table (Op Mv Inv Path MStep LogOk)
open Spec (inserted deleted sampled)

theorem Table.LogSt.counts {log l m nd ins del smp} (h : Table.LogSt log l m nd ins del smp) :
    ins = (inserted log : Nat) ∧ del = (deleted log : Nat) ∧ smp = (sampled log : Nat) := ⟨h.inserts, h.deletes, h.samples⟩

theorem canSample_iff (l : Limiter) : l.canSample 1 = true ↔
    l.minSize ≤ l.inserts - l.deletes ∧ l.minDiff ≤ (l.inserts : Rat) * l.spi - l.samples - 1 := by
  unfold Limiter.canSample
  by_cases h : l.inserts - l.deletes < l.minSize
  · simp [h]; intro; omega
  · simp [h]; omega

theorem canInsert_iff (l : Limiter) : l.canInsert 1 = true ↔
    l.inserts + 1 - l.deletes ≤ l.minSize ∨ ((l.inserts + 1 : Int) : Rat) * l.spi - l.samples ≤ l.maxDiff := by
  unfold Limiter.canInsert
  rw [show (1 : Int) + l.inserts = l.inserts + 1 by omega]
  by_cases h : l.inserts + 1 - l.deletes ≤ l.minSize
  · simp [h]
  · simp [h]

theorem samples_path {kS kR t mvs t'} (hp : Path kS kR t mvs t') : ∀ (l : List Sampled), mvs.map Mv.out = l.map some →
    t'.limiter.inserts = t.limiter.inserts ∧ t'.limiter.samples = t.limiter.samples + l.length ∧
    (∀ s ∈ l, t.limiter.minSize ≤ s.tableSize) ∧
    (l ≠ [] → t.limiter.minDiff ≤ (t.limiter.inserts : Rat) * t.limiter.spi - t'.limiter.samples) := by
  induction hp with
  | nil _ => intro l hl; cases l <;> simp_all
  | @cons t mv t1 mvs t2 hi hm hp ih =>
    intro l hl
    cases l with
    | nil => simp at hl
    | cons s l =>
      simp only [List.map_cons, List.cons.injEq] at hl
      obtain ⟨h1, h2⟩ := hl
      cases mv <;> simp only [Mv.out, reduceCtorEq, Option.some.injEq] at h1
      subst h1
      rename_i it out gone
      obtain ⟨hcan, _, ⟨d, pr, rl, _, hout⟩, _, he, _⟩ := hm
      have e1 : t1.limiter.inserts = t.limiter.inserts ∧ t1.limiter.samples = t.limiter.samples + 1 ∧
          t1.limiter.spi = t.limiter.spi ∧ t1.limiter.minSize = t.limiter.minSize ∧
          t1.limiter.minDiff = t.limiter.minDiff := by
        rw [he.limiter]; cases gone <;> exact ⟨rfl, rfl, rfl, rfl, rfl⟩
      obtain ⟨i1, i2, i3, i4⟩ := ih l h2
      rw [canSample_iff] at hcan
      have hlim := hi.lim
      refine ⟨by rw [i1, e1.1], by rw [i2, e1.2.1]; simp; omega, ?_, ?_⟩
      · intro x hx
        rcases List.mem_cons.mp hx with rfl | hx
        · rw [hout]; show t.limiter.minSize ≤ _; rw [← hlim]; exact hcan.1
        · rw [← e1.2.2.2.1]; exact i3 x hx
      · intro _
        cases l with
        | nil =>
          rw [i2, e1.2.1]
          simp only [List.length_nil, Int.ofNat_zero, Int.add_zero, Rat.intCast_add]
          have := hcan.2
          grind
        | cons y ys =>
          have := i4 (by simp)
          rw [e1.1, e1.2.2.1, e1.2.2.2.2] at this
          exact this

/-- C07: when samples are granted, at the moment of each of them the table holds at least
`min_size_to_sample` items, and after all of them inserts * samples_per_insert - samples is at least
`min_diff`. -/
theorem C07_sample_granted (c : Config) (t : Table) (h : c.Reachable t) (op : Op) (hop : c.Admissible op)
    (l : List Sampled) (hl : (t.step op).2 = .ok (.samples l)) :
    l ≠ [] ∧ (∀ s ∈ l, c.minSize ≤ s.tableSize) ∧
    inserted (t.step op).1.log = inserted t.log ∧ sampled (t.step op).1.log = sampled t.log + l.length ∧
    c.minDiff ≤ (inserted t.log : Rat) * c.spi - (sampled (t.step op).1.log : Rat) := by
  obtain ⟨mvs, hp, hr, _⟩ := h.inv.step op (c.okFor hop)
  obtain ⟨l0, hlog⟩ := h.log
  obtain ⟨l1, hlog'⟩ := (h.step hop).log
  have hk := h.keeps
  rcases hr with ⟨h1, _⟩ | ⟨h1, _⟩ | ⟨l', h1, h2, h3⟩ | ⟨_, h1, _⟩ <;> rw [hl] at h1 <;> simp at h1
  subst h1
  obtain ⟨a1, a2, a3, a4⟩ := samples_path hp l h2
  obtain ⟨c1, _, c3⟩ := hlog.counts
  obtain ⟨d1, _, d3⟩ := hlog'.counts
  refine ⟨h3, ?_, by omega, by omega, ?_⟩
  · rw [← hk.minSize]; exact a3
  · have := a4 h3
    rw [hk.minDiff, hk.spi, c1, d3] at this
    exact_mod_cast this

/-- Invariant for C07. -/
theorem ratio_path {kS kR t mvs t'} (hp : Path kS kR t mvs t') : 0 ≤ t.limiter.spi →
    (t.limiter.samples = 0 ∨ t.limiter.minDiff ≤ (t.limiter.inserts : Rat) * t.limiter.spi - t.limiter.samples) →
    (t'.limiter.samples = 0 ∨ t'.limiter.minDiff ≤ (t'.limiter.inserts : Rat) * t'.limiter.spi - t'.limiter.samples) := by
  induction hp with
  | nil _ => intro _ h; exact h
  | @cons t mv t1 mvs t2 hi hm hp ih =>
    intro hspi h
    have hins : ∀ {l : Limiter}, t1.limiter = l → l.spi = t.limiter.spi → l.minDiff = t.limiter.minDiff →
        l.samples = t.limiter.samples → (l.inserts = t.limiter.inserts ∨ l.inserts = t.limiter.inserts + 1) →
        (t2.limiter.samples = 0 ∨ t2.limiter.minDiff ≤ (t2.limiter.inserts : Rat) * t2.limiter.spi - t2.limiter.samples) := by
      intro l he e1 e2 e3 e4
      refine ih (by rw [he, e1]; exact hspi) ?_
      rw [he, e1, e2, e3]
      rcases h with h | h
      · exact .inl h
      · right
        rcases e4 with e4 | e4 <;> rw [e4]
        · exact h
        · simp only [Rat.intCast_add]; grind
    cases mv with
    | update it p => exact hins hm.2.1.limiter rfl rfl rfl (.inl rfl)
    | insert i v =>
      cases v with
      | none => exact hins hm.2.2.2.1.limiter rfl rfl rfl (.inr rfl)
      | some v => exact hins hm.2.2.2.2.2.1.limiter rfl rfl rfl (.inr rfl)
    | delete it => exact hins hm.2.1.limiter rfl rfl rfl (.inl rfl)
    | close => exact hins hm.1.limiter rfl rfl rfl (.inl rfl)
    | reset =>
      have he := hm.1.limiter
      exact ih (by rw [he]; exact hspi) (.inl (by rw [he]; rfl))
    | sample it out gone =>
      obtain ⟨hcan, _, _, _, he, _⟩ := hm
      have e1 : t1.limiter.inserts = t.limiter.inserts ∧ t1.limiter.samples = t.limiter.samples + 1 ∧
          t1.limiter.spi = t.limiter.spi ∧ t1.limiter.minDiff = t.limiter.minDiff := by
        rw [he.limiter]; cases gone <;> exact ⟨rfl, rfl, rfl, rfl⟩
      have hcan := ((canSample_iff _).mp hcan).2
      refine ih (by rw [e1.2.2.1]; exact hspi) (.inr ?_)
      rw [e1.1, e1.2.1, e1.2.2.1, e1.2.2.2, Rat.intCast_add]
      grind

/-- C07: as soon as anything has been sampled (since the last reset), the number of samples is at most
inserts * samples_per_insert - min_diff, in every reachable state. -/
theorem C07_ratio_bound (c : Config) (hspi : 0 ≤ c.spi) (t : Table) (h : c.Reachable t) :
    sampled t.log = 0 ∨ (sampled t.log : Rat) ≤ (inserted t.log : Rat) * c.spi - c.minDiff := by
  obtain ⟨mvs, hp⟩ := h.path
  obtain ⟨l, hlog⟩ := h.log
  obtain ⟨c1, _, c3⟩ := hlog.counts
  have hk := h.keeps
  have := ratio_path hp hspi (.inl rfl)
  rw [c1, c3, hk.spi, hk.minDiff] at this
  rcases this with h | h
  · left; omega
  · right
    have h : c.minDiff ≤ (inserted t.log : Rat) * c.spi - (sampled t.log : Rat) := by exact_mod_cast h
    grind

/-- C08: when the number of inserted items grows, it grows by one; and counting the new item, either
the table (before a possible eviction) is not above `min_size_to_sample`, or
inserts * samples_per_insert - samples is at most `max_diff`. -/
theorem C08_insert_granted (c : Config) (t : Table) (h : c.Reachable t) (op : Op) (hop : c.Admissible op)
    (hne : inserted t.log < inserted (t.step op).1.log) :
    inserted (t.step op).1.log = inserted t.log + 1 ∧ sampled (t.step op).1.log = sampled t.log ∧
    ((inserted t.log : Int) + 1 - deleted t.log ≤ c.minSize ∨
      ((inserted t.log + 1 : Nat) : Rat) * c.spi - sampled t.log ≤ c.maxDiff) := by
  obtain ⟨l0, hlog⟩ := h.log
  obtain ⟨l1, hlog'⟩ := (h.step hop).log
  obtain ⟨c1, c2, c3⟩ := hlog.counts
  obtain ⟨d1, d2, d3⟩ := hlog'.counts
  have hk := h.keeps
  have hcond : ∀ i v, MStep t (.insert i v) (t.step op).1 →
      inserted (t.step op).1.log = inserted t.log + 1 ∧ sampled (t.step op).1.log = sampled t.log ∧
      ((inserted t.log : Int) + 1 - deleted t.log ≤ c.minSize ∨
        ((inserted t.log + 1 : Nat) : Rat) * c.spi - sampled t.log ≤ c.maxDiff) := by
    intro i v hm
    have hl : t.limiter.canInsert 1 = true ∧ (t.step op).1.limiter.inserts = t.limiter.inserts + 1 ∧
        (t.step op).1.limiter.samples = t.limiter.samples := by
      cases v with
      | none => exact ⟨hm.1, by rw [hm.2.2.2.1.limiter]; exact ⟨rfl, rfl⟩⟩
      | some v => exact ⟨hm.1, by rw [hm.2.2.2.2.2.1.limiter]; exact ⟨rfl, rfl⟩⟩
    refine ⟨by omega, by omega, ?_⟩
    have := (canInsert_iff _).mp hl.1
    rw [c1, c2, c3, hk.minSize, hk.maxDiff, hk.spi] at this
    rcases this with h | h
    · exact .inl h
    · exact .inr (by exact_mod_cast h)
  obtain ⟨mvs, hp, _, hin⟩ := h.inv.step op (c.okFor hop)
  by_cases hex : ∃ i v, Mv.insert i v ∈ mvs
  · obtain ⟨i, v, hm⟩ := hex
    obtain ⟨_, rfl⟩ := hin i v hm
    cases hp with
    | cons _ hm hp' => cases hp'; exact hcond i v hm
  · have : ∀ {kS kR t mvs t'}, Path kS kR t mvs t' → (∀ i v, Mv.insert i v ∉ mvs) →
        t'.limiter.inserts ≤ t.limiter.inserts ∨ t'.limiter.inserts ≤ 0 := by
      intro kS kR t mvs t' hp
      induction hp with
      | nil _ => intro _; left; exact Int.le_refl _
      | @cons t mv t1 mvs t2 hi hm hp ih =>
        intro hno
        have ih := ih (fun i v hm => hno i v (List.mem_cons_of_mem _ hm))
        have : t1.limiter.inserts ≤ t.limiter.inserts ∨ t1.limiter.inserts ≤ 0 := by
          cases mv with
          | update it p => left; rw [hm.2.1.limiter]; exact Int.le_refl _
          | insert i v => exact absurd (List.mem_cons_self) (hno i v)
          | sample it out gone => left; rw [hm.2.2.2.2.1.limiter]; cases gone <;> exact Int.le_refl _
          | delete it => left; rw [hm.2.1.limiter]; exact Int.le_refl _
          | reset => right; rw [hm.1.limiter]; exact Int.le_refl 0
          | close => left; rw [hm.1.limiter]; exact Int.le_refl _
        omega
    have := this hp (fun i v hm => hex ⟨i, v, hm⟩)
    omega

/-- Invariant for C08. -/
theorem surplus_path {kS kR t mvs t'} (hp : Path kS kR t mvs t') : 0 ≤ t.limiter.minSize →
    (t.limiter.inserts - t.limiter.deletes ≤ t.limiter.minSize ∨ (t.limiter.inserts : Rat) * t.limiter.spi - t.limiter.samples ≤ t.limiter.maxDiff) →
    (t'.limiter.inserts - t'.limiter.deletes ≤ t'.limiter.minSize ∨ (t'.limiter.inserts : Rat) * t'.limiter.spi - t'.limiter.samples ≤ t'.limiter.maxDiff) := by
  induction hp with
  | nil _ => intro _ h; exact h
  | @cons t mv t1 mvs t2 hi hm hp ih =>
    intro h0 h
    -- items may go, samples may come
    have hless : ∀ {l : Limiter}, t1.limiter = l → l.spi = t.limiter.spi → l.maxDiff = t.limiter.maxDiff → l.minSize = t.limiter.minSize →
        l.inserts = t.limiter.inserts → t.limiter.deletes ≤ l.deletes → t.limiter.samples ≤ l.samples →
        (t2.limiter.inserts - t2.limiter.deletes ≤ t2.limiter.minSize ∨ (t2.limiter.inserts : Rat) * t2.limiter.spi - t2.limiter.samples ≤ t2.limiter.maxDiff) := by
      intro l he e1 e2 e3 e4 e5 e6
      refine ih (by rw [he, e3]; exact h0) ?_
      rw [he, e1, e2, e3, e4]
      rcases h with h | h
      · left; omega
      · right
        have : (t.limiter.samples : Rat) ≤ (l.samples : Rat) := by exact_mod_cast e6
        grind
    cases mv with
    | update it p => exact hless hm.2.1.limiter rfl rfl rfl rfl (Int.le_refl _) (Int.le_refl _)
    | insert i v =>
      cases v with
      | none =>
        have he := hm.2.2.2.1.limiter
        refine ih (by rw [he]; exact h0) ?_
        rw [he]
        exact (canInsert_iff _).mp hm.1
      | some v =>
        have he := hm.2.2.2.2.2.1.limiter
        refine ih (by rw [he]; exact h0) ?_
        rw [he]
        rcases (canInsert_iff _).mp hm.1 with h | h
        · left; simp only [Limiter.insert, Limiter.delete]; omega
        · exact .inr h
    | delete it => exact hless hm.2.1.limiter rfl rfl rfl rfl (by simp only [Limiter.delete]; omega) (Int.le_refl _)
    | close => exact hless hm.1.limiter rfl rfl rfl rfl (Int.le_refl _) (Int.le_refl _)
    | reset =>
      have he := hm.1.limiter
      exact ih (by rw [he]; exact h0) (.inl (by rw [he]; simp only [Limiter.reset]; omega))
    | sample it out gone =>
      have he := hm.2.2.2.2.1.limiter
      refine hless he ?_ ?_ ?_ ?_ ?_ ?_ <;> cases gone <;> simp only [Table.commit, Limiter.delete, if_true, Bool.false_eq_true, if_false] <;> first | rfl | omega

/-- C08: in every reachable state, however items are deleted, evicted and sampled: either the table holds no more than `min_size_to_sample` items, or
inserts * samples_per_insert - samples (since the last reset) is at most `max_diff`. -/
theorem C08_ratio_bound (c : Config) (t : Table) (h : c.Reachable t) :
    (t.size : Int) ≤ c.minSize ∨ (inserted t.log : Rat) * c.spi - sampled t.log ≤ c.maxDiff := by
  obtain ⟨mvs, hp⟩ := h.path
  obtain ⟨l, hlog⟩ := h.log
  obtain ⟨c1, _, c3⟩ := hlog.counts
  have hk := h.keeps
  have hlim := h.inv.lim
  have hmin := Int.le_of_lt c.minSize_pos
  have := surplus_path hp hmin (.inl hmin)
  rw [hlim, c1, c3, hk.spi, hk.maxDiff, hk.minSize] at this
  rcases this with h | h
  · exact .inl h
  · exact .inr (by exact_mod_cast h)

/-- C07 and C08 for `SampleToInsertRatio(spi, n, error_buffer)`, in every reachable state of a table with such a limiter: once anything has been
sampled there are at most `(inserts - n) * spi + error_buffer` samples, and unless the table holds `n` items or less there are at least
`(inserts - n) * spi - error_buffer`. -/
theorem C08_error_buffer (spi b : Rat) (n : Int) (l : Limiter) (hspi : 0 ≤ spi) (hl : Py.sampleToInsertRatio spi n (.number b) = some l) (c : Config)
    (hc : c.init.limiter = l) (t : Table) (h : c.Reachable t) :
    (sampled t.log = 0 ∨ (sampled t.log : Rat) ≤ ((inserted t.log : Rat) - n) * spi + b) ∧
    ((t.size : Int) ≤ n ∨ ((inserted t.log : Rat) - n) * spi - b ≤ (sampled t.log : Rat)) := by
  obtain ⟨_, rfl⟩ := ratio_accepted hl
  have e1 : c.spi = spi := congrArg Limiter.spi hc
  have e2 : c.minSize = n := congrArg Limiter.minSize hc
  have e3 : c.minDiff = spi * n - b := congrArg Limiter.minDiff hc
  have e4 : c.maxDiff = spi * n + b := congrArg Limiter.maxDiff hc
  constructor
  · rcases C07_ratio_bound c (by rw [e1]; exact hspi) t h with h | h
    · exact .inl h
    · right; rw [e1, e3] at h; grind
  · rcases C08_ratio_bound c t h with h | h
    · exact .inl (by rw [← e2]; exact h)
    · right; rw [e1, e4] at h; grind

/-! The demonstration: three samples out of five inserts, with the counts of `C07_ratio_bound`; a sample
of two items that is granted, and one that is blocked by `min_diff`; an insert that is granted and one
that is blocked by `max_diff`. -/
example : ∃ t, demoCfg.Reachable t ∧
    decide (inserted t.log = 5 ∧ deleted t.log = 3 ∧ sampled t.log = 3) = true :=
  Config.witness demoOps _ demo_ok (by decide +kernel)
example : ∃ t, demoCfg.Reachable t ∧
    decide ((sampledKeys (t.step (.sample 2 fun _ => draw 0)).2).map Prod.fst = [2, 3]) = true :=
  Config.witness (demoOps.take 7) _ (fun op h => demo_ok op (List.mem_of_mem_take h)) (by decide +kernel)
example : ∃ t, demoCfg.Reachable t ∧
    decide (inserted (t.step (.insert (demoItem 4 0 12 102) 15 (draw 0))).1.log = inserted t.log + 1 ∧
      (t.step (.insert (demoItem 4 0 12 102) 15 (draw 0))).2 = .ok .done) = true :=
  Config.witness (demoOps.take 5) _ (fun op h => demo_ok op (List.mem_of_mem_take h)) (by decide +kernel)
example : ∃ t, demoCfg.Reachable t ∧
    decide ((t.step (.insert (demoItem 9 0 12 102) 15 (draw 0))).2 = .ok .blocked) = true :=
  Config.witness (demoOps.take 7) _ (fun op h => demo_ok op (List.mem_of_mem_take h)) (by decide +kernel)

/-- The hypotheses of `C08_error_buffer`: the bounds are reached from both sides. -/
def ratioCfg : Config := ⟨9, 0, .fifo, .fifo, 2, 1, -1, 5, by decide⟩
def ratioOps : List Op :=
  [.insert (demoItem 1 0 10 100) 1 (draw 0), .insert (demoItem 2 0 10 100) 2 (draw 0), .sample 9 fun _ => draw 0]

example : Py.sampleToInsertRatio 2 1 (.number 3) = some ratioCfg.init.limiter := by decide +kernel
example : ∃ t, ratioCfg.Reachable t ∧ decide (inserted t.log = 2 ∧ sampled t.log = 5) = true :=
  Config.witness ratioOps _ (by decide +kernel) (by decide +kernel)
example : ∃ t, ratioCfg.Reachable t ∧ decide (inserted t.log = 2 ∧ sampled t.log = 0 ∧ (t.step (.insert (demoItem 3 0 10 100) 3 (draw 0))).2 = .ok .blocked) = true :=
  Config.witness (ratioOps.take 2) _ (by decide +kernel) (by decide +kernel)

end Verif
