import Verif.Props.TableDemo
/-
C15, C16, C20: what samples report, and how often an item is sampled.
-/
namespace Verif
open Table (Op Mv Inv Path MStep)

/-- C15: every sample ever taken reports as sample count of the item the number of times that this item
has been sampled since it entered the table, this sample included, and that number is at most
`max_times_sampled`; after every request the items still in the table have been sampled less often than
that (so the sample that reaches the limit removes the item). -/
theorem C15_max_times_sampled (c : Config) (hm : 0 < c.maxTimesSampled) (t : Table) (h : c.ReachableFresh t) :
    (∀ pre i post, t.log = pre ++ .sample i :: post →
      i.timesSampled = ((Spec.samplesOf i.key pre + 1 : Nat) : Int) ∧ i.timesSampled ≤ c.maxTimesSampled) ∧
    (∀ k it, t.get k = some it →
      it.timesSampled = ((Spec.samplesOf k t.log : Nat) : Int) ∧ it.timesSampled < c.maxTimesSampled) := by
  have hs := h.smp
  have hk := h.reachable.keeps.maxTimes
  constructor
  · intro pre i post he
    obtain ⟨h1, h2⟩ := hs.st.fine pre i post he
    rw [hk] at h2
    exact ⟨by rw [h1]; simp, h2 hm⟩
  · intro k it hg
    refine ⟨hs.st.pres k it hg, ?_⟩
    have := hs.lt (by rw [hk]; exact hm) k it hg
    rwa [hk] at this

/-- C20: `num_unique_samples` is the number of items (counted once per stay in the table) that have been
sampled since the last reset. -/
theorem C20_unique_samples (c : Config) (t : Table) (h : c.ReachableFresh t) :
    t.numUniqueSamples = Spec.uniqueSamples t.log := by
  rw [h.smp.st.uniq]; rfl

/-- C16: a single sample is the item that the sampler selects, as it is stored except that it counts one
more sample; the size, the priority and the probability reported are those of that moment, and nothing but
the sample count of this item changes, unless the item reached its limit and is removed. -/
theorem C16_single_sample (c : Config) (t : Table) (h : c.Reachable t) (rl : Bool) (d : Draw) (l : List Sampled)
    (hl : (t.step (.workerSample rl d)).2 = .ok (.samples l)) :
    ∃ k it pr, t.sampler.sample d = .ok (k, pr) ∧ t.get k = some it ∧ it.key = k ∧
      l = [⟨{ it with timesSampled := it.timesSampled + 1 }, pr, t.size, it.priority, it.timesSampled + 1, rl⟩] ∧
      ∀ k', (t.step (.workerSample rl d)).1.get k' =
        if k' = k then (if it.timesSampled + 1 = c.maxTimesSampled then none
          else some { it with timesSampled := it.timesSampled + 1 })
        else t.get k' := by
  simp only [Table.step, Table.workerSample] at hl ⊢
  cases hm : t.limiter.maybeCommitSample with
  | none => simp [hm] at hl
  | some lim =>
    obtain ⟨hcan, rfl⟩ := Table.maybeCommit_some.mp hm
    obtain ⟨t', it, pr, gone, h1, h2, h3⟩ := h.inv.sampleOne hcan rl d
    simp only [hm, h1] at hl ⊢
    simp at hl
    cases h3 with
    | cons _ hmv hp =>
      cases hp
      obtain ⟨_, hg, _, hgone, he, _⟩ := hmv
      refine ⟨it.key, it, pr, h2, hg, rfl, by rw [← hl]; rfl, ?_⟩
      intro k'
      have hmt := h.keeps.maxTimes
      rw [hmt] at hgone
      simp only [Table.get, he.data, hgone]
      by_cases hx : it.timesSampled + 1 = c.maxTimesSampled
      · by_cases hk : k' = it.key <;> simp [hx, hk, AMap.get?_erase, AMap.get?_insert]
      · by_cases hk : k' = it.key <;> simp [hx, hk, AMap.get?_insert, Table.bump]

/-- `n` single samples with draws `ds 0, ds 1, ...`. -/
def singles (t : Table) (rl : Bool) (ds : Nat → Draw) : Nat → Table
  | 0 => t
  | n + 1 => ((singles t rl ds n).step (.workerSample rl (ds n))).1

theorem singles_shift (t : Table) (rl : Bool) (ds : Nat → Draw) (n : Nat) :
    singles (t.step (.workerSample rl (ds 0))).1 rl (fun i => ds (i + 1)) n = singles t rl ds (n + 1) := by
  induction n with
  | zero => rfl
  | succ n ih => simp only [singles] at ih ⊢; rw [ih]

theorem sampleMore_singles {kS kR} (rl : Bool) (more : Nat) : ∀ {t} (acc : List Sampled) (ds : Nat → Draw), Inv kS kR t →
    ∃ l, t.sampleMore rl acc more ds = (singles t rl ds l.length, .ok (acc ++ l)) ∧ l.length ≤ more ∧
      (∀ j s, l[j]? = some s → ((singles t rl ds j).step (.workerSample rl (ds j))).2 = .ok (.samples [s])) ∧
      (l.length < more → (singles t rl ds l.length).limiter.canSample 1 = false) := by
  induction more with
  | zero => intro t acc ds h; exact ⟨[], by simp [Table.sampleMore, singles], by simp, by simp, by simp⟩
  | succ n ih =>
    intro t acc ds h
    simp only [Table.sampleMore]
    cases hm : t.limiter.maybeCommitSample with
    | none => exact ⟨[], by simp [singles], by simp, by simp, fun _ => Table.maybeCommit_none.mp hm⟩
    | some lim =>
      obtain ⟨hcan, rfl⟩ := Table.maybeCommit_some.mp hm
      obtain ⟨t1, it, pr, gone, h1, _, h3⟩ := h.sampleOne hcan rl (ds 0)
      have e : t.step (.workerSample rl (ds 0)) =
          (t1, .ok (.samples [⟨Table.bump it, pr, t.data.size, it.priority, it.timesSampled + 1, rl⟩])) := by
        simp only [Table.step, Table.workerSample, hm, h1]
      obtain ⟨l, h4, h5, h6, h7⟩ := ih (acc ++ [⟨Table.bump it, pr, t.data.size, it.priority, it.timesSampled + 1, rl⟩])
        (fun i => ds (i + 1)) h3.fin
      have hsh : ∀ j, singles t1 rl (fun i => ds (i + 1)) j = singles t rl ds (j + 1) := by
        intro j; rw [← singles_shift, e]
      simp only [h1, h4]
      refine ⟨⟨Table.bump it, pr, t.data.size, it.priority, it.timesSampled + 1, rl⟩ :: l, by simp [hsh],
        by simp; omega, ?_, ?_⟩
      · intro j s hj
        cases j with
        | zero => simp at hj; rw [← hj]; simp only [singles, e]
        | succ j => rw [← hsh]; exact h6 j s (by simpa using hj)
      · intro hlt
        rw [List.length_cons, ← hsh]; exact h7 (by simp at hlt; omega)

/-- C16: a batch of samples is the same as that many single samples one after the other (each of which
is described by `C16_single_sample`). It holds at most the requested number, and less than that only if
the rate limiter allowed no further sample. A caller that had to wait is told so. -/
theorem C16_batch (c : Config) (t : Table) (h : c.Reachable t) (n : Nat) (ds : Nat → Draw) (rl : Bool) (op : Op)
    (hop : (op = .sample n ds ∧ rl = false) ∨ (op = .sampleResume n ds ∧ rl = true)) (l : List Sampled)
    (hl : (t.step op).2 = .ok (.samples l)) :
    (t.step op).1 = singles t rl ds l.length ∧ 1 ≤ l.length ∧ l.length ≤ max 1 n ∧
    (∀ j s, l[j]? = some s → ((singles t rl ds j).step (.workerSample rl (ds j))).2 = .ok (.samples [s])) ∧
    (l.length < n → (singles t rl ds l.length).limiter.canSample 1 = false) := by
  have key : t.limiter.canSample 1 = true → ∃ l', { t with limiter := Table.commit t.limiter }.sampleLoop rl n ds =
      (singles t rl ds l'.length, .ok (.samples l')) ∧ 1 ≤ l'.length ∧ l'.length ≤ max 1 n ∧
      (∀ j s, l'[j]? = some s → ((singles t rl ds j).step (.workerSample rl (ds j))).2 = .ok (.samples [s])) ∧
      (l'.length < n → (singles t rl ds l'.length).limiter.canSample 1 = false) := by
    intro hcan
    obtain ⟨t1, it, pr, gone, h1, _, h3⟩ := h.inv.sampleOne hcan rl (ds 0)
    have e : t.step (.workerSample rl (ds 0)) =
        (t1, .ok (.samples [⟨Table.bump it, pr, t.data.size, it.priority, it.timesSampled + 1, rl⟩])) := by
      simp only [Table.step, Table.workerSample, Table.maybeCommit_some.mpr ⟨hcan, rfl⟩, h1]
    obtain ⟨l', h4, h5, h6, h7⟩ := sampleMore_singles rl (n - 1)
      [⟨Table.bump it, pr, t.data.size, it.priority, it.timesSampled + 1, rl⟩] (fun i => ds (i + 1)) h3.fin
    have hsh : ∀ j, singles t1 rl (fun i => ds (i + 1)) j = singles t rl ds (j + 1) := by
      intro j; rw [← singles_shift, e]
    refine ⟨⟨Table.bump it, pr, t.data.size, it.priority, it.timesSampled + 1, rl⟩ :: l', ?_, by simp,
      by simp; omega, ?_, ?_⟩
    · simp only [Table.sampleLoop, h1, h4]; simp [hsh]
    · intro j s hj
      cases j with
      | zero => simp at hj; rw [← hj]; simp only [singles, e]
      | succ j => rw [← hsh]; exact h6 j s (by simpa using hj)
    · intro hlt
      rw [List.length_cons, ← hsh]; exact h7 (by simp at hlt; omega)
  have fin : ∀ {x}, x = t.step op → (∃ l', x = (singles t rl ds l'.length, .ok (.samples l')) ∧ 1 ≤ l'.length ∧ l'.length ≤ max 1 n ∧
      (∀ j s, l'[j]? = some s → ((singles t rl ds j).step (.workerSample rl (ds j))).2 = .ok (.samples [s])) ∧
      (l'.length < n → (singles t rl ds l'.length).limiter.canSample 1 = false)) →
    (t.step op).1 = singles t rl ds l.length ∧ 1 ≤ l.length ∧ l.length ≤ max 1 n ∧
    (∀ j s, l[j]? = some s → ((singles t rl ds j).step (.workerSample rl (ds j))).2 = .ok (.samples [s])) ∧
    (l.length < n → (singles t rl ds l.length).limiter.canSample 1 = false) := by
    rintro x rfl ⟨l', h1, h2⟩
    rw [h1] at hl
    simp at hl
    subst hl
    exact ⟨by rw [h1], h2⟩
  have res : ∀ op', op' = Op.sampleResume n ds → ∀ l', (t.step op').2 = .ok (.samples l') →
      t.limiter.canSample 1 = true ∧
      t.step op' = { t with limiter := Table.commit t.limiter }.sampleLoop true n ds := by
    rintro op' rfl l' hl
    simp only [Table.step, Table.sampleResume] at hl ⊢
    cases ha : t.limiter.awaitSample with
    | cancelled => simp [ha] at hl
    | wait => simp [ha] at hl
    | proceed =>
      unfold Limiter.awaitSample at ha
      split at ha
      · simp at ha
      · split at ha
        · rename_i hc; exact ⟨hc, rfl⟩
        · simp at ha
  rcases hop with ⟨rfl, rfl⟩ | ⟨rfl, rfl⟩
  · cases hm : t.limiter.maybeCommitSample with
    | some lim =>
      obtain ⟨hcan, rfl⟩ := Table.maybeCommit_some.mp hm
      exact fin (by simp only [Table.step, Table.sampleBatch, hm]) (key hcan)
    | none =>
      have e : t.step (.sample n ds) = t.step (.sampleResume n ds) := by
        simp only [Table.step, Table.sampleBatch, hm]
      rw [e] at hl
      have := (res _ rfl l hl).1
      rw [Table.maybeCommit_none.mp hm] at this
      simp at this
  · obtain ⟨hcan, e⟩ := res _ rfl l hl
    exact fin e.symm (key hcan)

/-! The demonstration: key 2 is sampled for the second time and disappears, key 3 is sampled for the first
time; a request for five samples that ends early. -/
theorem demo_fresh (n : Nat) (t : Table) (h : demoCfg.init.run (demoOps.take n) = some t) : demoCfg.ReachableFresh t := by
  refine ⟨_, fun op h => demo_ok op (List.mem_of_mem_take h), ?_, h⟩
  intro op ho
  have := List.mem_of_mem_take ho
  simp only [demoOps, List.mem_cons, List.not_mem_nil, or_false] at this
  rcases this with rfl | rfl | rfl | rfl | rfl | rfl | rfl | rfl | rfl | rfl <;>
    simp (config := {contextual := true}) [demoItem, eq_comm]

example : (demoCfg.init.run (demoOps.take 7)).any (fun t => decide (
    sampledKeys (t.step (.sample 2 fun i => if i = 0 then draw 0 else draw 0 (1/2))).2 = [(2, 3, 2), (3, 2, 1)] ∧
    Spec.samplesOf 2 t.log = 1 ∧ t.numUniqueSamples = 1 ∧
    (t.step (.sample 2 fun i => if i = 0 then draw 0 else draw 0 (1/2))).1.numUniqueSamples = 2 ∧
    (t.step (.sample 2 fun i => if i = 0 then draw 0 else draw 0 (1/2))).1.get 2 = none ∧
    (sampledKeys (t.step (.sample 5 fun _ => draw 0)).2).length = 3)) = true := by decide +kernel

end Verif
