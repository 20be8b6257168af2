import Verif.Spec.Release
import Verif.Proofs.TableReach
/-
Lemmas for C105.
-/
namespace Verif
open Table (Op Inv Path MStep Mv StepPath itemValid)

/-- The counters of a limiter as the specification sees them. -/
theorem canSample_bounds (l : Limiter) : l.canSample 1 = true ↔
    l.minSize ≤ l.inserts - l.deletes ∧ l.minDiff + 1 ≤ (l.inserts : Rat) * l.spi - l.samples := by
  unfold Limiter.canSample
  by_cases h : l.inserts - l.deletes < l.minSize
  · rw [if_pos h]
    simp only [Bool.false_eq_true, false_iff, not_and]
    omega
  · rw [if_neg h, decide_eq_true_eq]
    have : l.minSize ≤ l.inserts - l.deletes := by omega
    simp only [this, true_and]
    have h1 : (((1 : Int)) : Rat) = 1 := rfl
    constructor <;> intro h <;> grind

theorem canInsert_bounds (l : Limiter) : l.canInsert 1 = true ↔
    l.inserts - l.deletes < l.minSize ∨ (l.inserts : Rat) * l.spi + l.spi - l.samples ≤ l.maxDiff := by
  unfold Limiter.canInsert
  by_cases h : l.inserts + 1 - l.deletes ≤ l.minSize
  · rw [if_pos h]
    have : l.inserts - l.deletes < l.minSize := by omega
    simp [this]
  · rw [if_neg h, decide_eq_true_eq]
    have : ¬ l.inserts - l.deletes < l.minSize := by omega
    simp only [this, false_or]
    rw [Rat.intCast_add]
    have h1 : (((1 : Int)) : Rat) = 1 := rfl
    rw [h1]
    constructor <;> intro h <;> grind

/-- One insert of a new item, in numbers. -/
structure Inserted (t t' : Table) (k : Key) : Prop where
  inserts : t'.limiter.inserts = t.limiter.inserts + 1
  samples : t'.limiter.samples = t.limiter.samples
  cancelled : t'.limiter.cancelled = t.limiter.cancelled
  size : t'.data.size = min (t.data.size + 1) t.maxSize
  keys : ∀ k', k' ≠ k → t.data.get? k' = none → t'.data.get? k' = none

theorem MStep.inserted {t t' : Table} {i : Item} {v : Option Item} (h : MStep t (.insert i v) t') : Inserted t t' i.key := by
  cases v with
  | none =>
    obtain ⟨_, h2, h3, h4, _⟩ := h
    refine ⟨by rw [h4.limiter]; rfl, by rw [h4.limiter]; rfl, by rw [h4.limiter]; rfl, ?_, ?_⟩
    · rw [h4.data, AMap.size_insert_of_none _ h2]
      omega
    · intro k' hk h'
      rw [h4.data, AMap.get?_insert, if_neg hk]
      exact h'
  | some v =>
    obtain ⟨_, h2, h3, h4, _, h5, _⟩ := h
    refine ⟨by rw [h5.limiter]; rfl, by rw [h5.limiter]; rfl, by rw [h5.limiter]; rfl, ?_, ?_⟩
    · have e1 := AMap.size_erase_of_some h4
      rw [AMap.size_insert_of_none _ h2] at e1
      rw [h5.data]
      omega
    · intro k' hk h'
      rw [h5.data, AMap.get?_erase, AMap.get?_insert, if_neg hk, h']
      simp

/-- What an insert of a new item does: it waits, or it is done. -/
theorem Config.Reachable.insert_new {c : Config} {t : Table} (h : c.Reachable t) (ho : t.limiter.cancelled = false) {i : Item}
    (hv : itemValid i = true) (hp : c.admits i.priority) (hn : t.data.get? i.key = none) (now : Int) (d : Draw) :
    (t.limiter.canInsert 1 = false ∧ t.step (.insert i now d) = (t, .ok .blocked)) ∨
    (t.limiter.canInsert 1 = true ∧ (t.step (.insert i now d)).2 = .ok .done ∧ Inserted t (t.step (.insert i now d)).1 i.key) := by
  have hc : t.data.contains i.key = false := by simp [AMap.contains, hn]
  have e : t.step (.insert i now d) = t.insertResume i now d := by
    simp [Table.step, Table.insertOrAssign, hv, hc]
  cases hcan : t.limiter.canInsert 1 with
  | false =>
    refine .inl ⟨rfl, ?_⟩
    rw [e]
    simp [Table.insertResume, Limiter.awaitInsert, ho, hcan]
  | true =>
    obtain ⟨t', v, h1, h2, _⟩ := h.inv.insertNew (now := now) hn (by simpa [Table.okPri, admits] using hp) hcan d
    have e2 : t.step (.insert i now d) = (t', .ok .done) := by
      rw [e]
      simp [Table.insertResume, Limiter.awaitInsert, ho, hcan, hc, h1, Table.reply]
    refine .inr ⟨rfl, by rw [e2], ?_⟩
    rw [e2]
    cases h2 with
    | cons _ hm hp =>
      cases hp with
      | nil _ =>
        have := MStep.inserted hm
        exact this

/-- What taking samples does to the counters. -/
structure Took (t t' : Table) (n : Nat) : Prop where
  inserts : t'.limiter.inserts = t.limiter.inserts
  samples : t'.limiter.samples = t.limiter.samples + n
  deletes : t.limiter.deletes ≤ t'.limiter.deletes
  cancelled : t'.limiter.cancelled = t.limiter.cancelled

theorem took_path {kS kR : SelKind} {t t' : Table} {mvs : List Mv} (h : Path kS kR t mvs t') :
    ∀ l : List Sampled, mvs.map Mv.out = l.map some → Took t t' l.length := by
  induction h with
  | nil _ =>
    intro l hl
    cases l with
    | nil => exact ⟨rfl, by simp, Int.le_refl _, rfl⟩
    | cons _ _ => simp at hl
  | @cons t mv t1 mvs t2 _ hm _ ih =>
    intro l hl
    cases l with
    | nil => simp at hl
    | cons s l =>
      simp only [List.map_cons, List.cons.injEq] at hl
      obtain ⟨g1, g2, g3, g4⟩ := ih l hl.2
      cases mv with
      | sample it out gone =>
        obtain ⟨_, _, _, _, he, _⟩ := hm
        have hlim := he.limiter
        cases gone with
        | true =>
          simp only [if_true] at hlim
          refine ⟨by rw [g1, hlim]; rfl, ?_, ?_, by rw [g4, hlim]; rfl⟩
          · rw [g2, hlim]
            show t.limiter.samples + 1 + (l.length : Int) = t.limiter.samples + ((l.length + 1 : Nat) : Int)
            omega
          · rw [hlim] at g3
            have : t.limiter.deletes + 1 ≤ t2.limiter.deletes := g3
            omega
        | false =>
          simp only [Bool.false_eq_true, if_false] at hlim
          refine ⟨by rw [g1, hlim]; rfl, ?_, ?_, by rw [g4, hlim]; rfl⟩
          · rw [g2, hlim]
            show t.limiter.samples + 1 + (l.length : Int) = t.limiter.samples + ((l.length + 1 : Nat) : Int)
            omega
          · rw [hlim] at g3
            exact g3
      | _ => simp [Mv.out] at hl

/-- What a call for samples does: it waits, or it gets some. -/
theorem Config.Reachable.take {c : Config} {t : Table} (h : c.Reachable t) (ho : t.limiter.cancelled = false) (n : Nat) (ds : Nat → Draw) :
    (t.limiter.canSample 1 = false ∧ t.step (.sample n ds) = (t, .ok .blocked)) ∨
    (t.limiter.canSample 1 = true ∧ ∃ l, l ≠ [] ∧ (t.step (.sample n ds)).2 = .ok (.samples l) ∧ Took t (t.step (.sample n ds)).1 l.length) := by
  cases hcan : t.limiter.canSample 1 with
  | false =>
    refine .inl ⟨rfl, ?_⟩
    simp [Table.step, Table.sampleBatch, Table.sampleResume, Limiter.maybeCommitSample, Limiter.awaitSample, hcan, ho]
  | true =>
    obtain ⟨t', l, mvs, h1, h2, h3, h4⟩ := h.inv.sampleLoop hcan false n ds
    have e : t.step (.sample n ds) = (t', .ok (.samples l)) := by
      simp only [Table.step, Table.sampleBatch, Limiter.maybeCommitSample, hcan, if_true]
      exact h1
    refine .inr ⟨rfl, l, h4, by rw [e], ?_⟩
    rw [e]
    exact took_path h2 l h3

theorem run_cons_ok {t : Table} {op : Op} {ops : List Op} (h : (t.step op).2 ≠ .died) : t.run (op :: ops) = (t.step op).1.run ops := by
  simp only [Table.run]

/-- The limiter of a reachable, open table has the parameters of the configuration. -/
theorem Config.Unstuck.table {c : Config} (hu : c.Unstuck) {t : Table} (h : c.Reachable t) :
    t.limiter.canInsert 1 = true ∨ t.limiter.canSample 1 = true := by
  have hk := h.keeps
  have e1 : t.limiter.canInsert 1 = (⟨c.spi, c.minSize, c.minDiff, c.maxDiff, t.limiter.inserts, t.limiter.samples, t.limiter.deletes, false⟩ : Limiter).canInsert 1 := by
    simp only [Limiter.canInsert, hk.spi, hk.minSize, hk.maxDiff]
  have e2 : t.limiter.canSample 1 = (⟨c.spi, c.minSize, c.minDiff, c.maxDiff, t.limiter.inserts, t.limiter.samples, t.limiter.deletes, false⟩ : Limiter).canSample 1 := by
    simp only [Limiter.canSample, hk.spi, hk.minSize, hk.minDiff]
  rw [e1, e2]
  exact hu _ _ _

theorem NewItems.tail {c : Config} {t t' : Table} {a : Arrival} {l : List Arrival} (h : NewItems c t (a :: l))
    (hk : ∀ k', k' ≠ a.item.key → t.data.get? k' = none → t'.data.get? k' = none) : NewItems c t' l := by
  obtain ⟨h1, h2, h3, h4⟩ := h
  rw [List.map_cons, List.nodup_cons] at h3
  refine ⟨fun x hx => h1 x (List.mem_cons_of_mem _ hx), fun x hx => h2 x (List.mem_cons_of_mem _ hx), h3.2, ?_⟩
  intro x hx
  refine hk _ ?_ (h4 x (List.mem_cons_of_mem _ hx))
  intro e
  exact h3.1 (e ▸ List.mem_map_of_mem hx)

/-- The distance of a table from its first sample, in inserts. -/
def Near (c : Config) (t : Table) (n : Nat) : Prop :=
  c.minSize ≤ (t.data.size : Int) + n ∧ c.minDiff + 1 ≤ (t.limiter.inserts : Rat) * c.spi - t.limiter.samples + (n : Rat) * c.spi

theorem near_zero {c : Config} {t : Table} (h : c.Reachable t) (hn : Near c t 0) : t.limiter.canSample 1 = true := by
  rw [canSample_bounds, h.inv.lim, h.keeps.minSize, h.keeps.minDiff, h.keeps.spi]
  obtain ⟨h1, h2⟩ := hn
  refine ⟨by simpa using h1, ?_⟩
  have : ((0 : Nat) : Rat) = 0 := rfl
  rw [this] at h2
  grind

theorem near_insert {c : Config} {t t' : Table} {k : Key} {n : Nat} (hm : c.minSize ≤ c.maxSize) (h : c.Reachable t) (hi : Inserted t t' k)
    (hn : Near c t (n + 1)) : Near c t' n := by
  obtain ⟨h1, h2⟩ := hn
  have hs := hi.size
  rw [h.keeps.maxSize] at hs
  refine ⟨by omega, ?_⟩
  rw [hi.inserts, hi.samples, Rat.intCast_add]
  have e1 : (((1 : Int)) : Rat) = 1 := rfl
  have e2 : ((n + 1 : Nat) : Rat) = (n : Rat) + 1 := by simp
  rw [e1]
  rw [e2] at h2
  grind

theorem sample_insert {c : Config} {t t' : Table} {k : Key} (hm : c.minSize ≤ c.maxSize) (hs : 0 < c.spi) (h : c.Reachable t) (h' : c.Reachable t')
    (hi : Inserted t t' k) (hc : t.limiter.canSample 1 = true) : t'.limiter.canSample 1 = true := by
  rw [canSample_bounds, h.inv.lim, h.keeps.minSize, h.keeps.minDiff, h.keeps.spi] at hc
  rw [canSample_bounds, h'.inv.lim, h'.keeps.minSize, h'.keeps.minDiff, h'.keeps.spi]
  have hz := hi.size
  rw [h.keeps.maxSize] at hz
  refine ⟨by omega, ?_⟩
  rw [hi.inserts, hi.samples, Rat.intCast_add]
  have e1 : (((1 : Int)) : Rat) = 1 := rfl
  rw [e1]
  grind

/-- Inserts of new items bring a table to the point where samples are allowed. -/
theorem inserts_allow {c : Config} (hm : c.minSize ≤ c.maxSize) (hs : 0 < c.spi) (hu : c.Unstuck) : ∀ (l : List Arrival) {t : Table},
    c.Reachable t → t.limiter.cancelled = false → NewItems c t l → (t.limiter.canSample 1 = true ∨ Near c t l.length) →
    ∃ t', t.run (l.map Arrival.op) = some t' ∧ c.Reachable t' ∧ t'.limiter.cancelled = false ∧ t'.limiter.canSample 1 = true
  | [], t, h, ho, _, hor => by
    refine ⟨t, rfl, h, ho, ?_⟩
    rcases hor with hor | hor
    · exact hor
    · exact near_zero h hor
  | a :: l, t, h, ho, hn, hor => by
    have hnew : t.data.get? a.item.key = none := hn.new a List.mem_cons_self
    rcases h.insert_new ho (hn.valid a List.mem_cons_self) (hn.admits a List.mem_cons_self) hnew a.now a.draw with ⟨hb, e⟩ | ⟨_, e, hi⟩
    · have hcan : t.limiter.canSample 1 = true := by
        rcases hu.table h with h1 | h1
        · rw [hb] at h1
          cases h1
        · exact h1
      rw [List.map_cons, run_cons_ok (by show (t.step (.insert a.item a.now a.draw)).2 ≠ _; rw [e]; simp)]
      have e1 : (t.step a.op).1 = t := by
        show (t.step (.insert a.item a.now a.draw)).1 = t
        rw [e]
      rw [e1]
      exact inserts_allow hm hs hu l h ho (hn.tail fun _ _ hk => hk) (.inl hcan)
    · have h' : c.Reachable (t.step a.op).1 := h.step (op := a.op) (hn.admits a List.mem_cons_self)
      rw [List.map_cons, run_cons_ok (by show (t.step (.insert a.item a.now a.draw)).2 ≠ _; rw [e]; simp)]
      refine inserts_allow hm hs hu l h' (hi.cancelled.trans ho) (hn.tail hi.keys) ?_
      rcases hor with hor | hor
      · exact .inl (sample_insert hm hs h h' hi hor)
      · exact .inr (near_insert hm h hi hor)

/-- Calls for samples bring a table to the point where inserts are allowed. -/
theorem samples_allow {c : Config} (hu : c.Unstuck) : ∀ (l : List (Nat × (Nat → Draw))) {t : Table},
    c.Reachable t → t.limiter.cancelled = false →
    (t.limiter.canInsert 1 = true ∨ (t.limiter.inserts : Rat) * c.spi + c.spi - t.limiter.samples - (l.length : Rat) ≤ c.maxDiff) →
    ∃ t', t.run (l.map fun x => .sample x.1 x.2) = some t' ∧ c.Reachable t' ∧ t'.limiter.cancelled = false ∧ t'.limiter.canInsert 1 = true
  | [], t, h, ho, hor => by
    refine ⟨t, rfl, h, ho, ?_⟩
    rcases hor with hor | hor
    · exact hor
    · rw [canInsert_bounds, h.keeps.spi, h.keeps.maxDiff]
      right
      have : ((([] : List (Nat × (Nat → Draw))).length : Nat) : Rat) = 0 := rfl
      rw [this] at hor
      grind
  | x :: l, t, h, ho, hor => by
    rcases h.take ho x.1 x.2 with ⟨hb, e⟩ | ⟨_, out, hne, e, ht⟩
    · have hcan : t.limiter.canInsert 1 = true := by
        rcases hu.table h with h1 | h1
        · exact h1
        · rw [hb] at h1
          cases h1
      rw [List.map_cons, run_cons_ok (by rw [e]; simp), e]
      exact samples_allow hu l h ho (.inl hcan)
    · have h' : c.Reachable (t.step (.sample x.1 x.2)).1 := h.step (op := .sample x.1 x.2) trivial
      have hpos : (1 : Int) ≤ out.length := by
        have := List.length_pos_iff.mpr hne
        omega
      have hr : (((t.step (.sample x.1 x.2)).1.limiter.samples : Int) : Rat) ≥ (t.limiter.samples : Rat) + 1 := by
        have h2 : t.limiter.samples + 1 ≤ (t.step (.sample x.1 x.2)).1.limiter.samples := by
          rw [ht.samples]
          omega
        have h3 : ((t.limiter.samples + 1 : Int) : Rat) ≤ (((t.step (.sample x.1 x.2)).1.limiter.samples : Int) : Rat) := by exact_mod_cast h2
        rw [Rat.intCast_add] at h3
        exact h3
      rw [List.map_cons, run_cons_ok (by rw [e]; simp)]
      refine samples_allow hu l h' (ht.cancelled.trans ho) ?_
      rcases hor with hor | hor
      · left
        rw [canInsert_bounds, h.keeps.minSize, h.keeps.spi, h.keeps.maxDiff] at hor
        rw [canInsert_bounds, h'.keeps.minSize, h'.keeps.spi, h'.keeps.maxDiff, ht.inserts]
        rcases hor with hor | hor
        · left
          have := ht.deletes
          omega
        · right
          grind
      · right
        rw [ht.inserts]
        have e2 : (((x :: l).length : Nat) : Rat) = (l.length : Rat) + 1 := by simp
        rw [e2] at hor
        grind

/-- There is a natural number above every rational. -/
theorem exists_nat_ge (x : Rat) : ∃ n : Nat, x ≤ n := by
  refine ⟨x.ceil.toNat, ?_⟩
  have h : x ≤ ((x.ceil : Int) : Rat) := Rat.ceil_le_iff.mp (Int.le_refl _)
  have h2 : ((x.ceil : Int) : Rat) ≤ (((x.ceil.toNat : Nat) : Int) : Rat) := by
    exact_mod_cast Int.self_le_toNat _
  exact Rat.le_trans h h2

end Verif
