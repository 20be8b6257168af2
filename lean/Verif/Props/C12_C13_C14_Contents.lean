import Verif.Props.TableDemo
/-
C12, C13, C14: size bound, agreement with the selectors, eviction.
-/
namespace Verif
open Table (Op Mv Inv Path MStep)

/-- C12, for requests whose priorities the selectors admit. What is missing: requests with other
priorities, for which the claim is false (`C12_false_for_rejected_priorities`). -/
theorem C12_size_le_max_partial (c : Config) (t : Table) (h : c.Reachable t) : t.size ≤ c.maxSize := by
  rw [← h.keeps.maxSize]; exact h.inv.size

/-- C12 in full for tables without prioritized selectors: any sequence of requests with any arguments. -/
theorem C12_size_le_max_unprioritized (c : Config) (hs : ∀ w, c.sampler ≠ .prio w)
    (hr : ∀ w, c.remover ≠ .prio w) (ops : List Op) (t : Table) (h : c.init.run ops = some t) :
    t.size ≤ c.maxSize :=
  C12_size_le_max_partial c t ⟨ops, fun op _ => c.admissible_of_not_prioritized hs hr op, h⟩

/-- C12 is false for negative (or NaN) priorities and a prioritized sampler: table.cc:514-519 stores the
item before the sampler rejects it, so rejected inserts fill the table beyond its maximal size. -/
theorem C12_false_for_rejected_priorities :
    ∃ (c : Config) (ops : List Op) (t : Table), c.init.run ops = some t ∧ c.maxSize < t.size := by
  let ops : List Op := [.insert (demoItem 1 (-1) 10 100) 1 (draw 0), .insert (demoItem 2 (-1) 10 100) 2 (draw 0),
    .insert (demoItem 3 (-1) 10 100) 3 (draw 0), .insert (demoItem 4 (-1) 10 100) 4 (draw 0)]
  have h : (demoCfg.init.run ops).any (fun t => decide (demoCfg.maxSize < t.size)) = true := by decide +kernel
  cases hr : demoCfg.init.run ops with
  | none => rw [hr] at h; simp at h
  | some t => exact ⟨demoCfg, ops, t, hr, by rw [hr] at h; simpa using h⟩

/-- A selector knows a key: deleting it from the selector would succeed. -/
def Sel.Knows (s : Sel) (k : Key) : Prop := (s.apply (.delete k)).2 = .ok ()

instance (s : Sel) (k : Key) : Decidable (s.Knows k) := inferInstanceAs (Decidable (_ = _))

theorem Sel.Inv.knows {kind s b τ} (h : Sel.Inv kind s b τ) (k : Key) : s.Knows k ↔ (b k).isSome := by
  unfold Sel.Knows
  rw [(h.step (.delete k)).2.1]
  simp only [Spec.succeeds]
  by_cases hb : (b k).isSome = true <;> simp [hb]

/-- C13: the table, the sampler and the remover hold the same keys, and whatever the sampler or the
remover draws from a non-empty table is the key of an item in the table. -/
theorem C13_selectors_agree (c : Config) (t : Table) (h : c.Reachable t) :
    (∀ k, (t.get k).isSome ↔ t.sampler.Knows k) ∧ (∀ k, (t.get k).isSome ↔ t.remover.Knows k) ∧
    (∀ d, t.size ≠ 0 → ∃ k pr, t.sampler.sample d = .ok (k, pr) ∧ (t.get k).isSome) ∧
    (∀ d, t.size ≠ 0 → ∃ k pr, t.remover.sample d = .ok (k, pr) ∧ (t.get k).isSome) := by
  obtain ⟨bS, τS, bR, τR, hc⟩ := h.inv.core
  refine ⟨?_, ?_, ?_, ?_⟩
  · intro k; rw [hc.samp.knows k, hc.isSomeS k]; rfl
  · intro k; rw [hc.rem.knows k, hc.isSomeR k]; rfl
  · intro d hn
    obtain ⟨k, pr, it, h1, h2⟩ := hc.sampleKey (by simp only [Table.size] at hn; omega) d
    exact ⟨k, pr, h1, by simp [Table.get, h2]⟩
  · intro d hn
    obtain ⟨k, pr, it, h1, h2⟩ := hc.removeKey (by simp only [Table.size] at hn; omega) d
    exact ⟨k, pr, h1, by simp [Table.get, h2]⟩

/-- The three ways in which an item can enter the table: `InsertOrAssign` without waiting, after
waiting, and by the table worker. -/
def insertOps (i : Item) (now : Int) (d : Draw) : List Op :=
  [.insert i now d, .insertResume i now d, .workerInsert i now d]

/-- C14: a completed insert of a new key into a table with room adds the item and changes no other. Into
a full table, the remover, having been told about the new item, is asked for a key; exactly this item is
removed. -/
theorem C14_eviction (c : Config) (t : Table) (h : c.Reachable t) (i : Item) (hi : c.admits i.priority)
    (now : Int) (d : Draw) (op : Op) (hop : op ∈ insertOps i now d) (hnew : t.get i.key = none)
    (hdone : (t.step op).2 = .ok .done) :
    (t.size < c.maxSize → ∀ k, (t.step op).1.get k =
      if k = i.key then some { i with insertedAt := now } else t.get k) ∧
    (t.size = c.maxSize → ∃ v pr,
      ((t.remover.apply (.insert i.key i.priority)).1).sample d = .ok (v, pr) ∧
      (v = i.key ∨ (t.get v).isSome) ∧
      ∀ k, (t.step op).1.get k =
        if k = v then none else if k = i.key then some { i with insertedAt := now } else t.get k) := by
  have hpri : Table.okPri c.sampler c.remover i.priority = true := by
    simp [Table.okPri, hi.1, hi.2]
  have hcan : t.limiter.canInsert 1 = true ∧ (t.step op).1 = (t.insertNew i now d).1 := by
    have hr : (t.step (.insertResume i now d)).2 = .ok .done →
        t.limiter.canInsert 1 = true ∧ (t.step (.insertResume i now d)).1 = (t.insertNew i now d).1 := by
      intro hd
      simp only [Table.step, Table.insertResume] at hd ⊢
      unfold Limiter.awaitInsert at hd ⊢
      by_cases hx : t.limiter.cancelled = true
      · simp [hx] at hd
      · by_cases hy : t.limiter.canInsert 1 = true
        · have : t.data.contains i.key = false := by simp only [Table.get] at hnew; simp [AMap.contains, hnew]
          simp only [hx, hy, this, if_true]
          refine ⟨trivial, ?_⟩
          simp [Table.reply]; split <;> rfl
        · simp [hx, hy] at hd
    simp only [insertOps, List.mem_cons, List.not_mem_nil, or_false] at hop
    have hnc : t.data.contains i.key = false := by simp only [Table.get] at hnew; simp [AMap.contains, hnew]
    rcases hop with rfl | rfl | rfl
    · by_cases hv : Table.itemValid i = true
      · have e : t.step (.insert i now d) = t.step (.insertResume i now d) := by
          simp [Table.step, Table.insertOrAssign, hv, hnc]
        rw [e] at hdone ⊢; exact hr hdone
      · simp [Table.step, Table.insertOrAssign, hv] at hdone
    · exact hr hdone
    · simp only [Table.step, Table.workerInsert] at hdone ⊢
      by_cases hy : t.limiter.canInsert 1 = true
      · simp only [hy, Table.insertInternal, hnc, if_true]
        refine ⟨trivial, ?_⟩
        simp [Table.reply]; split <;> rfl
      · simp [hy] at hdone
  obtain ⟨t', v, h1, h2, h3⟩ := h.inv.insertNew (now := now) hnew hpri hcan.1 d
  rw [hcan.2, h1]
  have hms := h.keeps.maxSize
  cases h2 with
  | cons _ hm hp =>
    cases hp
    cases v with
    | none =>
      obtain ⟨_, _, hlt, he, _⟩ := hm
      refine ⟨?_, ?_⟩
      · intro _ k
        simp only [Table.get, he.data, AMap.get?_insert]
      · intro heq; simp only [Table.size] at heq; omega
    | some w =>
      obtain ⟨_, _, hfull, hw, _, he, _⟩ := hm
      obtain ⟨pr, hs⟩ := h3 w rfl
      refine ⟨?_, ?_⟩
      · intro hlt; simp only [Table.size] at hlt; omega
      · intro _
        refine ⟨w.key, pr, hs, ?_, ?_⟩
        · simp only [AMap.get?_insert] at hw
          by_cases hk : w.key = i.key
          · exact .inl hk
          · right; rw [if_neg hk] at hw; simp [Table.get, hw]
        · intro k
          simp only [Table.get, he.data, AMap.get?_erase, AMap.get?_insert]

/-! The demonstration: a full table, the eviction of the oldest item (key 1) by the insert of key 4. -/
example : ∃ t, demoCfg.Reachable t ∧
    decide (t.size = demoCfg.maxSize ∧ t.get 4 = none ∧ (t.get 1).isSome ∧ t.sampler.Knows 1 ∧ t.remover.Knows 3 ∧
      ¬ t.remover.Knows 4 ∧
      (t.step (.insert (demoItem 4 0 12 102) 15 (draw 0))).2 = .ok .done ∧
      (t.step (.insert (demoItem 4 0 12 102) 15 (draw 0))).1.get 1 = none ∧
      ((t.step (.insert (demoItem 4 0 12 102) 15 (draw 0))).1.get 4).isSome) = true :=
  Config.witness (demoOps.take 5) _ (fun op h => demo_ok op (List.mem_of_mem_take h)) (by decide +kernel)

end Verif
