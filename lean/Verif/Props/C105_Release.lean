import Verif.Proofs.Release
import Verif.Props.C09_NoDeadlock
import Verif.Props.TableDemo
/-
C105: producers and consumers release each other.
-/
namespace Verif
open Table (Op)
open Py

/-- The limiter of a table is the one that a Python constructor made. -/
def Config.Uses (c : Config) (l : Limiter) : Prop := l = ⟨c.spi, c.minSize, c.minDiff, c.maxDiff, 0, 0, 0, false⟩

theorem Config.Uses.unstuck {c : Config} {l : Limiter} (h : c.Uses l) (hs : ∀ ins smp del, ¬ (l.atCounts ins smp del).Stuck) : c.Unstuck := by
  intro ins smp del
  have := hs ins smp del
  rw [h] at this
  simp only [Limiter.Stuck, Limiter.atCounts, not_and] at this
  cases hc : (⟨c.spi, c.minSize, c.minDiff, c.maxDiff, ins, smp, del, false⟩ : Limiter).canInsert 1 with
  | true => exact .inl rfl
  | false =>
    right
    cases hd : (⟨c.spi, c.minSize, c.minDiff, c.maxDiff, ins, smp, del, false⟩ : Limiter).canSample 1 with
    | true => rfl
    | false => exact absurd hd (this hc)

/-- C105 applies to the limiters that the Python constructors accept. -/
theorem C105_constructors {c : Config} {l : Limiter} (hl : (∃ n, minSize n = some l) ∨ (∃ spi n b, sampleToInsertRatio spi n b = some l) ∨
    ∃ size : Int, 1 ≤ size ∧ (queue size = some l ∨ stack size = some l)) (h : c.Uses l) : c.Unstuck := by
  refine h.unstuck ?_
  rcases hl with ⟨n, hl⟩ | ⟨spi, n, b, hl⟩ | ⟨size, hs, hl | hl⟩
  · exact C09_minSize_never_stuck n l hl
  · exact C09_ratio_never_stuck spi n b l hl
  · exact C09_queue_never_stuck size hs l hl
  · exact C09_stack_never_stuck size hs l hl

/-- C105: in no state of an open table do an insert of a new item and a call for samples both wait. -/
theorem C105_never_both {c : Config} (hu : c.Unstuck) {t : Table} (h : c.Reachable t) (ho : t.limiter.cancelled = false) {a : Arrival}
    (ha : NewItems c t [a]) (n : Nat) (ds : Nat → Draw) :
    (t.step a.op).2 = .ok .done ∨ ∃ l, l ≠ [] ∧ (t.step (.sample n ds)).2 = .ok (.samples l) := by
  rcases hu.table h with hc | hc
  · rcases h.insert_new ho (ha.valid a (by simp)) (ha.admits a (by simp)) (ha.new a (by simp)) a.now a.draw with ⟨g, _⟩ | ⟨_, g, _⟩
    · rw [hc] at g
      cases g
    · exact .inl g
  · rcases h.take ho n ds with ⟨g, _⟩ | ⟨_, l, g1, g2, _⟩
    · rw [hc] at g
      cases g
    · exact .inr ⟨l, g1, g2⟩

/-- C105, consumers: whatever has happened to the table, there is a number of inserts after which a call for samples does not wait: if that many new
items or more are inserted, by whomever and whether or not some of the inserts have to wait, then the call gets samples. The table must have
room for `min_size_to_sample` items, and `samples_per_insert` must be positive. -/
theorem C105_consumers {c : Config} (hu : c.Unstuck) (hs : 0 < c.spi) (hm : c.minSize ≤ c.maxSize) {t : Table} (h : c.Reachable t)
    (ho : t.limiter.cancelled = false) : ∃ N : Nat, ∀ l : List Arrival, NewItems c t l → N ≤ l.length →
      ∃ t', t.run (l.map Arrival.op) = some t' ∧ ∀ n ds, ∃ out, out ≠ [] ∧ (t'.step (.sample n ds)).2 = .ok (.samples out) := by
  obtain ⟨N, hN⟩ := exists_nat_ge ((c.minDiff + 1 - ((t.limiter.inserts : Rat) * c.spi - t.limiter.samples)) / c.spi)
  refine ⟨N + c.minSize.toNat, fun l hn hl => ?_⟩
  have hnear : Near c t l.length := by
    refine ⟨by omega, ?_⟩
    have h1 : (N : Rat) ≤ (l.length : Rat) := by exact_mod_cast (by omega : N ≤ l.length)
    have h2 := Rat.le_trans hN h1
    have h3 := Rat.mul_le_mul_of_nonneg_right h2 (Rat.le_of_lt hs)
    rw [Rat.div_mul_cancel (by grind)] at h3
    grind
  obtain ⟨t', h1, h2, h3, h4⟩ := inserts_allow hm hs hu l h ho hn (.inr hnear)
  refine ⟨t', h1, fun n ds => ?_⟩
  rcases h2.take h3 n ds with ⟨g, _⟩ | ⟨_, out, g1, g2, _⟩
  · rw [h4] at g
    cases g
  · exact ⟨out, g1, g2⟩

/-- C105, producers: whatever has happened to the table, there is a number of calls for samples after which an insert does not wait. -/
theorem C105_producers {c : Config} (hu : c.Unstuck) {t : Table} (h : c.Reachable t) (ho : t.limiter.cancelled = false) :
    ∃ N : Nat, ∀ l : List (Nat × (Nat → Draw)), N ≤ l.length →
      ∃ t', t.run (l.map fun x => .sample x.1 x.2) = some t' ∧ ∀ a, NewItems c t' [a] → (t'.step a.op).2 = .ok .done := by
  obtain ⟨N, hN⟩ := exists_nat_ge ((t.limiter.inserts : Rat) * c.spi + c.spi - t.limiter.samples - c.maxDiff)
  refine ⟨N, fun l hl => ?_⟩
  have h1 : (N : Rat) ≤ (l.length : Rat) := by exact_mod_cast hl
  obtain ⟨t', h2, h3, h4, h5⟩ := samples_allow hu l h ho (.inr (by grind))
  refine ⟨t', h2, fun a ha => ?_⟩
  rcases h3.insert_new h4 (ha.valid a (by simp)) (ha.admits a (by simp)) (ha.new a (by simp)) a.now a.draw with ⟨g, _⟩ | ⟨_, g, _⟩
  · rw [h5] at g
    cases g
  · exact g

/-- C105: without room for `min_size_to_sample` items, which no constructor checks, a table never gives a sample, whatever is done with it. -/
theorem C105_small_table {c : Config} (hm : c.maxSize < c.minSize) {t : Table} (h : c.Reachable t) (n : Nat) (ds : Nat → Draw) :
    (t.step (.sample n ds)).2 = .ok .blocked ∨ (t.step (.sample n ds)).2 = .err .cancelled := by
  have hcan : t.limiter.canSample 1 = false := by
    cases hc : t.limiter.canSample 1 with
    | false => rfl
    | true =>
      rw [canSample_bounds, h.inv.lim, h.keeps.minSize] at hc
      have := h.inv.size
      rw [h.keeps.maxSize] at this
      omega
  cases hcc : t.limiter.cancelled <;>
    simp [Table.step, Table.sampleBatch, Table.sampleResume, Limiter.maybeCommitSample, Limiter.awaitSample, hcan, hcc]

/-- C105: with a ratio that is not positive, which the constructor of `SampleToInsertRatio` accepts, inserts do not help a consumer that waits
because of the ratio. -/
theorem C105_no_ratio {c : Config} (hs : c.spi ≤ 0) : ∀ (l : List Arrival) {t : Table}, c.Reachable t → t.limiter.cancelled = false →
    NewItems c t l → (t.limiter.inserts : Rat) * c.spi - t.limiter.samples < c.minDiff + 1 →
    ∃ t', t.run (l.map Arrival.op) = some t' ∧ ∀ n ds, (t'.step (.sample n ds)).2 = .ok .blocked
  | [], t, h, ho, _, hd => by
    refine ⟨t, rfl, fun n ds => ?_⟩
    rcases h.take ho n ds with ⟨_, g⟩ | ⟨g, _⟩
    · rw [g]
    · rw [canSample_bounds, h.keeps.minDiff, h.keeps.spi] at g
      grind
  | a :: l, t, h, ho, hn, hd => by
    rcases h.insert_new ho (hn.valid a List.mem_cons_self) (hn.admits a List.mem_cons_self) (hn.new a List.mem_cons_self) a.now a.draw with
      ⟨_, e⟩ | ⟨_, e, hi⟩
    · rw [List.map_cons, run_cons_ok (by show (t.step (.insert a.item a.now a.draw)).2 ≠ _; rw [e]; simp)]
      have e1 : (t.step a.op).1 = t := by
        show (t.step (.insert a.item a.now a.draw)).1 = t
        rw [e]
      rw [e1]
      exact C105_no_ratio hs l h ho (hn.tail fun _ _ hk => hk) hd
    · have h' : c.Reachable (t.step a.op).1 := h.step (op := a.op) (hn.admits a List.mem_cons_self)
      rw [List.map_cons, run_cons_ok (by show (t.step (.insert a.item a.now a.draw)).2 ≠ _; rw [e]; simp)]
      refine C105_no_ratio hs l h' (hi.cancelled.trans ho) (hn.tail hi.keys) ?_
      show (((t.step (.insert a.item a.now a.draw)).1.limiter.inserts : Int) : Rat) * c.spi - _ < _
      rw [hi.inserts, show (t.step a.op).1.limiter.samples = t.limiter.samples from hi.samples, Rat.intCast_add]
      have e1 : (((1 : Int)) : Rat) = 1 := rfl
      rw [e1]
      grind

namespace ReleaseDemo

/-- A table of three items with four samples for every two inserts, and one that a constructor accepts. -/
def cfg : Config := ⟨3, 0, .fifo, .fifo, 2, 2, 2, 6, by decide⟩

theorem cfg_uses : ∃ l, sampleToInsertRatio 2 2 (.number 2) = some l ∧ cfg.Uses l := ⟨_, by decide +kernel, rfl⟩

theorem cfg_unstuck : cfg.Unstuck := by
  obtain ⟨l, h1, h2⟩ := cfg_uses
  exact C105_constructors (.inr (.inl ⟨_, _, _, h1⟩)) h2

/-- Items. -/
def items (ks : List Nat) : List Arrival := ks.map fun k => ⟨demoItem k 1 10 100, 1, draw 0⟩

/-- Four inserts of new items, of which the fourth has to wait; two samples, after which it is done; four more, after which samples wait. -/
def ops : List Op := (items [1, 2, 3, 4]).map Arrival.op ++ [.sample 2 fun _ => draw 0] ++ (items [4]).map Arrival.op ++
  [.sample 9 fun _ => draw 0, .sample 1 fun _ => draw 0]

/-- What a reply says: done, waits, or a number of samples. -/
def word : Res Table.Reply → Nat
  | .ok .done => 0
  | .ok .blocked => 1
  | .ok (.samples l) => 10 + l.length
  | _ => 2

theorem demo_run : (cfg.init.replies ops).map word = [0, 0, 0, 1, 12, 0, 14, 1] := by decide +kernel

/-- `C105_consumers` and `C105_producers` apply to every state of the table. -/
theorem demo_applies {t : Table} (h : cfg.Reachable t) (ho : t.limiter.cancelled = false) :
    (∃ N : Nat, ∀ l : List Arrival, NewItems cfg t l → N ≤ l.length →
      ∃ t', t.run (l.map Arrival.op) = some t' ∧ ∀ n ds, ∃ out, out ≠ [] ∧ (t'.step (.sample n ds)).2 = .ok (.samples out)) ∧
    ∃ N : Nat, ∀ l : List (Nat × (Nat → Draw)), N ≤ l.length →
      ∃ t', t.run (l.map fun x => .sample x.1 x.2) = some t' ∧ ∀ a, NewItems cfg t' [a] → (t'.step a.op).2 = .ok .done :=
  ⟨C105_consumers cfg_unstuck (by decide +kernel) (by decide) h ho, C105_producers cfg_unstuck h ho⟩

/-- A limiter without a ratio. -/
def none_ : Config := ⟨3, 0, .fifo, .fifo, 0, 1, -2, 0, by decide⟩

/-- One item, sampled twice. -/
def used : List Op := (items [1]).map Arrival.op ++ [.sample 2 fun _ => draw 0]

end ReleaseDemo

open ReleaseDemo in
/-- C105 is false for a ratio of 0: the constructor accepts it, and after two samples consumers wait whatever is inserted. -/
theorem C105_zero_is_false : ∃ (c : Config) (l : Limiter) (t : Table), sampleToInsertRatio 0 1 (.range (-2) 0) = some l ∧ c.Uses l ∧
    c.minSize ≤ c.maxSize ∧ c.Reachable t ∧ t.limiter.cancelled = false ∧ ∀ is : List Arrival, NewItems c t is →
      ∃ t', t.run (is.map Arrival.op) = some t' ∧ ∀ n ds, (t'.step (.sample n ds)).2 = .ok .blocked := by
  obtain ⟨t, h1, h2⟩ := Config.witness (c := none_) used
    (fun t => decide (t.limiter.cancelled = false ∧ t.limiter.samples = 2)) (by decide +kernel) (by decide +kernel)
  simp only [decide_eq_true_eq] at h2
  refine ⟨none_, _, t, by decide +kernel, rfl, by decide, h1, h2.1, fun is hn => ?_⟩
  refine C105_no_ratio (by decide +kernel) is h1 h2.1 hn ?_
  rw [h2.2]
  show _ * (0 : Rat) - ((2 : Int) : Rat) < -2 + 1
  have : ((2 : Int) : Rat) = 2 := rfl
  grind

end Verif
