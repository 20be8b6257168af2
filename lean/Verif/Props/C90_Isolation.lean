import Verif.Proofs.Isolation
import Verif.Props.C55_C58_SampleSync
import Verif.Props.C12_C13_C14_Contents
/-
C90: the tables of a server do not influence each other.
-/
namespace Verif
open Table (Op)
namespace Service

/-- C90: whatever clients do, each table of a server that is alive is in a state that it reaches by itself, with the critical sections `ops`. These
are due to the requests for this table (`OpsOf`): all calls by name of the table and in order, inserts of items that were sent for this table,
and samples that were asked of this table. -/
theorem C90_own_life {w : Wire} {tables : AMap String Table} {evs : List Event} {v : Service} (h : (Service.init tables).run w evs = some v)
    (hd : v.dead = false) {n : String} {t : Table} (ht : tables.get? n = some t) :
    ∃ ops t', t.run ops = some t' ∧ v.tables.get? n = some t' ∧ OpsOf n evs ops := (life_run h).lives hd n t ht

/-- C90: a table for which no request has come is as it was. -/
theorem C90_untouched {w : Wire} {tables : AMap String Table} {evs : List Event} {v : Service} (h : (Service.init tables).run w evs = some v)
    (hd : v.dead = false) {n : String} (hu : Untouched n evs) : v.tables.get? n = tables.get? n := by
  cases ht : tables.get? n with
  | none => exact (life_run h).names n ht
  | some t =>
    obtain ⟨ops, t', h1, h2, h3⟩ := C90_own_life h hd ht
    cases ops with
    | nil => cases h1; exact h2
    | cons op ops =>
      exfalso
      have hm : op ∈ op :: ops := List.mem_cons_self
      cases hc : isCall op with
      | true =>
        have : op ∈ calls n evs := by rw [← h3.calls]; exact List.mem_filter.mpr ⟨hm, hc⟩
        simp only [calls, List.mem_filterMap] at this
        obtain ⟨e, he, g⟩ := this
        split at g
        · rename_i u
          split at g
          · exact hu.calls u he (by assumption)
          · cases g
        · cases g
      | false =>
        cases hi : Op.item op with
        | none =>
          obtain ⟨_, q, r, hr, g⟩ := h3.samples op hm hc hi
          exact hu.samples q r hr g
        | some x =>
          obtain ⟨s, r, hr, it, g1, g2, _⟩ := h3.items op hm x.1 x.2 hi
          exact hu.inserts s r hr it g1 g2

/-- C90: no table appears or disappears. -/
theorem C90_names {w : Wire} {tables : AMap String Table} {evs : List Event} {v : Service} (h : (Service.init tables).run w evs = some v)
    (hd : v.dead = false) (n : String) : (v.tables.get? n).isSome = (tables.get? n).isSome := by
  cases ht : tables.get? n with
  | none => rw [(life_run h).names n ht]
  | some t =>
    obtain ⟨ops, t', h1, h2, h3⟩ := C90_own_life h hd ht
    rw [h2]; rfl

/-- C90: a call that names a table that is not there is answered with NotFound and changes nothing; one that names a table that is there does to it what the
table does, and changes no other one. -/
theorem C90_unary (v : Service) (u : Unary) :
    (v.tables.get? u.table = none → v.unary u = (v, some .notFound)) ∧
    (∀ t, v.tables.get? u.table = some t → (v.unary u).1.tables.get? u.table = some (t.step u.op).1 ∧
      (∀ c, (v.unary u).2 = some c ↔ (t.step u.op).2 = .err c) ∧ ((v.unary u).1.dead = true ↔ (t.step u.op).2 = .died)) ∧
    (∀ n, n ≠ u.table → (v.unary u).1.tables.get? n = v.tables.get? n) ∧
    (v.unary u).1.inserts = v.inserts ∧ (v.unary u).1.samples = v.samples ∧ (v.unary u).1.confirmed = v.confirmed := by
  unfold Service.unary
  refine ⟨fun h => by rw [h], fun t h => ?_, fun n hn => ?_, ?_⟩
  · rw [h]
    simp only [AMap.get?_insert_self, decide_eq_true_eq, iff_self, and_true, true_and]
    intro c
    cases (t.step u.op).2 <;> simp [statusOf]
  · split
    · rfl
    · simp [AMap.get?_insert, hn]
  · split <;> exact ⟨rfl, rfl, rfl⟩

/-- C90: if clients send admitted priorities only, then each table is in a state that is reachable in the sense of the properties of tables (C12 to C24), all of which
therefore hold for the tables of a server. -/
theorem C90_reachable {w : Wire} {cfgs : AMap String Config} {evs : List Event} {v : Service} (h : (Service.init (newTables cfgs)).run w evs = some v)
    (hd : v.dead = false) (ha : Admitted cfgs evs) {n : String} {c : Config} (hc : cfgs.get? n = some c) :
    ∃ t, v.tables.get? n = some t ∧ c.Reachable t := by
  have hn : (newTables cfgs).get? n = some c.init := by
    rw [← AMap.mem_entries_iff] at hc ⊢
    exact List.mem_map.mpr ⟨_, hc, rfl⟩
  obtain ⟨ops, t', h1, h2, h3⟩ := C90_own_life h hd hn
  refine ⟨t', h2, ops, fun op ho => ?_, h1⟩
  have hitem : ∀ i now, Op.item op = some (i, now) → c.admits i.priority := fun i now hi => by
    obtain ⟨s, r, hr, it, g1, g2, ⟨chunks, g3, _⟩⟩ := h3.items op ho i now hi
    have := ha.inserts s r hr it g1 c (by rw [g2]; exact hc)
    rw [g3]
    exact this
  cases op with
  | insert i now d => exact hitem i now rfl
  | insertResume i now d => exact hitem i now rfl
  | workerInsert i now d => exact hitem i now rfl
  | mutate us ds =>
    have : Op.mutate us ds ∈ calls n evs := by rw [← h3.calls]; exact List.mem_filter.mpr ⟨ho, rfl⟩
    simp only [calls, List.mem_filterMap] at this
    obtain ⟨e, he, g⟩ := this
    split at g
    · rename_i u
      split at g
      · rename_i hu
        cases u with
        | mutate m us' ds' =>
          cases g
          cases hu
          exact ha.updates m us ds he c hc
        | reset => cases g
        | close => cases g
      · cases g
    · cases g
  | _ => trivial

/-- For example: no table of a server holds more items than it may. -/
theorem C90_size {w : Wire} {cfgs : AMap String Config} {evs : List Event} {v : Service} (h : (Service.init (newTables cfgs)).run w evs = some v)
    (hd : v.dead = false) (ha : Admitted cfgs evs) {n : String} {c : Config} (hc : cfgs.get? n = some c) {t : Table} (ht : v.tables.get? n = some t) :
    t.size ≤ c.maxSize := by
  obtain ⟨t', h1, h2⟩ := C90_reachable h hd ha hc
  rw [ht] at h1
  cases h1
  exact C12_size_le_max_partial c t h2

end Service

namespace IsolationDemo

def table : Config := ⟨1, 0, .fifo, .fifo, 1, 1, -100, 100, by decide⟩

/-- A server with two tables that hold one item each. -/
def cfgs : AMap String Config := ⟨[("a", table), ("b", table)], by decide⟩

/-- Two items are inserted into "a" and one sample is taken; a call is for an unknown table, another one resets "a" before the last insert. -/
def evs : List Service.Event :=
  [.insert (.start 0), .insert (.request 0 (InsertDemo.req 1 10 "a" [10] true)), .insert (.insert 0 1 (draw 0)), .insert (.confirm 0 true),
   .sample (.start 1), .sample (.request 1 ⟨"a", 1, none, -1⟩), .sample (.sample 1 2 fun _ => draw 0), .unary (.reset "c"), .unary (.reset "a"),
   .insert (.request 0 (InsertDemo.req 2 10 "a" [10] true)), .unary (.mutate "a" [(2, .val 5)] []), .insert (.insert 0 3 (draw 0))]

/-- The hypotheses of C90 are met: "b" is untouched, and "a" holds the second item. -/
theorem demo : ∃ v, (Service.init (newTables cfgs)).run SampleDemo.wire evs = some v ∧ v.dead = false ∧ Service.Untouched "b" evs ∧
    Service.Admitted cfgs evs ∧ ((v.tables.get? "a").map fun t => t.data.keys) = some [2] ∧ (v.got 1).length = 1 ∧ (Service.calls "a" evs).length = 2 := by
  have h : ((Service.init (newTables cfgs)).run SampleDemo.wire evs).any (fun v => decide (v.dead = false ∧
    ((v.tables.get? "a").map fun t => t.data.keys) = some [2] ∧ (v.got 1).length = 1)) = true := by decide +kernel
  rw [Option.any_eq_true] at h
  obtain ⟨v, hv, h⟩ := h
  simp only [decide_eq_true_eq] at h
  have hin : ∀ s, ∀ r ∈ Service.insertRequests s evs, r ∈ [InsertDemo.req 1 10 "a" [10] true, InsertDemo.req 2 10 "a" [10] true] := by
    intro s r hr
    simp only [Service.insertRequests, SyncServer.requests, List.filterMap_filterMap, List.mem_filterMap] at hr
    obtain ⟨e, he, g⟩ := hr
    simp only [evs, List.mem_cons, List.not_mem_nil, or_false] at he
    rcases he with rfl | rfl | rfl | rfl | rfl | rfl | rfl | rfl | rfl | rfl | rfl | rfl <;> simp at g
    · simp [g.2]
    · simp [g.2]
  have hsm : ∀ q, ∀ r ∈ Service.sampleRequests q evs, r.table = "a" := by
    intro s r hr
    simp only [Service.sampleRequests, SyncSampler.requests, List.filterMap_filterMap, List.mem_filterMap] at hr
    obtain ⟨e, he, g⟩ := hr
    simp only [evs, List.mem_cons, List.not_mem_nil, or_false] at he
    rcases he with rfl | rfl | rfl | rfl | rfl | rfl | rfl | rfl | rfl | rfl | rfl | rfl <;> simp at g
    simp [← g.2]
  refine ⟨v, hv, h.1, ⟨fun u hu => ?_, fun s r hr it hit => ?_, fun q r hr g => ?_⟩, ⟨fun s r hr it hit c hc => ?_, fun n us ds hm c hc u hu => ?_⟩, h.2.1, h.2.2, rfl⟩
  · simp only [evs, List.mem_cons, List.not_mem_nil, or_false, reduceCtorEq, false_or, Service.Event.unary.injEq] at hu
    rcases hu with rfl | rfl | rfl <;> decide
  · have := hin s r hr
    simp only [List.mem_cons, List.not_mem_nil, or_false] at this
    rcases this with rfl | rfl <;> (cases hit; decide)
  · rw [hsm q r hr] at g; exact absurd g (by decide)
  · have h2 : c = table := by
      have := (AMap.mem_entries_iff _ _ _).mpr hc
      simp only [cfgs, List.mem_cons, List.not_mem_nil, or_false, Prod.mk.injEq] at this
      rcases this with ⟨_, h⟩ | ⟨_, h⟩ <;> exact h
    subst h2; exact ⟨rfl, rfl⟩
  · have h2 : c = table := by
      have := (AMap.mem_entries_iff _ _ _).mpr hc
      simp only [cfgs, List.mem_cons, List.not_mem_nil, or_false, Prod.mk.injEq] at this
      rcases this with ⟨_, h⟩ | ⟨_, h⟩ <;> exact h
    subst h2; exact ⟨rfl, rfl⟩

end IsolationDemo
end Verif
