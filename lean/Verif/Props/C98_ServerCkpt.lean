import Verif.Proofs.ServerCkpt
import Verif.Props.C56_C57_InsertService
/-
C98: a server with several tables that is saved and started again, any number of times.
-/
namespace Verif
namespace ServerCkpt

/-- C98: whatever clients do, and however often the server has been saved, stopped, or killed before: a server that is started again with the
tables it had starts, and each of its tables is as it was at some moment during the last call of `Checkpoint` that was completed (`b` is what
happened during the call): the same items with the same data, priority, sample count and time of insertion, the same counters, the same
configuration. -/
theorem C98_restart {w : Wire} {cfgs : AMap String Config} {a b d : List Event} {names : List String} {chunks : List ChunkRef} {j : Job}
    (h : (Job.init (fresh cfgs)).run w (a ++ .save names :: b ++ .done chunks :: d ++ [.restart (fresh cfgs)]) = some j)
    (hp : ∀ e ∈ a ++ .save names :: b ++ .done chunks :: d, Proper w cfgs e) (hb : ∀ ns, .save ns ∉ b) (hd : ∀ ch, .done ch ∉ d)
    {n : String} {c : Config} (hc : cfgs.get? n = some c) :
    ∃ b1 items b2 j1 t t', b = b1 ++ .table items :: b2 ∧ (Job.init (fresh cfgs)).run w (a ++ .save names :: b1) = some j1 ∧ j1.table n = some t ∧
      j.table n = some t' ∧ t'.look = t.look ∧ t'.limiter = { t.limiter with cancelled := false } ∧ t'.maxSize = t.maxSize ∧
      t'.maxTimesSampled = t.maxTimesSampled ∧ t'.sampler.options = t.sampler.options ∧ t'.remover.options = t.remover.options := by
  rw [show a ++ Event.save names :: b ++ .done chunks :: d ++ [.restart (fresh cfgs)] = a ++ (.save names :: (b ++ (.done chunks :: (d ++ [.restart (fresh cfgs)])))) by
    simp] at h
  obtain ⟨ja, ha, h⟩ := run_append h
  simp only [Job.run] at h
  split at h
  · cases h
  · rename_i js hs
    obtain ⟨jb, hrb, h⟩ := run_append h
    simp only [Job.run] at h
    split at h
    · cases h
    · rename_i jd hdn
      obtain ⟨je, hrd, h⟩ := run_append h
      cases h
      have ia : JInv w cfgs ja := (JInv.init w cfgs).run (fun e he => hp e (by simp [he])) ha
      have is : JInv w cfgs js := ia.step (by trivial) hs
      have ib : JInv w cfgs jb := is.run (fun e he => hp e (by simp [he])) hrb
      have id' : JInv w cfgs jd := ib.step (by trivial) hdn
      have ie : JInv w cfgs je := id'.run (fun e he => hp e (by simp [he])) hrd
      -- the call begins
      have h0 : ∀ s, js.saving = some s → Written w js names [] s := by
        simp only [Job.step] at hs
        split at hs
        · split at hs
          · cases hs
            intro s hs
            cases hs
            exact ⟨rfl, fun x hx => by cases hx⟩
          · cases hs
        · cases hs
      have hw := Written.run (j0 := js) (b1 := []) rfl h0 hrb hb
      -- and is completed
      have hlat : je.latest = jd.latest := latest_run hrd hd
      simp only [Job.step] at hdn
      split at hdn
      · rename_i records cs hsv
        split at hdn
        · rename_i hperm
          cases hdn
          rw [List.isPerm_iff] at hperm
          obtain ⟨w1, w2⟩ := hw _ hsv
          obtain ⟨g1, g2, _⟩ := ib.saving _ hsv
          have hmem : n ∈ records.map Prod.fst := by
            have : n ∈ records.map Prod.fst ++ [] := by rw [g2.mem_iff, AMap.mem_keys_iff, hc]; rfl
            simpa using this
          obtain ⟨⟨n', ck⟩, hx, rfl⟩ := List.mem_map.mp hmem
          obtain ⟨b1, items, b2, j1, t, q1, q2, q3, q4, q5, q6⟩ := w2 _ hx
          simp only [List.nil_append] at q1
          -- the table at that moment
          have hsplit : b = b1 ++ .table items :: b2 := q1
          have i1 : JInv w cfgs j1 := is.run (fun e he => hp e (by simp [hsplit, he])) q2
          have hgood : Good w c t := by
            unfold Job.table at q3
            split at q3
            · rename_i v hv
              split at q3
              · cases q3
              · rename_i hdead
                obtain ⟨t2, r1, r2⟩ := (i1.table hv (by simpa using hdead)).1 _ c hc
                simp only at q3
                rw [q3] at r1
                cases r1
                exact r2
            · cases q3
          -- the new server
          have hje : je.latest = some ⟨records, chunks⟩ := hlat
          obtain ⟨tables, r1, _, _, r4⟩ := boot_ok ie.latest
          simp only at q5
          subst q5
          obtain ⟨t', s1, s2, s3, s4, s5⟩ := r4 _ hje _ c t items hc hgood q4 hx (fun k it hk ch hch => hperm.mem_iff.mpr (q6 k it hk ch hch))
          refine ⟨b1, items, b2, j1, t, t', hsplit, ?_, q3, ?_, s3, s4, ?_, ?_, ?_, ?_⟩
          · rw [show a ++ Event.save names :: b1 = a ++ (.save names :: b1) from rfl]
            refine run_append_of ha ?_
            simp only [Job.run, hs, q2]
          · simp [Job.table, r1, Service.init, s1]
          · rw [s2.keeps.maxSize, hgood.keeps.maxSize]
          · rw [s2.keeps.maxTimes, hgood.keeps.maxTimes]
          · obtain ⟨_, _, _, _, k1⟩ := s2.inv.core
            obtain ⟨_, _, _, _, k2⟩ := hgood.inv.core
            rw [k1.samp.options, k2.samp.options]
          · obtain ⟨_, _, _, _, k1⟩ := s2.inv.core
            obtain ⟨_, _, _, _, k2⟩ := hgood.inv.core
            rw [k1.rem.options, k2.rem.options]
        · cases hdn
      · cases hdn

/-- C98: through all restarts the server has the tables that were configured, no more and no less, with their configuration, and none holds
more items than it may. In particular no restart fails. -/
theorem C98_tables {w : Wire} {cfgs : AMap String Config} {evs : List Event} {j : Job} (h : (Job.init (fresh cfgs)).run w evs = some j)
    (hp : ∀ e ∈ evs, Proper w cfgs e) :
    ∃ v, j.server = .ok v ∧ (v.dead = false → (∀ n, (j.table n).isSome = (cfgs.get? n).isSome) ∧
      ∀ n c t, cfgs.get? n = some c → j.table n = some t → t.size ≤ c.maxSize ∧ t.maxSize = c.maxSize ∧ t.maxTimesSampled = c.maxTimesSampled ∧
        t.sampler.options = c.sampler ∧ t.remover.options = c.remover ∧ t.limiter.spi = c.spi ∧ t.limiter.minSize = c.minSize ∧
        t.limiter.minDiff = c.minDiff ∧ t.limiter.maxDiff = c.maxDiff) := by
  have hi := (JInv.init w cfgs).run hp h
  obtain ⟨tables, gen, v, h1, _⟩ := hi.server
  refine ⟨v, h1, fun hd => ?_⟩
  have ht : ∀ n, j.table n = v.tables.get? n := fun n => by simp [Job.table, h1, hd]
  refine ⟨fun n => by rw [ht]; exact (hi.table h1 hd).2 n, fun n c t hc hn => ?_⟩
  rw [ht] at hn
  obtain ⟨t', q1, q2⟩ := (hi.table h1 hd).1 n c hc
  rw [hn] at q1
  cases q1
  obtain ⟨_, _, _, _, k⟩ := q2.inv.core
  exact ⟨by rw [← q2.keeps.maxSize]; exact q2.inv.size, q2.keeps.maxSize, q2.keeps.maxTimes, k.samp.options, k.rem.options, q2.keeps.spi, q2.keeps.minSize,
    q2.keeps.minDiff, q2.keeps.maxDiff⟩

/-- C98: without a completed checkpoint a server starts with the tables as they are configured. -/
theorem C98_empty {w : Wire} {cfgs : AMap String Config} {evs : List Event} {j : Job}
    (h : (Job.init (fresh cfgs)).run w (evs ++ [.restart (fresh cfgs)]) = some j) (hd : ∀ ch, .done ch ∉ evs) {n : String} {c : Config}
    (hc : cfgs.get? n = some c) : j.table n = some c.init := by
  obtain ⟨j1, h1, h2⟩ := run_append h
  cases h2
  have hl : j1.latest = none := latest_run h1 hd
  have hn : ((fresh cfgs).map Prod.fst).Nodup := by rw [fresh_names]; exact cfgs.keys_nodup
  have := tableMap_mem hn (mem_fresh hc)
  simp [Job.table, boot, start, hl, Service.init, this]

/-- C98, other tables: a server can be started with other tables than those of the checkpoint. A table that is in the checkpoint is loaded from it,
with the configuration of the checkpoint and not the one given; a table that is not is as it is given. -/
theorem C98_start {given : List (String × Table)} {s : Saved} (hn : (given.map Prod.fst).Nodup) (hr : (s.tables.map Prod.fst).Nodup)
    (hin : ∀ x ∈ s.tables, x.1 ∈ given.map Prod.fst) (hok : ∀ x ∈ s.tables, ∃ t, restore x.2 s.chunks = .ok t) :
    ∃ m, start given (some s) = .ok m ∧ (∀ n ck, (n, ck) ∈ s.tables → ∃ t, restore ck s.chunks = .ok t ∧ m.get? n = some t) ∧
      (∀ n t, (n, t) ∈ given → n ∉ s.tables.map Prod.fst → m.get? n = some t) ∧ ∀ n, n ∉ given.map Prod.fst → m.get? n = none := by
  obtain ⟨m, h1, h2, h3, h4⟩ := start_ok hn hr hin hok
  refine ⟨m, h1, fun n ck hx => ?_, fun n t hx hnx => h3 (n, t) hx hnx, h4⟩
  obtain ⟨t, ht⟩ := hok _ hx
  exact ⟨t, ht, h2 _ hx t ht⟩

/-- C98: if a table of the checkpoint is not among those given, the server does not start: `InvalidArgument`. -/
theorem C98_unknown {s : Saved} {before after : List (String × Checkpoint)} {n : String} {ck : Checkpoint}
    (hs : s.tables = before ++ (n, ck) :: after) {given : List (String × Table)} (hn : n ∉ given.map Prod.fst)
    (hok : ∀ x ∈ before, ∃ t, restore x.2 s.chunks = .ok t) : start given (some s) = .err .invalidArgument := by
  have key : ∀ (before : List (String × Checkpoint)) (given : List (String × Table)), n ∉ given.map Prod.fst →
      (∀ x ∈ before, ∃ t, restore x.2 s.chunks = .ok t) → loadTables s.chunks given (before ++ (n, ck) :: after) = .err .invalidArgument := by
    intro before
    induction before with
    | nil =>
      intro given hn _
      have : findTable given n = none := by
        rw [findTable, List.findIdx?_eq_none_iff]
        intro x hx
        simp only [decide_eq_false_iff_not]
        exact fun he => hn (List.mem_map.mpr ⟨x, hx, he⟩)
      simp [loadTables, this]
    | cons x before ih =>
      intro given hn hok
      obtain ⟨m, c⟩ := x
      obtain ⟨t, ht⟩ := hok (m, c) List.mem_cons_self
      simp only at ht
      simp only [List.cons_append, loadTables]
      cases hf : findTable given m with
      | none => rfl
      | some i =>
        simp only [ht]
        refine ih _ ?_ (fun x hx => hok x (List.mem_cons_of_mem _ hx))
        obtain ⟨hlt, hname, _⟩ := List.findIdx?_eq_some_iff_getElem.mp hf
        have hname : given[i].1 = m := by simpa using hname
        intro hmem
        obtain ⟨y, hy, hyn⟩ := List.mem_map.mp hmem
        rcases List.mem_or_eq_of_mem_set hy with hy | hy
        · exact hn (List.mem_map.mpr ⟨y, hy, hyn⟩)
        · subst hy
          simp only at hyn
          exact hn (List.mem_map.mpr ⟨given[i], List.getElem_mem hlt, by rw [hname, hyn]⟩)
  simp [start, hs, key before given hn hok]

end ServerCkpt

namespace ServerCkptDemo
open ServerCkpt

def cfg : Config := ⟨2, 0, .fifo, .fifo, 1, 1, -100, 100, by decide⟩
def cfgs : AMap String Config := ⟨[("a", cfg), ("b", cfg)], by decide⟩
def wire : Wire := ⟨fun _ => 1, fun _ => 1, 10, InsertDemo.chunk⟩

/-- An item is sent and inserted. -/
def put (k : Key) (table : String) (now : Int) : List Event :=
  [.serve (.insert (.request 0 (InsertDemo.req k k table [] false))), .serve (.insert (.insert 0 now (draw 0)))]

/-- The item in the table. -/
def item (k : Key) (now : Int) : Item := ⟨k, .val 1, 0, now, [⟨[⟨k, 0, 1, 0⟩], false⟩], [⟨k, 0⟩]⟩

def before : List Event := .serve (.insert (.start 0)) :: put 1 "a" 1 ++ put 2 "b" 2
/-- While the server is saved, item 3 goes into "a" after that table is saved, and then item 4 into "b". -/
def during : List Event := .table [item 1 1] :: put 3 "a" 3 ++ put 4 "b" 4 ++ [.table [item 2 2, item 4 4]]
/-- After that, an item is lost with the process. -/
def after : List Event := put 5 "a" 5

/-- Whether a table of the server holds an item with a key. -/
def holds (j : Job) (n : String) (k : Key) : Bool := (j.table n).any fun t => (t.data.get? k).isSome

/-- The items 1 to 5 of both tables. -/
def keys (j : Job) : List (List Key) := ["a", "b"].map fun n => [1, 2, 3, 4, 5].filter (holds j n)

theorem proper : ∀ e ∈ before ++ .save ["b", "a"].reverse :: during ++ .done [⟨4, 0⟩, ⟨1, 0⟩, ⟨2, 0⟩] :: after, Proper wire cfgs e := by
  have hreq : ∀ k table, Proper wire cfgs (.serve (.insert (.request 0 (InsertDemo.req k k table [] false)))) := by
    intro k table
    refine ⟨fun it hit c hc => ?_, fun ch hch => ?_⟩
    · have h2 : c = cfg := by
        have := (AMap.mem_entries_iff _ _ _).mpr hc
        simp only [cfgs, List.mem_cons, List.not_mem_nil, or_false, Prod.mk.injEq] at this
        rcases this with ⟨_, h⟩ | ⟨_, h⟩ <;> exact h
      subst h2; exact ⟨rfl, rfl⟩
    · simp only [InsertDemo.req, List.mem_singleton] at hch
      subst hch; rfl
  intro e he
  simp only [before, during, after, put, List.cons_append, List.nil_append,  List.mem_cons, List.not_mem_nil, or_false] at he
  rcases he with rfl | rfl | rfl | rfl | rfl | rfl | rfl | rfl | rfl | rfl | rfl | rfl | rfl | rfl | rfl <;> first | exact hreq _ _ | trivial

/-- The events up to the end. -/
def evs : List Event := before ++ .save ["a", "b"] :: during ++ .done [⟨4, 0⟩, ⟨1, 0⟩, ⟨2, 0⟩] :: after

/-- The hypotheses of `C98_restart` are met. After the restart "a" holds item 1 and "b" holds items 2 and 4. -/
theorem demo : ∃ j, (Job.init (fresh cfgs)).run wire (evs ++ [.restart (fresh cfgs)]) = some j ∧ (∀ e ∈ evs, Proper wire cfgs e) ∧
    keys j = [[1], [2, 4]] := by
  have h : ((Job.init (fresh cfgs)).run wire (evs ++ [.restart (fresh cfgs)])).any (fun j => decide (keys j = [[1], [2, 4]])) = true := by
    decide +kernel
  rw [Option.any_eq_true] at h
  obtain ⟨j, hj, h⟩ := h
  exact ⟨j, hj, proper, by simpa using h⟩

end ServerCkptDemo

namespace ServerCkpt
open ServerCkptDemo

/-- C98 for the server as a whole is false: the tables are saved one after the other, so that what is loaded may be a state in which the server
never was. Item 4 was inserted when item 3 had been, and only item 4 is there. -/
theorem C98_snapshot_is_false : ∃ (w : Wire) (cfgs : AMap String Config) (evs : List Event) (j : Job),
    (Job.init (fresh cfgs)).run w (evs ++ [.restart (fresh cfgs)]) = some j ∧ (∀ e ∈ evs, Proper w cfgs e) ∧ (∃ ch, .done ch ∈ evs) ∧
    ∀ pre i, pre <+: evs → (Job.init (fresh cfgs)).run w pre = some i → ¬ ∀ n k, holds i n k = holds j n k := by
  obtain ⟨j, h1, h2, h3⟩ := demo
  refine ⟨wire, cfgs, evs, j, h1, h2, ⟨[⟨4, 0⟩, ⟨1, 0⟩, ⟨2, 0⟩], by simp [evs]⟩, fun pre i hpre hrun hsame => ?_⟩
  have hk : ∀ k ≤ evs.length, ((Job.init (fresh cfgs)).run wire (evs.take k)).all (fun i => decide (¬ keys i = [[1], [2, 4]])) = true := by
    decide +kernel
  obtain ⟨post, hpost⟩ := hpre
  have := hk pre.length (by rw [← hpost]; simp)
  rw [← hpost, List.take_left, hrun] at this
  simp only [Option.all_some, decide_eq_true_eq] at this
  refine this (Eq.trans ?_ h3)
  have : holds i = holds j := funext fun n => funext fun k => hsame n k
  simp only [keys, this]

end ServerCkpt
end Verif
