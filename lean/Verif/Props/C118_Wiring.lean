import Verif.Proofs.Wiring
import Verif.Props.C06_SelectorErrors
import Verif.Props.C117_Life
/-
C118: a rate limiter or an extension belongs to one table at a time, and extensions are told what happens to it.
-/
namespace Verif
open Table (Op)
namespace Wiring
variable {w w' : World} {tid : Nat} {b : Tb}

theorem Inv.has_iff (hi : Inv w) {x : Nat} {e : Xt} (he : w.exts.get? x = some e) : e.owner = none ↔ ∀ j, ¬ w.Has j x := by
  constructor
  · rintro ho j ⟨b, hb, hm⟩
    obtain ⟨e', he', ho'⟩ := (hi.listed j b hb).2 x hm
    rw [he] at he'; cases he'
    rw [ho] at ho'; cases ho'
  · intro h
    cases ho : e.owner with
    | none => rfl
    | some j => exact absurd (hi.ext x e he j ho) (h j)

theorem Inv.hasLimiter_iff (hi : Inv w) {l : Nat} {o : Lim} (hl : w.lims.get? l = some o) : o.owner = none ↔ ∀ j, ¬ w.HasLimiter j l := by
  constructor
  · rintro ho j ⟨b, hb, rfl⟩
    obtain ⟨o', ho1, ho2⟩ := hi.limOf j b hb
    rw [hl] at ho1; cases ho1
    rw [ho] at ho2; cases ho2
  · intro h
    cases ho : o.owner with
    | none => rfl
    | some j => exact absurd (hi.lim l o hl j ho) (h j)

/-- C118: no two tables have the same rate limiter or share an extension, and no table has an extension twice. -/
theorem C118_one_table (h : Reachable w) :
    (∀ i j l, w.HasLimiter i l → w.HasLimiter j l → i = j) ∧ (∀ i j x, w.Has i x → w.Has j x → i = j) ∧
    ∀ i b, w.tabs.get? i = some b → (b.sync ++ b.async).Nodup := by
  have hi := h.inv
  refine ⟨?_, ?_, fun i b hb => (hi.listed i b hb).1⟩
  · rintro i j l ⟨a, ha, rfl⟩ ⟨b, hb, he⟩
    obtain ⟨o, h1, h2⟩ := hi.limOf i a ha
    obtain ⟨o', h3, h4⟩ := hi.limOf j b hb
    rw [he, h1] at h3; cases h3
    rw [h2] at h4
    exact Option.some.inj h4
  · rintro i j x ⟨a, ha, hx⟩ ⟨b, hb, hy⟩
    exact hi.apart ha hb hx hy

/-- C118: a table can be made from a rate limiter and extensions if no table has them and no extension is given
twice. It then has them, and has told them nothing. Otherwise the process dies. -/
theorem C118_construct (h : Reachable w) {ms : Nat} {mt : Int} {kS kR : SelKind} {l : Nat} {xs : List Nat}
    (hnew : w.tabs.get? tid = none) (hl : (w.lims.get? l).isSome) (hx : ∀ x ∈ xs, (w.exts.get? x).isSome) :
    (step w (.construct tid ms mt kS kR l xs) = .died ↔
      (∃ j, w.HasLimiter j l) ∨ (∃ x ∈ xs, ∃ j, w.Has j x) ∨ ¬ xs.Nodup) ∧
    ((∀ j, ¬ w.HasLimiter j l) → (∀ x ∈ xs, ∀ j, ¬ w.Has j x) → xs.Nodup →
      ∃ w', step w (.construct tid ms mt kS kR l xs) = .next w' ∧ w'.HasLimiter tid l ∧ (∀ x, w'.Has tid x ↔ x ∈ xs) ∧
        ∀ x ∈ xs, ∃ e e', w.exts.get? x = some e ∧ w'.exts.get? x = some e' ∧ e'.heard = e.heard ∧ e'.before = e.heard ∧ e'.skipped = 0) := by
  have hi := h.inv
  obtain ⟨o, ho⟩ := Option.isSome_iff_exists.mp hl
  have hall : (xs.all fun x => (w.exts.get? x).isSome) = true := List.all_eq_true.mpr hx
  have hfree : ∀ w1 : World, w1.exts = w.exts → ((∀ x ∈ xs, w1.Free x) ↔ ∀ x ∈ xs, ∀ j, ¬ w.Has j x) := by
    intro w1 he
    constructor
    · intro hf x hm
      obtain ⟨e, h1, h2⟩ := hf x hm
      rw [he] at h1
      exact (hi.has_iff h1).mp h2
    · intro hf x hm
      obtain ⟨e, h1⟩ := Option.isSome_iff_exists.mp (hx x hm)
      exact ⟨e, by rw [he]; exact h1, (hi.has_iff h1).mpr (hf x hm)⟩
  have hlim := hi.hasLimiter_iff ho
  simp only [step, ho, hnew, hall, if_true, construct]
  cases hown : o.owner with
  | some j =>
    have : ¬ ∀ j, ¬ w.HasLimiter j l := fun h => by rw [hlim.mpr h] at hown; cases hown
    refine ⟨?_, fun h => absurd h this⟩
    simp only [Option.isSome_some, if_true, true_iff]
    exact .inl (Classical.byContradiction fun hn => this fun j hj => hn ⟨j, hj⟩)
  | none =>
    have hno := hlim.mp hown
    simp only [Option.isSome_none, Bool.false_eq_true, if_false]
    cases hr : registerAll tid { w with lims := w.lims.insert l { o with owner := some tid } } xs with
    | none =>
      have hr' : ¬ (xs.Nodup ∧ ∀ x ∈ xs, ∀ j, ¬ w.Has j x) :=
        fun h => registerAll_none.mp hr ⟨h.1, (hfree _ rfl).mpr h.2⟩
      constructor
      · simp only [true_iff]
        by_cases hn : xs.Nodup
        · refine .inr (.inl (Classical.byContradiction fun hc => hr' ⟨hn, fun x hm j hj => hc ⟨x, hm, j, hj⟩⟩))
        · exact .inr (.inr hn)
      · intro _ h1 h2
        exact absurd ⟨h2, h1⟩ hr'
    | some w1 =>
      obtain ⟨r1, r2, r3, r4, r5⟩ := registerAll_some hr
      replace r4 := (hfree _ rfl).mp r4
      constructor
      · simp only [reduceCtorEq, false_iff, not_or]
        exact ⟨fun ⟨j, hj⟩ => hno j hj, fun ⟨x, hm, j, hj⟩ => r4 x hm j hj, fun h => h r3⟩
      · intro _ _ _
        refine ⟨_, rfl, ⟨_, AMap.get?_insert_self _ _ _, rfl⟩, ?_, ?_⟩
        · intro x
          constructor
          · rintro ⟨b, hb, hm⟩
            simp only [AMap.get?_insert_self, Option.some.injEq] at hb
            subst hb
            simpa using hm
          · intro hm
            exact ⟨_, AMap.get?_insert_self _ _ _, by simpa using hm⟩
        · intro x hm
          obtain ⟨e, he⟩ := Option.isSome_iff_exists.mp (hx x hm)
          exact ⟨e, e.registered tid 0, he, by simp only [r5, hm, if_true, he]; rfl, rfl, rfl, rfl⟩

/-- C118: a table can always be destroyed; no table has its rate limiter and its extensions afterwards. -/
theorem C118_destroy (h : Reachable w) (hb : w.tabs.get? tid = some b) :
    ∃ w', step w (.destroy tid) = .next w' ∧ w'.tabs.get? tid = none ∧ (∀ j, ¬ w'.HasLimiter j b.lim) ∧
      (∀ x ∈ b.sync ++ b.async, ∀ j, ¬ w'.Has j x) ∧
      ∀ j, j ≠ tid → w'.tabs.get? j = w.tabs.get? j := by
  have hi := h.inv
  obtain ⟨w', g1, g2, g3, g4⟩ := destroy_ok hi hb
  have hi' := hi.destroy g1
  refine ⟨w', g1, by simp [g2], ?_, ?_, ?_⟩
  · exact (hi'.hasLimiter_iff (by rw [g3]; exact AMap.get?_insert_self _ _ _)).mp rfl
  · intro x hx
    obtain ⟨e, he, _⟩ := (hi.listed tid b hb).2 x hx
    exact (hi'.has_iff (e := e.freed) (by rw [g4, if_pos hx, he]; rfl)).mp rfl
  · intro j hj
    simp [g2, AMap.get?_erase, hj]

/-- C118: an extension can be added to a table that has no items, if no table has it. The table then has it too, and
has told it nothing. Otherwise the process dies. -/
theorem C118_add (h : Reachable w) {x : Nat} {e : Xt} (hb : w.tabs.get? tid = some b) (he : w.exts.get? x = some e) :
    (step w (.addExtension tid x) = .died ↔ (∃ j, w.Has j x) ∨ b.table.size ≠ 0) ∧
    ((∀ j, ¬ w.Has j x) → b.table.size = 0 → ∃ w' e', step w (.addExtension tid x) = .next w' ∧
      (∀ y, w'.Has tid y ↔ w.Has tid y ∨ y = x) ∧ w'.exts.get? x = some e' ∧ e'.heard = e.heard ∧ e'.before = e.heard ∧
      e'.skipped = b.table.log.length) := by
  have hi := h.inv
  have hown := hi.has_iff he
  simp only [step, addExtension, hb, he]
  cases hr : register w tid b.table.log.length x with
  | none =>
    have : ¬ ∀ j, ¬ w.Has j x := fun h => register_none.mp hr ⟨e, he, hown.mpr h⟩
    refine ⟨?_, fun h => absurd h this⟩
    simp only [true_iff]
    exact .inl (Classical.byContradiction fun hn => this fun j hj => hn ⟨j, hj⟩)
  | some w1 =>
    obtain ⟨e', he', ho, rfl⟩ := register_some hr
    rw [he] at he'; cases he'
    have hno := hown.mp ho
    have hsz : b.table.size = b.table.data.size := rfl
    by_cases hz : b.table.data.size = 0
    · constructor
      · simp only [hz, ne_eq, not_true_eq_false, if_false, hsz, or_false]
        constructor
        · intro h; split at h <;> cases h
        · exact fun ⟨j, hj⟩ => absurd hj (hno j)
      · intro _ _
        simp only [hz, ne_eq, not_true_eq_false, if_false]
        split
        all_goals
          refine ⟨_, e.registered tid b.table.log.length, rfl, ?_, AMap.get?_insert_self _ _ _, rfl, rfl, rfl⟩
          intro y
          simp only [World.Has, AMap.get?_insert_self, hb, Option.some.injEq, exists_eq_left', List.mem_append, List.mem_singleton]
          grind
    · simp only [hz, ne_eq, not_false_eq_true, if_true, hsz, or_true, true_iff, true_and]
      exact fun _ h => absurd h (by simp)

/-- C118: as long as extensions are not added to tables whose workers run, every extension has heard, since it was added to its
table, exactly what happened to the table, in order: all of it, if it is synchronous; all but the requests that the extension
worker has not handled yet, if it is asynchronous. (Not shown, because false: without the first condition, see
`C118_late`.) -/
theorem C118_told_partial (h : ReachableInTime w) (hb : w.tabs.get? tid = some b) :
    (∀ x ∈ b.sync, ∃ e, w.exts.get? x = some e ∧ e.heard = e.before ++ b.table.log.drop e.skipped) ∧
    (∀ x ∈ b.async, ∃ e, w.exts.get? x = some e ∧ e.heard ++ b.reqs = e.before ++ b.table.log.drop e.skipped) := by
  have hi := h.reachable.inv
  obtain ⟨lims, exts, hp⟩ := h
  have ht := hp.told (init_inv _ _) (fun i b hb => by simp [init] at hb) tid b hb
  constructor
  · intro x hx
    obtain ⟨e, he, _⟩ := (hi.listed tid b hb).2 x (by simp [hx])
    exact ⟨e, he, (ht.sync x hx e he).2⟩
  · intro x hx
    obtain ⟨e, he, _⟩ := (hi.listed tid b hb).2 x (by simp [hx])
    exact ⟨e, he, (ht.async x hx e he).2⟩

/-- C118: once the extension worker has handled its requests, all extensions of the table have heard everything. -/
theorem C118_told_all_partial (h : ReachableInTime w) (hs : step w (.work tid) = .next w') (hb : w'.tabs.get? tid = some b) {x : Nat}
    (hx : w'.Has tid x) : ∃ e, w'.exts.get? x = some e ∧ e.heard = e.before ++ b.table.log.drop e.skipped := by
  have hi := h.reachable.inv
  obtain ⟨lims, exts, hp⟩ := h
  have h' : ReachableInTime w' := ⟨lims, exts, .step hp (by intro _ _ h; cases h) hs⟩
  obtain ⟨b0, _, _, _, g2, _⟩ := work_next hi hs
  have hr : b.reqs = [] := by
    rw [g2, if_pos rfl] at hb
    cases hb; rfl
  obtain ⟨h1, h2⟩ := C118_told_partial h' hb
  obtain ⟨b', hb', hm⟩ := hx
  rw [hb] at hb'; cases hb'
  rcases List.mem_append.mp hm with hm | hm
  · exact h1 x hm
  · obtain ⟨e, he, hh⟩ := h2 x hm
    exact ⟨e, he, by simpa [hr] using hh⟩

/-- C118: if a table had no asynchronous extensions when its workers were started, then those that are added later hear of removed
items and of resets only: never of an insertion, a sample or an update. -/
theorem C118_late (h : Reachable w) (hb : w.tabs.get? tid = some b) (hn : b.hasAsync = false) {x : Nat} (hx : x ∈ b.async) :
    ∃ e news, w.exts.get? x = some e ∧ e.heard = e.before ++ news ∧ ∀ r ∈ news, r = .reset ∨ ∃ i, r = .delete i := by
  have hi := h.inv
  obtain ⟨lims, exts, hp⟩ := h
  have ht := hp.deaf (init_inv _ _) (fun i b hb => by simp [init] at hb) tid b hb
  obtain ⟨e, he, _⟩ := (hi.listed tid b hb).2 x (by simp [hx])
  obtain ⟨news, h1, h2⟩ := ht hn x hx e he
  exact ⟨e, news, he, h1, h2⟩

/-- C118: a table that is loaded from a checkpoint takes over the extensions of the table whose place it takes, and has a rate
limiter of its own; the extensions are told of the items loaded as if they had been inserted. -/
theorem C118_load (h : Reachable w) {tid' l : Nat} {c : Checkpoint} {chunks : List ChunkRef}
    (hs : step w (.load tid tid' l c chunks) = .next w') :
    ∃ t, restore c chunks = .ok t ∧ (∃ b', w'.tabs.get? tid' = some b' ∧ b'.table = t) ∧ w'.HasLimiter tid' l ∧ (∀ j, ¬ w.HasLimiter j l) ∧
      (∀ x, w'.Has tid' x ↔ w.Has tid x) ∧ (∀ x, ¬ w'.Has tid x) ∧
      ∀ x, w.Has tid x → ∃ e e', w.exts.get? x = some e ∧ w'.exts.get? x = some e' ∧ e'.heard = e.heard ++ t.log := by
  have hi := h.inv
  obtain ⟨b, t, hb, hf, hl, hz, hr, hi', g1, g2, g3⟩ := load_next hi hs
  have hne : tid ≠ tid' := by rintro rfl; rw [hb] at hf; cases hf
  have g' : w'.tabs.get? tid' = some ⟨t, l, b.sync ++ b.async, [], false, false, []⟩ := by rw [g2, if_pos rfl]
  have g'' : w'.tabs.get? tid = some { b with sync := [], async := [] } := by rw [g2, if_neg hne, if_pos rfl]
  refine ⟨t, hr, ⟨_, g', rfl⟩, ⟨_, g', rfl⟩, ?_, ?_, ?_, ?_⟩
  · rintro j ⟨b0, hb0, rfl⟩
    obtain ⟨o, ho, _⟩ := hi.limOf j b0 hb0
    rw [hl] at ho; cases ho
  · intro x
    simp only [World.Has, g', hb, Option.some.injEq, exists_eq_left', List.append_nil]
  · intro x
    simp only [World.Has, g'', Option.some.injEq, exists_eq_left']
    simp
  · rintro x ⟨b0, hb0, hm⟩
    rw [hb] at hb0; cases hb0
    obtain ⟨e, he, _⟩ := (hi.listed tid b hb).2 x hm
    exact ⟨e, _, he, by rw [g3, if_pos hm, he]; rfl, rfl⟩

/-- C118: it is not true that a rate limiter may be used again when its table is gone. No check fails, and its counts start again at
zero; but a table made with it answers every valid insertion and every request for samples with `Cancelled`. -/
theorem C118_reuse_is_false (h : Reachable w) (hb : w.tabs.get? tid = some b) (hm : 0 < b.table.limiter.minSize)
    {tid' ms : Nat} {mt : Int} {kS kR : SelKind} (hd : step w (.destroy tid) = .next w') (hnew : w'.tabs.get? tid' = none) :
    ∃ w2 b2, step w' (.construct tid' ms mt kS kR b.lim []) = .next w2 ∧ w2.tabs.get? tid' = some b2 ∧
      b2.table.limiter.inserts = 0 ∧ b2.table.limiter.samples = 0 ∧ b2.table.limiter.deletes = 0 ∧
      (∀ i now d, Table.itemValid i = true → (b2.table.step (.insert i now d)).2 = .err .cancelled) ∧
      ∀ n ds, (b2.table.step (.sample n ds)).2 = .err .cancelled := by
  obtain ⟨w1, g1, g2, g3, g4⟩ := destroy_ok h.inv hb
  simp only [step] at hd
  rw [g1] at hd
  cases hd
  have hl : w'.lims.get? b.lim = some ⟨b.table.limiter.cancel.reset, none⟩ := by rw [g3]; exact AMap.get?_insert_self _ _ _
  have hstep : step w' (.construct tid' ms mt kS kR b.lim []) = .next { w' with
      lims := w'.lims.insert b.lim ⟨b.table.limiter.cancel.reset, some tid'⟩
      tabs := w'.tabs.insert tid' ⟨Table.make ms mt kS kR b.table.limiter.cancel.reset, b.lim, [], [], false, false, []⟩ } := by
    simp only [step, hl, hnew, List.all_nil, if_true, construct, Option.isSome_none, Bool.false_eq_true, if_false, registerAll]
  refine ⟨_, _, hstep, AMap.get?_insert_self _ _ _, ?_⟩
  · refine ⟨rfl, rfl, rfl, ?_, ?_⟩
    · intro i now d hv
      simp [Table.step, Table.insertOrAssign, hv, Table.insertResume, Table.make, Limiter.awaitInsert, Limiter.cancel, Limiter.reset,
        AMap.contains]
    · intro n ds
      simp [Table.step, Table.sampleBatch, Table.sampleResume, Table.make, Limiter.awaitSample, Limiter.maybeCommitSample,
        Limiter.canSample, Limiter.cancel, Limiter.reset, hm]

/-- C118: nothing is checked for selectors. If one object is given to a table as its sampler and as its remover, then every insertion of a
new item returns `InvalidArgument`, although the item stays in the table; nobody is told, and the rate limiter does not count it. -/
theorem C118_one_selector_is_false (t : Table) (kind : SelKind) (cs : List Spec.Call) (hs : t.sampler = selAfter kind cs) (i : Item) (now : Int) :
    (t.insertNewShared i now).2 = .err .invalidArgument ∧
    (t.insertNewShared i now).1.get i.key = some { i with insertedAt := now } ∧
    (t.insertNewShared i now).1.log = t.log ∧ (t.insertNewShared i now).1.limiter = t.limiter := by
  have h1 : ∀ j : Item, ((selAfter kind cs).apply (.insert j.key j.priority)).2 = .ok () ∨
      ((selAfter kind cs).apply (.insert j.key j.priority)).2 = .err .invalidArgument := by
    intro j
    rw [C06_call_result]
    split <;> simp
  have h2 : ((selAfter kind cs).apply (.insert i.key i.priority)).2 = .ok () →
      (((selAfter kind cs).apply (.insert i.key i.priority)).1.apply (.insert i.key i.priority)).2 = .err .invalidArgument := by
    intro hok
    have hi := Sel.Inv.runFrom cs (Sel.Inv.make kind)
    have g1 := (hi.step (.insert i.key i.priority)).2.1
    have g2 := ((hi.step (.insert i.key i.priority)).1.step (.insert i.key i.priority)).2.1
    change ((selAfter kind cs).apply _).2 = _ at g1
    change (((selAfter kind cs).apply _).1.apply _).2 = _ at g2
    rw [hok] at g1
    rw [g2, if_neg]
    split at g1
    · rename_i hsuc
      simp only [Spec.succeeds, Bool.and_eq_true, Option.isNone_iff_eq_none] at hsuc
      simp [Spec.succeeds, Spec.Book.step, hsuc.1, hsuc.2]
    · cases g1
  unfold Table.insertNewShared
  simp only [hs]
  rcases h1 i with h | h
  · simp [h, h2 h, Table.get]
  · simp [h, Table.get]

/-- What two tables that were given the same object as their sampler do to each other (model only; table.cc:514, 715-720): the first
one inserts an item, then the second one, which has the selector as the first one left it. -/
def sharedSampler (kind : SelKind) (i j : Item) : Table × Table :=
  let l : Limiter := ⟨1, 1, -10, 10, 0, 0, 0, false⟩
  let a := ((Table.make 5 0 kind .fifo l).step (.insert i 1 (draw 0))).1
  (a, ({ Table.make 5 0 kind .fifo l with sampler := a.sampler }.step (.insert j 2 (draw 0))).1)

/-- C118: nor is it checked that no other table has the selector. If two tables have it, a request for samples from one of them may
find an item of the other one, and the process dies. -/
theorem C118_shared_selector_is_false :
    ¬ ∀ kind i j, Table.itemValid i = true → Table.itemValid j = true →
      ((sharedSampler kind i j).2.step (.sample 1 fun _ => draw 0)).2 ≠ .died := by
  intro h
  exact h .fifo (demoItem 7 1 10 100) (demoItem 8 1 11 101) (by decide) (by decide) (by decide +kernel)

namespace Demo

/-- Two limiters; the extensions 0 and 1 can run asynchronously, 2 cannot. -/
def start : World := init
  ⟨[(0, ⟨1, 1, -10, 10, 0, 0, 0, false⟩), (1, ⟨1, 1, -10, 10, 0, 0, 0, false⟩)], by decide⟩ ⟨[(0, true), (1, true), (2, false)], by decide⟩

/-- What the extension has heard: the keys inserted (1), removed (3) and sampled (2), resets (0). -/
def heard (w : World) (x : Nat) : List (Nat × Key) :=
  (((w.exts.get? x).map Xt.heard).getD []).map fun
    | .insert i => (1, i.key)
    | .sample i => (2, i.key)
    | .update i => (4, i.key)
    | .delete i => (3, i.key)
    | .reset => (0, 0)

/-- What happens to a table. -/
def use (tid : Nat) : List Event :=
  [.op tid (.insert (demoItem 7 1 10 100) 11 (draw 0)), .op tid (.sample 1 fun _ => draw 0),
   .op tid (.mutate [(7, .val 3)] []), .op tid (.mutate [] [7])]

def inTime : List Event :=
  [.construct 5 3 0 .fifo .fifo 0 [0, 2], .construct 6 3 0 .fifo .fifo 1 [], .enableWorker 5, .enableWorker 6] ++ use 5 ++ use 6

def late : List Event :=
  [.construct 5 3 0 .fifo .fifo 0 [], .enableWorker 5, .addExtension 5 1] ++ use 5 ++ [.work 5]

def demo := (run start inTime).getD start
def demoLate := (run start late).getD start

/-- The synchronous extension has heard everything, the asynchronous one not yet. -/
example : heard demo 2 = [(1, 7), (2, 7), (4, 7), (3, 7)] ∧ heard demo 0 = [] ∧ heard demo 1 = [] ∧
    ((run start (inTime ++ [.work 5])).map fun w => heard w 0) = some [(1, 7), (2, 7), (4, 7), (3, 7)] := by decide +kernel

/-- The extension that was added late has heard of the removal only. -/
example : heard demoLate 1 = [(3, 7)] := by decide +kernel

/-- The objects of a table cannot be used for another one; afterwards they can. -/
example : (run start (inTime ++ [.construct 7 3 0 .fifo .fifo 0 []])).isNone = true ∧
    (run start (inTime ++ [.destroy 5, .construct 7 3 0 .fifo .fifo 0 [0]])).isSome = true ∧
    (run start (inTime ++ [.destroy 6, .construct 7 3 0 .fifo .fifo 1 [2]])).isNone = true ∧
    (run start (inTime ++ [.destroy 6, .construct 7 3 0 .fifo .fifo 1 [1, 1]])).isNone = true := by decide +kernel

theorem run_some (h : (run start es).isSome = true) : run start es = some ((run start es).getD start) := by
  obtain ⟨w, hw⟩ := Option.isSome_iff_exists.mp h
  simp [hw]

theorem reachable : Reachable demoLate :=
  ⟨_, _, Path.of_run .refl (run_some (es := late) (by decide +kernel))⟩

/-- Both extensions of the table of the first demo have been added in time. -/
theorem reachableInTime : ReachableInTime demo := by
  have h : ∀ (es : List Event) (w w' : World), (∀ e ∈ es, ∀ tid x, e ≠ .addExtension tid x) → run w es = some w' → Path NotLate start w →
      Path NotLate start w' := by
    intro es
    induction es with
    | nil => intro w w' _ h hp; cases h; exact hp
    | cons e es ih =>
      intro w w' hn h hp
      simp only [run] at h
      split at h
      · rename_i w1 h1
        exact ih w1 w' (fun e he => hn e (by simp [he])) h
          (.step hp (fun tid x h => absurd h (hn e (by simp) tid x)) h1)
      · cases h
  refine ⟨_, _, h inTime start demo ?_ (run_some (by decide +kernel)) .refl⟩
  intro e he tid x
  simp only [inTime, use, List.mem_append, List.mem_cons, List.not_mem_nil, or_false] at he
  grind

/-- C118: without the condition that extensions are added before the workers are started, `C118_told_partial` is false. -/
theorem C118_late_is_false : ¬ ∀ w, Reachable w → ∀ tid b, w.tabs.get? tid = some b → ∀ x ∈ b.async,
    ∃ e, w.exts.get? x = some e ∧ e.heard ++ b.reqs = e.before ++ b.table.log.drop e.skipped := by
  intro h
  have h1 : (demoLate.tabs.get? 5).isSome = true := by decide +kernel
  obtain ⟨b, hb⟩ := Option.isSome_iff_exists.mp h1
  have h2 : ((demoLate.tabs.get? 5).map fun b => decide (1 ∈ b.async ∧ b.reqs = [] ∧ b.table.log.length = 4)) = some true := by decide +kernel
  rw [hb] at h2
  simp only [Option.map_some, Option.some.injEq, decide_eq_true_eq] at h2
  obtain ⟨e, he, heq⟩ := h _ reachable 5 b hb 1 h2.1
  have h3 : ((demoLate.exts.get? 1).map fun e => (e.heard.length, e.before.length, e.skipped)) = some (1, 0, 0) := by decide +kernel
  rw [he] at h3
  simp only [Option.map_some, Option.some.injEq, Prod.mk.injEq] at h3
  have := congrArg List.length heq
  simp [h2.2.1, h3.1, h3.2.1, h3.2.2, h2.2.2] at this

/-- The condition of `C118_late` is met. -/
example : ((demoLate.tabs.get? 5).map fun b => decide (b.hasAsync = false ∧ b.async = [1])) = some true := by decide +kernel

/-- A rate limiter that is used again. -/
example : ((run start (inTime ++ [.destroy 5, .construct 7 3 0 .fifo .fifo 0 [0]])).bind fun w => (w.tabs.get? 7).map fun b =>
    decide ((b.table.step (.insert (demoItem 7 1 10 100) 11 (draw 0))).2 = .err .cancelled)) = some true := by decide +kernel

/-- A table with an extension, and a table loaded in its place. -/
example : ((run start [.construct 5 3 0 .fifo .fifo 0 [0, 2],
      .load 5 8 9 ⟨3, 0, .fifo, .fifo, ⟨1, 1, -10, 10, 1, 0, 0, true⟩, 0, 0, [{ demoItem 7 1 10 100 with chunks := [] }]⟩ [⟨10, 100⟩],
      .destroy 5, .enableWorker 8, .op 8 (.sample 1 fun _ => draw 0)]).map fun w => (heard w 0, heard w 2)) =
    some ([(1, 7)], [(1, 7), (2, 7)]) := by decide +kernel

end Demo
end Wiring
end Verif
