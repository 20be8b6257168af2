import Verif.Proofs.ObjectsMore
import Verif.Props.TableDemo
/-
C101: tables do not influence each other. A table of a program is what calls on this table alone have made of it, whatever else the program does
with other tables, selectors, limiters and servers; a table object shows the table that clients of its server reach.

This holds for programs that hand every selector and every limiter to one table (`C101_use_partial`, `C101_history_partial`) and for servers that find no
checkpoint (`C101_handle_partial`). A limiter is never shared (`C101_own_limiter`), since `reverb.Table` aborts the process instead (`C101_table`). A
selector can be shared, and then tables disturb each other (`C101_use_is_false`); a table that has one selector twice takes no new item
(`C101_one_selector`). A limiter that is used again after its table is gone makes a table that is closed from the start
(`C101_used_limiter`). After a restore the table object of the program shows another table than the server (`C101_restored_handle`).
-/
namespace Verif
namespace World
open Table (Op)

/-- C101, the arguments of a table: empty names and sizes below one raise a `ValueError`, a limiter that a table has already ends the process, and
everything else makes a new table. -/
theorem C101_table {program : List Stmt} {w w' : World} {a : TableArgs} {r : PyRes Out} (h : init.run program = some w)
    (hs : w.step (.table a) = some (w', r)) :
    (r = .raised .valueError ↔ a.name = "" ∨ a.maxSize ≤ 0) ∧
    (r = .died ↔ a.name ≠ "" ∧ 0 < a.maxSize ∧ ∃ (t : Nat) (o : TabObj), w.tab t = some o ∧ o.limiter = .py a.limiter) ∧
    (r = .ok .done ↔ a.name ≠ "" ∧ 0 < a.maxSize ∧ ∀ (t : Nat) (o : TabObj), w.tab t = some o → o.limiter ≠ .py a.limiter) ∧
    (r = .ok .done → w.tab w.numTabs = none ∧ ∃ o : TabObj, w'.tab w.numTabs = some o ∧ o.name = a.name ∧ o.sampler = .py a.sampler ∧
      o.remover = .py a.remover ∧ o.limiter = .py a.limiter ∧ (o.maxSize : Int) = a.maxSize ∧ o.data.entries = []) := by
  have hb := base_run h
  simp only [step, makeTable] at hs
  split at hs
  · split at hs
    · rename_i hn
      simp only [Option.some.injEq, Prod.mk.injEq] at hs
      obtain ⟨-, rfl⟩ := hs
      simp [hn]
    · rename_i hn
      split at hs
      · rename_i hm
        simp only [Option.some.injEq, Prod.mk.injEq] at hs
        obtain ⟨-, rfl⟩ := hs
        refine ⟨by simp [hm], ?_, ?_, by simp⟩
        · constructor
          · simp
          · rintro ⟨-, h2, -⟩; omega
        · constructor
          · simp
          · rintro ⟨-, h2, -⟩; omega
      · rename_i hm
        split at hs
        · rename_i t ht
          simp only [Option.some.injEq, Prod.mk.injEq] at hs
          obtain ⟨-, rfl⟩ := hs
          obtain ⟨o, h1, h2⟩ := hb.reg _ _ ht
          refine ⟨by simp [hn, hm], ?_, ?_, by simp⟩
          · simp only [true_iff]
            exact ⟨hn, by omega, t, o, h1, h2⟩
          · constructor
            · simp
            · rintro ⟨-, -, h3⟩; exact absurd h2 (h3 t o h1)
        · rename_i ht
          simp only [Option.some.injEq, Prod.mk.injEq] at hs
          obtain ⟨rfl, rfl⟩ := hs
          have free : ∀ (t : Nat) (o : TabObj), w.tab t = some o → o.limiter ≠ .py a.limiter := by
            intro t o ho e
            have := hb.own t o ho
            rw [e, ht] at this
            cases this
          refine ⟨by simp [hn, hm], ?_, ?_, fun _ => ⟨?_, _, View.upd_self _ _ _, rfl, rfl, rfl, rfl, ?_, rfl⟩⟩
          · constructor
            · simp
            · rintro ⟨-, -, t, o, h1, h2⟩; exact absurd h2 (free t o h1)
          · simp only [true_iff]
            exact ⟨hn, by omega, free⟩
          · cases hx : w.tab w.numTabs with
            | none => rfl
            | some o => exact absurd (hb.bound _ o hx) (Nat.lt_irrefl _)
          · show ((a.maxSize.toNat : Nat) : Int) = a.maxSize
            omega
  · cases hs

/-- C101, the limiter: in all programs, two tables never have the same one. -/
theorem C101_own_limiter {program : List Stmt} {w : World} {t t' : Nat} {o o' : TabObj} (h : init.run program = some w) (ho : w.tab t = some o)
    (ho' : w.tab t' = some o') (hne : t ≠ t') : o.limiter ≠ o'.limiter :=
  (base_run h).limiters_ne ho ho' hne

/-- C101, the names: in all programs, what a client reaches under a name is a table of that name. -/
theorem C101_served {program : List Stmt} {w : World} {s t : Nat} {name : String} (h : init.run program = some w) (hs : w.served s name = some t) :
    ∃ o : TabObj, w.tab t = some o ∧ o.name = name := by
  unfold served at hs
  split at hs
  · rename_i l hl
    have : (name, t) ∈ l := by
      have := List.lookup_eq_some_iff.mp hs
      obtain ⟨l1, l2, rfl, -⟩ := this
      simp
    exact (base_run h).hosts s l hl _ this
  · cases hs

/-- C101, full statement: whatever a program does, a call on a table does to that table what it does to a table of its own, and nothing to others.
False, see `C101_use_is_false`. -/
def Independent (program : List Stmt) : Prop :=
  ∀ (w : World) (t : Nat) (T : Table) (op : Op), init.run program = some w → w.table t = some T →
    ∃ (w' : World) (r : PyRes Out), w.step (.use t op) = some (w', r) ∧ (r = .died ↔ (T.step op).2 = .died) ∧
      (r ≠ .died → r = .ok (.answer (T.step op).2) ∧ w'.table t = some (T.step op).1 ∧ ∀ t' : Nat, t' ≠ t → w'.table t' = w.table t')

/-- C101, calls: this holds if the program hands every selector and every limiter to one table. -/
theorem C101_use_partial {program : List Stmt} (hsep : Separate program) : Independent program := by
  intro w t T op h hT
  have ha := apart_run hsep h
  obtain ⟨v, hv, rfl⟩ := table_some_view hT
  obtain ⟨ht, -⟩ := tab_of_view hv
  have sim := View.step_sim (ha.disjoint.split t v.t ht) op
  have f := (View.step_tame v op).1
  have other : ∀ t' : Nat, t' ≠ t → (w.put t (v.step op).1).table t' = w.table t' := fun t' hne => put_other ha.base ha.disjoint hv f hne
  rw [← sim.res, ← sim.tab]
  simp only [step, hv]
  split
  · rename_i hd
    exact ⟨_, _, rfl, by simp [hd], by simp⟩
  · rename_i r hd
    refine ⟨_, _, rfl, ?_, fun _ => ⟨rfl, put_self, other⟩⟩
    constructor
    · intro e; cases e
    · intro e; exact absurd e hd

/-- C101, histories: in such a program every table is what calls on it alone have made of a new table, or of one restored from a checkpoint. So what is
proved about the table alone (C06 to C24, C32 to C40, …) holds for it. -/
theorem C101_history_partial {program : List Stmt} {w : World} {t : Nat} {T : Table} (hsep : Separate program) (h : init.run program = some w)
    (hT : w.table t = some T) : OwnHistory T :=
  (apart_run hsep h).story t T hT

/-- C101, one selector twice: if a table has the same selector as sampler and as remover, then in all programs no insertion of a new item succeeds. -/
theorem C101_one_selector {w w' : World} {t : Nat} {o : TabObj} {i : Item} {now : Int} {d : Draw} {r : Table.Reply} (ho : w.tab t = some o)
    (hsame : o.sampler = o.remover) (hnew : o.data.get? i.key = none) (hs : w.step (.use t (.insert i now d)) = some (w', .ok (.answer (.ok r)))) :
    r = .blocked := by
  have hv := view_of_tab ho
  have hno : ∀ v : View, v.t.sampler = v.t.remover → ∀ x : Item, (v.insertNew x now d).2 ≠ .ok () := by
    intro v hsv x
    unfold View.insertNew
    dsimp only
    split
    · rename_i h1
      have h1' : ((v.objs.sel v.t.sampler).apply (.insert x.key x.priority)).2 = .ok () := h1
      have h2 := Sel.insert_twice _ _ _ h1'
      simp only [View.call, ← hsv, View.upd_self, h2]
      simp
    · rename_i e hne
      intro hc
      exact hne hc
  simp only [step, hv] at hs
  have hc : o.data.contains i.key = false := by
    rw [AMap.contains, hnew]; rfl
  have key : ∀ q : View × Res Table.Reply, q = View.step ⟨w.objs, o⟩ (.insert i now d) → q.2 = .ok r → r = .blocked := by
    intro q hq hr
    subst hq
    simp only [View.step, View.insertOrAssign, hc] at hr
    split at hr
    · cases hr
    · rw [if_neg (by simp)] at hr
      unfold View.insertResume at hr
      split at hr
      · cases hr
      · simpa using hr.symm
      · dsimp only at hr
        rw [hc, if_neg (by simp)] at hr
        have h1 := hno ⟨w.objs, o⟩ hsame i
        unfold View.reply at hr
        split at hr
        · rename_i h2; exact absurd h2 h1
        · cases hr
        · cases hr
  refine key _ rfl ?_
  split at hs
  · cases hs
  · rename_i x hx
    simp only [Option.some.injEq, Prod.mk.injEq, PyRes.ok.injEq, Out.answer.injEq] at hs
    exact hs.2

/-- C101, a limiter that is used again: if a limiter belonged to a table and belongs to another one later, it is cancelled, and every call that has to wait
for it — each insertion of a new item — is answered with `Cancelled`. -/
theorem C101_used_limiter {program rest : List Stmt} {w1 w2 : World} {t t' : Nat} {o o' : TabObj} (h1 : init.run program = some w1)
    (h2 : w1.run rest = some w2) (ho : w1.tab t = some o) (ho' : w2.tab t' = some o') (hne : t' ≠ t) (hsame : o'.limiter = o.limiter) :
    (w2.objs.lim o'.limiter).cancelled = true ∧
    ∀ (i : Item) (now : Int) (d : Draw), Table.itemValid i = true → o'.data.get? i.key = none →
      ∃ w3, w2.step (.use t' (.insert i now d)) = some (w3, .ok (.answer (.err .cancelled))) ∧ w3.table t' = w2.table t' := by
  have hsp := spent_run (spent_of_tab (base_run h1) ho) h2
  have hc : (w2.objs.lim o'.limiter).cancelled = true := by
    rcases hsp.cases' with ⟨x, hx1, hx2⟩ | ⟨-, hx⟩
    · exact absurd (hsame.trans hx2.symm) (hsp.base.limiters_ne ho' hx1 hne)
    · rw [hsame]; exact hx
  refine ⟨hc, fun i now d hi hnew => ?_⟩
  have hv := view_of_tab ho'
  have hn : o'.data.contains i.key = false := by
    rw [AMap.contains, hnew]; rfl
  have hst : View.step ⟨w2.objs, o'⟩ (.insert i now d) = (⟨w2.objs, o'⟩, .err .cancelled) := by
    simp [View.step, View.insertOrAssign, hi, hn, View.insertResume, View.limiter, Limiter.awaitInsert, hc]
  refine ⟨w2.put t' ⟨w2.objs, o'⟩, ?_, ?_⟩
  · simp only [step, hv, hst]
  · rw [put_self, World.table, hv]
    rfl

/-- C101, the arguments of a server: no tables, or two tables of one name, raise a `ValueError`. -/
theorem C101_server {w w' : World} {ts : List Nat} {found : Option ServerCkpt.Saved} {r : PyRes Out} (hs : w.step (.server ts found) = some (w', r))
    (hbad : ts = [] ∨ ¬ (ts.map fun t => (w.tab t).map TabObj.name).Nodup) : r = .raised .valueError ∧ w' = w := by
  simp only [step, makeServer] at hs
  split at hs
  · cases hs
  · rename_i l hl
    have h1 := (names_eq hl).1
    split at hs
    · simp only [Option.some.injEq, Prod.mk.injEq] at hs
      exact ⟨hs.2.symm, hs.1.symm⟩
    · rename_i hne
      split at hs
      · simp only [Option.some.injEq, Prod.mk.injEq] at hs
        exact ⟨hs.2.symm, hs.1.symm⟩
      · rename_i hn
        rcases hbad with rfl | hbad
        · exact absurd (List.map_eq_nil_iff.mp h1) hne
        · exact absurd ((names_nodup hl).mp (Classical.not_not.mp hn)) hbad

/-- C101, table objects, full statement: a client of a server reaches the table objects that the server was given. False, see `C101_handle_is_false`. -/
def Shown (found : Option ServerCkpt.Saved) : Prop :=
  ∀ (program : List Stmt) (w w' : World) (ts : List Nat) (t : Nat) (o : TabObj), init.run program = some w →
    w.step (.server ts found) = some (w', .ok .done) → t ∈ ts → w.tab t = some o → w'.served w.servers.length o.name = some t

/-- C101, table objects: a client reaches them if the server finds no checkpoint. -/
theorem C101_handle_partial : Shown none := by
  intro program w w' ts t o _ hs hmem ho
  simp only [step, makeServer] at hs
  split at hs
  · cases hs
  · rename_i l hl
    obtain ⟨h1, -, h3⟩ := names_eq hl
    split at hs
    · simp at hs
    · split at hs
      · simp at hs
      · rename_i hn
        simp only [Option.some.injEq, Prod.mk.injEq, and_true] at hs
        subst hs
        rw [← h1] at hmem
        obtain ⟨x, hx, rfl⟩ := List.mem_map.mp hmem
        obtain ⟨o', h4, h5, -⟩ := h3 x hx
        rw [ho] at h4
        obtain rfl := Option.some.inj h4
        simp only [served, List.getElem?_concat_length]
        rw [h5]
        exact lookup_of_mem (Classical.not_not.mp hn) hx

/-- C101, table objects: what a client reaches under a name stays the same until the server is deleted. -/
theorem C101_same_object {w w' : World} {rest : List Stmt} {s t : Nat} {name : String} (hs : w.served s name = some t) (hr : w.run rest = some w') :
    w'.served s name = some t ∨ w'.servers[s]? = some none := by
  unfold served at hs
  split at hs
  · rename_i l hl
    rcases server_run hr hl with h | h
    · left
      simp only [served, h]
      exact hs
    · exact .inr h
  · cases hs

/-- C101, table objects: if the server finds a checkpoint with a table of this name, then clients reach the restored table, which is another one, and the
table object of the program still shows what it showed before. -/
theorem C101_restored_handle {program : List Stmt} {w w' : World} {ts : List Nat} {saved : ServerCkpt.Saved} {x : Out} {t : Nat} {o : TabObj}
    (h : init.run program = some w) (hs : w.step (.server ts (some saved)) = some (w', .ok x)) (hmem : t ∈ ts) (ho : w.tab t = some o) :
    w'.table t = w.table t ∧
    (o.name ∉ saved.tables.map Prod.fst → w'.served w.servers.length o.name = some t) ∧
    (o.name ∈ saved.tables.map Prod.fst → ∃ (t' : Nat) (c : Checkpoint) (b : Table), w'.served w.servers.length o.name = some t' ∧ t' ≠ t ∧
      (o.name, c) ∈ saved.tables ∧ restore c saved.chunks = .ok b ∧ w'.table t' = some b) := by
  have hb := base_run h
  simp only [step, makeServer] at hs
  split at hs
  · cases hs
  · rename_i l hl
    obtain ⟨h1, -, h3⟩ := names_eq hl
    split at hs
    · simp at hs
    · split at hs
      · simp at hs
      · rename_i hn
        have hn := Classical.not_not.mp hn
        split at hs
        · rename_i w1 l1 hld
          simp only [Option.some.injEq, Prod.mk.injEq] at hs
          obtain ⟨rfl, -⟩ := hs
          obtain ⟨e1, e2, e3, e4, e5, e6⟩ := load_effect saved.chunks saved.tables w l w1 l1 hb hn hld
          have hnamed : Named w1 l1 := (load_induct saved.chunks (fun w l => Base w ∧ Named w l)
            (fun w l i name c b hq hr _ => ⟨hq.1.adopt name b, hq.2.adopt hq.1 i name b⟩) saved.tables w l w1 l1 ⟨hb, named_names hl⟩ hld).2
          have hb1 : Base { w1 with servers := w1.servers ++ [some l1] } := e1.addServer hnamed
          rw [← h1] at hmem
          obtain ⟨y, hy, rfl⟩ := List.mem_map.mp hmem
          obtain ⟨o', h4, h5, h6⟩ := h3 y hy
          rw [ho] at h4
          obtain rfl := Option.some.inj h4
          have hlt := hb.bound _ _ ho
          obtain ⟨i, hi⟩ := List.getElem?_of_mem hy
          obtain ⟨t', q1, q2⟩ := e6 i y.1 y.2 hi
          have hserved : ∀ ts', (({ w1 with servers := w1.servers ++ [some l1] } : World).collect ts').served w.servers.length o.name = some t' := by
            intro ts'
            simp only [served, collect_servers, ← e3, List.getElem?_concat_length]
            rw [h5]
            exact lookup_of_mem (by rw [e2]; exact hn) (List.mem_of_getElem? q1)
          have hkeep : ∀ ts', (({ w1 with servers := w1.servers ++ [some l1] } : World).collect ts').table t' = w1.table t' := by
            intro ts'
            obtain ⟨o1, p1, -⟩ := hnamed (y.1, t') (List.mem_of_getElem? q1)
            refine (collect_held hb1 (show ({ w1 with servers := w1.servers ++ [some l1] } : World).tab t' = some o1 from p1) (.inr ?_)).2
            simp only [hosted, List.any_append, Bool.or_eq_true]
            right
            simp only [List.any_cons, List.any_nil, Bool.or_false, Option.any_some, List.any_eq_true]
            exact ⟨(y.1, t'), List.mem_of_getElem? q1, by simp⟩
          refine ⟨?_, ?_, ?_⟩
          · have p1 := (e5 y.2 hlt).1
            have := (collect_held (ts := List.range ({ w1 with servers := w1.servers ++ [some l1] } : World).numTabs) hb1
              (show ({ w1 with servers := w1.servers ++ [some l1] } : World).tab y.2 = some o from p1.trans ho) (.inl h6)).2
            exact this.trans (e5 y.2 hlt).2
          · intro hnot
            rw [hserved]
            rcases q2 with ⟨rfl, -⟩ | ⟨q3, -⟩
            · rfl
            · rw [h5] at hnot; exact absurd q3 hnot
          · intro hin
            rcases q2 with ⟨-, q3⟩ | ⟨-, q4, c, b, q5, q6, q7⟩
            · rw [h5] at hin; exact absurd hin q3
            · refine ⟨t', c, b, hserved _, by omega, by rw [h5]; exact q5, q6, ?_⟩
              rw [hkeep]
              exact q7
        · simp at hs
        · simp at hs

/-- C101, stopping: `Server.stop` closes the tables of this server, also if another server has them too, and does nothing to other tables. -/
theorem C101_stop {program : List Stmt} {w w' : World} {s t : Nat} {T : Table} {r : PyRes Out} (h : init.run program = some w)
    (hs : w.step (.stop s) = some (w', r)) (hT : w.table t = some T) :
    (w.Hosts s t → w'.table t = some { T with limiter := T.limiter.cancel }) ∧ (¬ w.Hosts s t → w'.table t = some T) := by
  simp only [step] at hs
  split at hs
  · rename_i l hl
    simp only [Option.some.injEq, Prod.mk.injEq] at hs
    obtain ⟨rfl, -⟩ := hs
    have hh : w.Hosts s t ↔ ∃ x ∈ l, x.2 = t := by
      unfold Hosts
      constructor
      · rintro ⟨l', name, h1, h2⟩
        rw [hl] at h1
        obtain rfl := Option.some.inj (Option.some.inj h1)
        exact ⟨_, h2, rfl⟩
      · rintro ⟨x, h1, rfl⟩
        exact ⟨l, x.1, hl, h1⟩
    rw [closeAll_table (base_run h), hT]
    constructor
    · intro hx
      simp only [Option.map_some, if_pos (hh.mp hx)]
    · intro hx
      simp only [Option.map_some, if_neg (fun hy => hx (hh.mpr hy))]
  · cases hs

end World

namespace ObjectsDemo
open World

/-- Two tables with objects of their own, a server, inserts, samples, and a table that is forgotten after the server is. -/
def program : List Stmt :=
  [.selector (.prio powOne), .selector .fifo, .selector .uniform, .selector .lifo, .limiter 3 2 (-2) 13, .limiter 1 1 (-100) 100,
   .table ⟨"a", 0, 1, 3, 0, 2⟩, .table ⟨"b", 2, 3, 2, 1, 0⟩, .server [0, 1] none] ++
  (demoOps.map fun op => .use 0 op) ++
  [.use 1 (.insert (demoItem 7 1 20 200) 3 (draw 0)), .use 1 (.insert (demoItem 8 1 20 200) 3 (draw 0)), .use 1 (.insert (demoItem 9 1 21 200) 3 (draw 0)),
   .use 1 (.sample 1 fun _ => draw 1), .use 0 (.sample 1 fun _ => draw 0)]

/-- What is seen of a table in the end: its items with their sample counts. -/
def seen (w : Option World) (t : Nat) : Option (List (Key × Int)) := (w.bind fun w => w.table t).map summary

/-- The program hands over everything once, and runs. -/
theorem separate : Separate program := by unfold Separate; decide +kernel

theorem runs : (init.run program).isSome = true ∧ seen (init.run program) 0 = some [(4, 0)] ∧ seen (init.run program) 1 = some [(8, 1), (7, 0)] := by
  decide +kernel

/-- `C101_use_partial` and `C101_history_partial` are about this program. -/
theorem demo_use : Independent program ∧ ∃ w T, init.run program = some w ∧ w.table 1 = some T ∧ summary T = [(8, 1), (7, 0)] ∧ OwnHistory T := by
  refine ⟨C101_use_partial separate, ?_⟩
  obtain ⟨h1, -, h3⟩ := runs
  obtain ⟨w, hw⟩ := Option.isSome_iff_exists.mp h1
  rw [hw] at h3
  simp only [seen, Option.bind_some, Option.map_eq_some_iff] at h3
  obtain ⟨T, hT, hs⟩ := h3
  exact ⟨w, T, hw, hT, hs, C101_history_partial separate hw hT⟩

/-- The answer to a statement after a program. -/
def answer (p : List Stmt) (s : Stmt) : Option (PyRes (Res Table.Reply)) :=
  (init.run p).bind fun w => (w.step s).map fun x =>
    match x.2 with
    | .ok (.answer r) => .ok r
    | .ok .done => .ok (.ok .done)
    | .raised e => .raised e
    | .died => .died

/-- The samples in an answer. -/
def keysOf : PyRes (Res Table.Reply) → List (Key × Int × Int)
  | .ok r => sampledKeys r
  | _ => []

/-- What the sampler of a table gives. -/
def picks (w : Option World) (t : Nat) : Option (Res (Key × Rat)) := (w.bind fun w => w.table t).map fun T => T.sampler.sample (draw 0)

/-- Two tables with one sampler. -/
def shared : List Stmt :=
  [.selector .lifo, .selector .fifo, .selector .fifo, .limiter 1 1 (-100) 100, .limiter 1 1 (-100) 100, .table ⟨"a", 0, 1, 3, 0, 0⟩, .table ⟨"b", 0, 2, 3, 1, 0⟩,
   .use 1 (.insert (demoItem 2 1 11 100) 4 (draw 0))]

/-- An insertion into the other table. -/
def intoOther : Stmt := .use 0 (.insert (demoItem 1 1 10 100) 3 (draw 0))

/-- Sampling from the second table works; after an insertion into the first one it ends the process. -/
theorem shared_dies : (answer shared (.use 1 (.sample 1 fun _ => draw 0))).map keysOf = some [(2, 1, 1)] ∧ answer shared intoOther = some (.ok (.ok .done)) ∧
    answer (shared ++ [intoOther]) (.use 1 (.sample 1 fun _ => draw 0)) = some .died := by
  refine ⟨by decide +kernel, by decide +kernel, by decide +kernel⟩

end ObjectsDemo

namespace World
open ObjectsDemo

/-- C101 in full is false: with a shared selector, an insertion into one table changes what is sampled from the other. -/
theorem C101_use_is_false : ¬ ∀ program : List Stmt, Independent program := by
  intro hall
  have h1 : (init.run shared).isSome = true := by decide +kernel
  have h2 : picks (init.run shared) 1 ≠ picks (init.run (shared ++ [intoOther])) 1 := by decide +kernel
  have h3 : ((init.run shared).bind fun w => w.table 0).isSome = true := by decide +kernel
  have h4 : answer shared intoOther ≠ some .died := by decide +kernel
  obtain ⟨w, hw⟩ := Option.isSome_iff_exists.mp h1
  obtain ⟨T, hT⟩ := Option.isSome_iff_exists.mp (show (w.table 0).isSome = true by simpa [hw] using h3)
  obtain ⟨w', r, hs, -, h5⟩ := hall shared w 0 T (.insert (demoItem 1 1 10 100) 3 (draw 0)) hw hT
  have hr : r ≠ .died := by
    intro e
    subst e
    apply h4
    simp only [answer, hw, intoOther, Option.bind_some, hs, Option.map_some]
  obtain ⟨-, -, h6⟩ := h5 hr
  apply h2
  have hrun : ∀ (p : List Stmt) (w0 : World), w0.run p = some w → w0.run (p ++ [intoOther]) = some w' := by
    intro p
    induction p with
    | nil =>
      intro w0 h
      simp only [run, Option.some.injEq] at h
      subst h
      simp only [List.nil_append, run, intoOther, hs]
    | cons s p ih =>
      intro w0 h
      simp only [List.cons_append, run] at h ⊢
      split at h
      · cases h
      · cases h
      · rename_i w1 r1 hd hs1
        exact ih w1 h
  rw [hrun shared init hw, hw]
  simp only [picks, Option.bind_some, h6 1 (by decide)]

end World

namespace ObjectsDemo
open World

/-- A table with one selector as sampler and as remover. -/
def twice : List Stmt := [.selector .uniform, .limiter 1 1 (-100) 100, .table ⟨"a", 0, 0, 3, 0, 0⟩]

/-- The first insertion fails, but the item is in the table and can be sampled; its deletion ends the process. -/
theorem demo_twice : answer twice intoOther = some (.ok (.err .invalidArgument)) ∧ seen (init.run (twice ++ [intoOther])) 0 = some [(1, 0)] ∧
    answer (twice ++ [intoOther]) (.use 0 (.mutate [] [1])) = some .died := by
  refine ⟨by decide +kernel, by decide +kernel, by decide +kernel⟩

/-- Two tables with a limiter each. -/
def first : List Stmt :=
  [.selector .uniform, .selector .fifo, .selector .lifo, .selector .fifo, .limiter 1 1 (-100) 100, .table ⟨"a", 0, 1, 3, 0, 0⟩, intoOther]

/-- The table goes, and its limiter is given to another table. -/
def second : List Stmt := [.forget 0, .table ⟨"b", 2, 3, 3, 0, 0⟩]

/-- While the first table is there the second one cannot be made; then it can, but takes nothing (`C101_used_limiter`). -/
theorem demo_used : answer first (.table ⟨"b", 2, 3, 3, 0, 0⟩) = some .died ∧ (init.run (first ++ second)).isSome = true ∧
    answer (first ++ second) (.use 1 (.insert (demoItem 5 1 15 100) 9 (draw 0))) = some (.ok (.err .cancelled)) := by
  refine ⟨by decide +kernel, by decide +kernel, by decide +kernel⟩

/-- A checkpoint of a table with one item. -/
def saved : ServerCkpt.Saved :=
  ⟨[("a", ⟨3, 0, .uniform, .fifo, ⟨1, 1, -100, 100, 1, 0, 0, false⟩, 0, 0, [(demoItem 6 1 10 100).proto]⟩)], [⟨10, 100⟩]⟩

/-- A program that gives a table to two servers, the second of which finds the checkpoint. -/
def twoServers : List Stmt :=
  [.selector .uniform, .selector .fifo, .limiter 1 1 (-100) 100, .table ⟨"a", 0, 1, 3, 0, 0⟩, .server [0] none, .server [0] (some saved)]

/-- Does a statement end without an exception? -/
def made : Option World → Stmt → Bool
  | some w, s =>
    match w.step s with
    | some (_, .ok .done) => true
    | _ => false
  | none, _ => false

/-- The table that a client of a server reaches. -/
def reached (w : Option World) (s : Nat) (name : String) : Option Nat := w.bind fun w => w.served s name

/-- The second server serves the restored table with the item, the table object shows an empty table. -/
theorem demo_handle : reached (init.run twoServers) 0 "a" = some 0 ∧ reached (init.run twoServers) 1 "a" = some 1 ∧
    seen (init.run twoServers) 0 = some [] ∧ seen (init.run twoServers) 1 = some [(6, 0)] := by
  refine ⟨by decide +kernel, by decide +kernel, by decide +kernel, by decide +kernel⟩

/-- Two servers of one table: if one is stopped, the other one does not take items any more (`C101_stop`). -/
theorem demo_stop : answer [.selector .uniform, .selector .fifo, .limiter 1 1 (-100) 100, .table ⟨"a", 0, 1, 3, 0, 0⟩, .server [0] none, .server [0] none, .stop 0]
    intoOther = some (.ok (.err .cancelled)) := by decide +kernel

end ObjectsDemo

namespace World
open ObjectsDemo

/-- C101, table objects, is false for servers that find a checkpoint. -/
theorem C101_handle_is_false : ¬ ∀ found : Option ServerCkpt.Saved, Shown found := by
  intro h
  have h1 : (init.run (twoServers.take 5)).isSome = true := by decide +kernel
  obtain ⟨w, hw⟩ := Option.isSome_iff_exists.mp h1
  have h2 : ((init.run (twoServers.take 5)).bind fun w => w.tab 0).isSome = true := by decide +kernel
  rw [hw, Option.bind_some] at h2
  obtain ⟨o, ho⟩ := Option.isSome_iff_exists.mp h2
  have h3 : made (init.run (twoServers.take 5)) (.server [0] (some saved)) = true := by decide +kernel
  have h4 : ((init.run (twoServers.take 5)).bind fun w => w.tab 0).map TabObj.name = some "a" := by decide +kernel
  simp only [hw, Option.bind_some, ho, Option.map_some, Option.some.injEq] at h4
  simp only [hw, made] at h3
  split at h3
  · rename_i w' hs
    have h5 := h (some saved) (twoServers.take 5) w w' [0] 0 o hw hs (by simp) ho
    obtain ⟨t', -, -, h6, h7, -⟩ := (C101_restored_handle hw hs (by simp) ho).2.2 (by rw [h4]; decide)
    rw [h5] at h6
    exact h7 (Option.some.inj h6).symm
  · cases h3

end World
end Verif
