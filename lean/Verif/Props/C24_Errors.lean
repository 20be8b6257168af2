import Verif.Props.TableDemo
/-
C24: requests cannot kill the table, and failed requests have no effect.
-/
namespace Verif
open Table (Op)

/-- C24, for requests whose priorities the selectors admit: no request is fatal, and a request that is
answered with an error leaves the table exactly as it was. What is missing: requests with other
priorities, for which both claims are false (`C24_false_fatal`, `C24_false_failed_insert_stays`,
`C24_false_failed_update_stays`). -/
theorem C24_no_fatal_request_partial (c : Config) (t : Table) (h : c.Reachable t) (op : Op) (hop : c.Admissible op) :
    (t.step op).2 ≠ .died ∧
    (∀ e, (t.step op).2 = .err e → (t.step op).1 = t ∧ (e = .cancelled ∨ e = .invalidArgument)) ∧
    ((t.step op).2 = .ok .blocked → (t.step op).1 = t) := by
  obtain ⟨mvs, _, hr, _⟩ := h.inv.step op (c.okFor hop)
  rcases hr with ⟨h1, _⟩ | ⟨h1, h2, _⟩ | ⟨l, h1, _⟩ | ⟨e, h1, h2, h3, _⟩
  all_goals
    rw [h1]
    simp_all

/-- C24 in full for tables without prioritized selectors: no sequence of requests with any arguments is
fatal. -/
theorem C24_no_fatal_sequence_unprioritized (c : Config) (hs : ∀ w, c.sampler ≠ .prio w)
    (hr : ∀ w, c.remover ≠ .prio w) (ops : List Op) :
    ∃ t, c.init.run ops = some t ∧ ∀ op, (t.step op).2 ≠ .died ∧
      ∀ e, (t.step op).2 = .err e → (t.step op).1 = t := by
  have hadm : ∀ op, c.Admissible op := c.admissible_of_not_prioritized hs hr
  obtain ⟨t, mvs, h1, _, _⟩ := Table.Inv.run ops c.inv_init (fun op _ => c.okFor (hadm op))
  refine ⟨t, h1, fun op => ?_⟩
  obtain ⟨a, b, _⟩ := C24_no_fatal_request_partial c t ⟨ops, fun op _ => hadm op, h1⟩ op (hadm op)
  exact ⟨a, fun e he => (b e he).1⟩

/-- An item with priority NaN. -/
def nanItem : Item := { demoItem 1 0 10 100 with priority := .nan }

/-- C24 is false in general: an insert with priority NaN into a table with prioritized sampler is
answered with an error but leaves the item behind (table.cc:514-519); the deletion of that key then fails
the check of table.cc:839 and the process dies. -/
theorem C24_false_fatal : ∃ (c : Config) (ops : List Op), c.init.run ops = none ∧
    c.init.replies ops = [.err .invalidArgument, .died] := by
  refine ⟨demoCfg, [.insert nanItem 1 (draw 0), .mutate [] [1]], ?_, by decide +kernel⟩
  have h : (demoCfg.init.run [.insert nanItem 1 (draw 0), .mutate [] [1]]).isNone = true := by decide +kernel
  simpa using h

/-- C24 is false in general: the rejected insert changes the table. -/
theorem C24_false_failed_insert_stays : ∃ (c : Config) (op : Op),
    (c.init.step op).2 = .err .invalidArgument ∧ (c.init.step op).1.size = 1 ∧ (c.init.step op).1.limiter.inserts = 0 :=
  ⟨demoCfg, .insert nanItem 1 (draw 0), by decide +kernel⟩

/-- C24 is false in general: a rejected priority update changes the stored priority
(table.cc:913-915), so the table and its selectors disagree. -/
theorem C24_false_failed_update_stays : ∃ (c : Config) (t : Table) (op : Op), c.Reachable t ∧
    (t.step op).2 = .err .invalidArgument ∧ ((t.step op).1.get 1).map Item.priority = some (.val (-1)) := by
  have h := Config.witness (c := demoCfg) (demoOps.take 2) (fun t => decide (
    (t.step (.mutate [(1, .val (-1))] [])).2 = .err .invalidArgument ∧
    ((t.step (.mutate [(1, .val (-1))] [])).1.get 1).map Item.priority = some (.val (-1))))
    (fun op h => demo_ok op (List.mem_of_mem_take h)) (by decide +kernel)
  obtain ⟨t, h1, h2⟩ := h
  exact ⟨demoCfg, t, _, h1, by simpa using h2⟩

/-! The hypotheses are met by the demonstration; an error reply in it: an item whose trajectory does not
match its chunks, and an insert after `Close`. -/
example : ∃ t, demoCfg.Reachable t ∧
    decide ((t.step (.insert { demoItem 9 1 10 100 with traj := [] } 1 (draw 0))).2 = .err .invalidArgument ∧
      (t.close.step (.insert (demoItem 9 1 10 100) 1 (draw 0))).2 = .err .cancelled) = true :=
  Config.witness demoOps _ demo_ok (by decide +kernel)

end Verif
