import Verif.Proofs.ClientInsert
import Verif.Props.C42_Writer
import Verif.Props.TableDemo
/-
C93: the calls that insert one piece of data into several tables.
-/
namespace Verif
namespace Writer

/-- The writer has made one item for each of the entries, in order, and nothing else; the items have different keys but one and the same trajectory, so that the data
is there only once; and each of them was written to a stream from which every server gets it with exactly this data. -/
def Inserted (w' : Writer) (data : Timestep) (entries : List (String × Pri)) : Prop :=
  w'.sent.map (fun it => (it.table, it.priority)) = entries ∧ (w'.sent.map WItem.key).Nodup ∧
    (∃ traj, ∀ it ∈ w'.sent, it.traj = traj) ∧
    ∀ it ∈ w'.sent, ∀ srv, ∃ s ∈ w'.streams, ∃ cache ins, serveAll srv .empty s = .ok (cache, ins) ∧
      ∃ chunks, (it, chunks) ∈ ins ∧ ShowsSteps it.traj chunks data.length [data]

theorem mapIdx_keys_nodup (gen : Nat → Key) (hg : ∀ i j, gen i = gen j → i = j) (d : Nat) (traj : FlatTraj) (l : List (String × Pri)) :
    ((l.mapIdx (itemOf gen d traj)).map WItem.key).Nodup := by
  rw [List.nodup_iff_pairwise_ne, List.pairwise_iff_getElem]
  intro i j hi hj hij
  simp only [List.getElem_map, List.getElem_mapIdx, itemOf]
  intro h
  have := hg _ _ h
  omega

/-- C93 for the calls: the step is appended, one item is made for each entry, and the writer is closed. -/
theorem insert_all {w w' : Writer} (hn : w.New) (h1 : w.chunkLength = 1) {data : Timestep} {entries : List (String × Pri)}
    {as as' : List (List Answer)} (hwf : ∀ t ∈ data, t.WF) (hf : ∀ i ≤ entries.length, .finish none ∉ as.getD i [])
    (h : callEach (insertCalls data entries ++ [.close true]) w as = (w', .ret none, as')) : Inserted w' data entries := by
  obtain ⟨w1, b1, b2⟩ := callEach_append h
  obtain ⟨⟨traj, hsent⟩, hpend, hdrawn, hgen⟩ := insert_sent hn h1 hf b1
  have hclose : ∃ as2, w1.close true ((as.drop (insertCalls data entries).length).headD []) = (w', .ret none, as2) := by
    unfold callEach at b2
    split at b2
    · rename_i w2 as2 he
      cases b2
      exact ⟨_, he⟩
    · rename_i w2 r x hne he2
      cases b2
      exact (hne rfl).elim
  obtain ⟨as2, hclose⟩ := hclose
  obtain ⟨hs', hp'⟩ := close_none_sent hpend hclose
  rw [hsent] at hs'
  refine ⟨?_, ?_, ⟨traj, ?_⟩, ?_⟩
  · rw [hs']
    apply List.ext_getElem
    · simp
    · intro i h2 h3
      simp [itemOf]
  · rw [hs']
    exact mapIdx_keys_nodup _ hn.keys _ _ _
  · intro it hit
    rw [hs', List.mem_mapIdx] at hit
    obtain ⟨i, hi, rfl⟩ := hit
    rfl
  · intro it hit srv
    rw [hs', List.mem_mapIdx] at hit
    obtain ⟨i, hi, hit⟩ := hit
    -- the calls before the one that makes this item, and those after it
    have hsplit : insertCalls data entries ++ [.close true] =
        insertCalls data (entries.take i) ++ (.createItem entries[i].1 1 entries[i].2 :: ((entries.drop (i + 1)).map fun e => Call.createItem e.1 1 e.2) ++ [.close true]) := by
      have : entries = entries.take i ++ entries[i] :: entries.drop (i + 1) := by
        rw [← List.drop_eq_getElem_cons hi, List.take_append_drop]
      simp only [insertCalls, List.cons_append, List.cons.injEq, true_and]
      have hm : (entries.map fun e => Call.createItem e.1 1 e.2) =
          ((entries.take i).map fun e => Call.createItem e.1 1 e.2) ++ Call.createItem entries[i].1 1 entries[i].2 ::
            (entries.drop (i + 1)).map fun e => Call.createItem e.1 1 e.2 := by
        have := congrArg (List.map fun e : String × Pri => Call.createItem e.1 1 e.2) this
        rw [List.map_append, List.map_cons] at this
        exact this
      rw [hm, List.append_assoc]
      rfl
    have hh := h
    rw [hsplit] at hh
    obtain ⟨w2, c1, c2⟩ := callEach_append hh
    have hfi : ∀ j ≤ (entries.take i).length, .finish none ∉ as.getD j [] := by
      intro j hj
      exact hf j (by rw [List.length_take] at hj; omega)
    obtain ⟨_, _, d3, d4⟩ := insert_sent hn h1 hfi c1
    obtain ⟨e1, _⟩ := callEach_ok c1
    obtain ⟨e2, _⟩ := callEach_ok h
    rw [hsplit, withAnswers_append] at e2
    have hok : (w2.createItem entries[i].1 (1 : Nat) entries[i].2 ((as.drop (insertCalls data (entries.take i)).length).headD [])).2.1 = .ret none := by
      simp only [List.cons_append, callEach] at c2
      split at c2
      · rename_i w3 as3 he
        have he : w2.createItem entries[i].1 1 entries[i].2 ((as.drop (insertCalls data (entries.take i)).length).headD []) = (w3, .ret none, as3) := he
        show (w2.createItem entries[i].1 1 entries[i].2 _).2.1 = _
        rw [he]
      · rename_i w3 r x hne he2
        cases c2
        exact (hne rfl).elim
    have hplain : ∀ e ∈ withAnswers (insertCalls data entries ++ [.close true]) as, Plain data.length e := by
      intro e he
      obtain ⟨j, j1, j2, j3⟩ := mem_withAnswers he
      obtain ⟨c, a⟩ := e
      dsimp only at j2 j3
      simp only [List.length_append, insertCalls, List.length_cons, List.length_map, List.length_nil] at j1
      rcases Nat.eq_zero_or_pos j with rfl | hj
      · simp only [insertCalls, List.cons_append, List.getElem?_cons_zero, Option.some.injEq] at j2
        subst j2
        exact ⟨rfl, hwf, by rw [j3]; exact hf 0 (Nat.zero_le _)⟩
      · obtain ⟨j, rfl⟩ : ∃ k, j = k + 1 := ⟨j - 1, by omega⟩
        simp only [insertCalls, List.cons_append, List.getElem?_cons_succ] at j2
        by_cases hjl : j < entries.length
        · rw [List.getElem?_append_left (by simpa using hjl)] at j2
          simp only [List.getElem?_map, List.getElem?_eq_getElem hjl, Option.map_some, Option.some.injEq] at j2
          subst j2
          exact ⟨by omega, by rw [j3]; exact hf (j + 1) (by omega)⟩
        · rw [List.getElem?_append_right (by simpa using hjl)] at j2
          have : j - (entries.map fun e => Call.createItem e.1 1 e.2).length = 0 := by simp only [List.length_map]; omega
          rw [this] at j2
          simp only [List.getElem?_cons_zero, Option.some.injEq] at j2
          subst j2
          trivial
    rw [hsplit, withAnswers_append] at hplain
    obtain ⟨hall, _⟩ := full_of_run hn (by omega) hplain e2
    simp only [List.cons_append, withAnswers] at hall e2
    obtain ⟨s, q1, cache, ins, q2, p, q3, q4, q5, q6, q7, q8, q9⟩ := C42_written_partial (n := 1) hn e1 hok e2 hp' hall srv
    have hpit : p.1 = it := by
      rw [hs', List.mem_mapIdx] at q4
      obtain ⟨j, hj, q4⟩ := q4
      have hkey : w.gen (3 + j) = w.gen (3 + i) := by
        have h4 : p.1.key = w.gen (3 + j) := by rw [← q4]; rfl
        rw [← h4, q5, d3, d4, List.length_take]
        congr 1
        omega
      have := hn.keys _ _ hkey
      have hji : j = i := by omega
      subst hji
      rw [← q4, ← hit]
    have hhist : w.history (withAnswers (insertCalls data (entries.take i)) as) = [data] := by
      simp only [insertCalls, withAnswers, history, history_items, List.append_nil]
      have : (w.append data (as.headD [])).2.1 = .ret none := by
        unfold insertCalls callEach at c1
        split at c1
        · rename_i w3 as3 he
          have he : w.append data (as.headD []) = (w3, .ret none, as3) := he
          rw [he]
        · rename_i w3 r x hne he2
          have hr : r = .ret none := congrArg (fun x => x.2.1) c1
          exact (hne hr).elim
      unfold appended
      dsimp only
      rw [if_pos this]
    rw [hhist] at q9
    refine ⟨s, q1, cache, ins, q2, p.2, ?_, ?_⟩
    · rw [← hpit]; exact q3
    · rw [← hpit]; exact q9

/-- C93 (partial): when the op returns without an error, the items were written to a stream, for all the tables and with the priorities that were given. Missing:
that the server has put them into the tables, see `C93_insert_is_false`, and streams that end with OK though a `Write` on them has
failed, see `C42_finish`. -/
theorem C93_op_partial {w w' : Writer} (hn : w.New) (h1 : w.chunkLength = 1) {data : Timestep} {tables : Vec String} {priorities : Vec Pri}
    {as : List (List Answer)} (hwf : ∀ t ∈ data, t.WF) (hf : ∀ i ≤ (tables.values.zip priorities.values).length, .finish none ∉ as.getD i [])
    (h : insertOp w data tables priorities as = (w', .ret none)) : Inserted w' data (tables.values.zip priorities.values) := by
  unfold insertOp at h
  split at h
  · cases h
  split at h
  · cases h
  obtain ⟨⟨w1, r, as1⟩, he⟩ : ∃ x, callEach (insertCalls data (tables.values.zip priorities.values) ++ [.close true]) w as = x := ⟨_, rfl⟩
  rw [he] at h
  cases h
  exact insert_all hn h1 hwf hf he

/-- C93 (partial) for the Python client. Missing: as for the op. -/
theorem C93_client_partial {w w' : Writer} (hn : w.New) (h1 : w.chunkLength = 1) {data : Timestep} {entries : List (String × Pri)}
    {as : List (List Answer)} (hwf : ∀ t ∈ data, t.WF) (hf : ∀ i ≤ entries.length, .finish none ∉ as.getD i [])
    (h : clientInsert w data entries as = (w', .ret none)) : entries ≠ [] ∧ Inserted w' data entries := by
  unfold clientInsert at h
  split at h
  · cases h
  rename_i hne
  refine ⟨hne, ?_⟩
  obtain ⟨⟨w1, r, as1⟩, he⟩ : ∃ x, callEach (insertCalls data entries) w as = x := ⟨_, rfl⟩
  rw [he] at h
  cases r with
  | blocked => cases h
  | died => cases h
  | ret r =>
    dsimp only at h
    obtain ⟨⟨w2, r2, as2⟩, he2⟩ : ∃ x, w1.close true (as1.headD []) = x := ⟨_, rfl⟩
    rw [he2] at h
    cases r2 with
    | blocked => cases h
    | died => cases h
    | ret r2 =>
      cases r2 with
      | some e => cases h
      | none =>
        have h2 : w2 = w' := congrArg Prod.fst h
        have h3 : r = none := Ret.ret.inj (congrArg Prod.snd h)
        subst h2
        subst h3
        refine insert_all hn h1 hwf hf (as' := as1.tail) (callEach_join he ?_)
        show callEach [.close true] w1 as1 = _
        unfold callEach
        rw [show w1.call (.close true) (as1.headD []) = w1.close true (as1.headD []) from rfl, he2]
        rfl

/-- C93: an insert without tables is refused by the Python client. -/
theorem C93_empty (w : Writer) (data : Timestep) (as : List (List Answer)) : clientInsert w data [] as = (w, .ret (some .invalidArgument)) := rfl

/-- C93: the op refuses tensors that are not of rank 1 or differ in shape. -/
theorem C93_shapes (w : Writer) (data : Timestep) (tables : Vec String) (priorities : Vec Pri) (as : List (List Answer))
    (h : tables.shape.length ≠ 1 ∨ priorities.shape.length ≠ 1 ∨ tables.shape ≠ priorities.shape) :
    insertOp w data tables priorities as = (w, .ret (some .invalidArgument)) := by
  unfold insertOp
  split
  · rfl
  · rename_i h1
    rw [if_pos]
    rcases h with h | h | h
    · exact absurd (.inl h) h1
    · exact absurd (.inr h) h1
    · exact h

namespace InsertDemo

/-- The writer of the op, and that of the Python client. -/
def op : Writer := .new 1 1 false none none id fun _ => false
def python : Writer := .new 1 1 false (some 25) none id fun _ => false

/-- A stream that breaks at the second item and is opened again. -/
def answers : List (List Answer) := [[], [.write true], [.write false, .finish (some .unavailable), .write true], [.finish none]]

/-- The hypotheses of `C93_op_partial` are met: two tables, the second stream gets the data again. -/
theorem demo : (∀ i ≤ 2, .finish none ∉ answers.getD i []) ∧
    ((insertOp op [Demo.x 1] ⟨[2], ["a", "b"]⟩ ⟨[2], [.val 1, .val 2]⟩ answers).2 = .ret none ∧
    (insertOp op [Demo.x 1] ⟨[2], ["a", "b"]⟩ ⟨[2], [.val 1, .val 2]⟩ answers).1.streams.map List.length = [2, 1, 0]) := by
  refine ⟨?_, by decide, by decide⟩
  intro i hi
  have : i = 0 ∨ i = 1 ∨ i = 2 := by omega
  rcases this with rfl | rfl | rfl <;> decide

/-- Those of `C93_client_partial`: both items are confirmed when the writer is closed. -/
theorem demo_python : (clientInsert python [Demo.x 1] [("a", .val 1), ("b", .val 2)]
    [[], [.write true], [.write true], [.confirms 2 false, .confirms 0 true, .finish none]]).2 = .ret none := by decide

end InsertDemo

/-- C93 does not hold in full: the server refuses the item because its priority is negative and the table is prioritized, so that the stream ends with InvalidArgument, and
the calls return without an error: `Close` only logs it. The Python client does not even hear that its item was not confirmed. -/
theorem C93_insert_is_false : (insertOp InsertDemo.op [Demo.x 1] ⟨[1], ["a"]⟩ ⟨[1], [.val (-1)]⟩ [[], [.write true], [.finish (some .invalidArgument)]]).2 = .ret none ∧
    (clientInsert InsertDemo.python [Demo.x 1] [("a", .val (-1))] [[], [.write true], [.confirms 0 true, .finish (some .invalidArgument)]]).2 = .ret none ∧
    (demoCfg.init.step (.insert (demoItem 1 (-1) 10 100) 14 (draw 0))).2 = .err .invalidArgument := by
  refine ⟨by decide, by decide, by decide +kernel⟩

end Writer
end Verif
