import Verif.Model.TFInsert
import Verif.Spec.TFInsert
import Verif.Props.C93_Insert
/-
C113: the checks of `TFClient.insert`, when the graph is made and when it is run.
-/
namespace Verif
namespace TFInsert

theorem rank_one {t : TensorSpec} : rank t = some 1 ↔ ∃ d, t.shape = some [d] := by
  unfold rank
  cases t.shape with
  | none => simp
  | some dims =>
    match dims with
    | [] => simp
    | [d] => simp
    | _ :: _ :: _ => simp

theorem compatible_one (a b : Option Nat) : PShape.compatible (some [a]) (some [b]) = true ↔ ∀ m n, a = some m → b = some n → m = n := by
  cases a <;> cases b <;> simp [PShape.compatible, dimsCompatible]

/-- C113: the op is made, or `ValueError` is raised; the op is made exactly if the types are right, both ranks are known to be 1 and the lengths are not known to differ. -/
theorem C113_checks (tables priorities : TensorSpec) :
    (build tables priorities = .ok () ∨ build tables priorities = .raised .valueError) ∧
    (build tables priorities = .ok () ↔ tables.dtype = .string ∧ priorities.dtype = .double ∧
      ∃ a b, tables.shape = some [a] ∧ priorities.shape = some [b] ∧ ∀ m n, a = some m → b = some n → m = n) := by
  unfold build
  split
  · rename_i h
    refine ⟨.inr rfl, ⟨nofun, ?_⟩⟩
    rintro ⟨h1, -, a, b, h2, -⟩
    rcases h with h | h
    · exact absurd h1 h
    · exact absurd (rank_one.mpr ⟨a, h2⟩) h
  · rename_i h
    have ht : tables.dtype = .string := Classical.byContradiction fun x => h (.inl x)
    obtain ⟨a, ha⟩ := rank_one.mp (Classical.byContradiction fun x => h (.inr x))
    split
    · rename_i h'
      refine ⟨.inr rfl, ⟨nofun, ?_⟩⟩
      rintro ⟨-, h1, a, b, -, h2, -⟩
      rcases h' with h | h
      · exact absurd h1 h
      · exact absurd (rank_one.mpr ⟨b, h2⟩) h
    · rename_i h'
      have hp : priorities.dtype = .double := Classical.byContradiction fun x => h' (.inl x)
      obtain ⟨b, hb⟩ := rank_one.mp (Classical.byContradiction fun x => h' (.inr x))
      rw [ha, hb]
      split
      · rename_i hc
        refine ⟨.inr rfl, ⟨nofun, ?_⟩⟩
        rintro ⟨-, -, a', b', h1, h2, h3⟩
        simp only [Option.some.injEq, List.cons.injEq, and_true] at h1 h2
        subst h1; subst h2
        exact absurd ((compatible_one _ _).mpr h3) hc
      · rename_i hc
        exact ⟨.inl rfl, fun _ => ⟨ht, hp, a, b, rfl, rfl, (compatible_one _ _).mp (Classical.not_not.mp hc)⟩, fun _ => rfl⟩

theorem dims_one {a : Option Nat} {ns : List Nat} (h : DimsOf [a] ns) : ∃ n, ns = [n] ∧ ∀ m, a = some m → m = n := by
  match ns, h with
  | [n], h => exact ⟨n, rfl, h.1⟩

/-- C113 (partial): arguments that are not right have no effect and raise an exception, when the graph is made or when it is run; and right arguments whose ranks are
known pass both checks, so that the step and the items are written. Missing: that the exception is always `ValueError`, see `C113_late_is_false`, and right
arguments of unknown rank, see `C113_rank_is_false`. -/
theorem C113_insert_partial {tables priorities : TensorSpec} {names : Vec String} {values : Vec Pri} (ht : IsValueOf tables names.shape)
    (hp : IsValueOf priorities values.shape) (w : Writer) (data : Timestep) (as : List (List Answer)) :
    (¬ Right tables.dtype priorities.dtype names.shape values.shape → (insert w data tables priorities names values as).1 = w ∧
      ((insert w data tables priorities names values as).2 = some (.raised .valueError) ∨
        (insert w data tables priorities names values as).2 = some (.raised (.status .invalidArgument)))) ∧
    (Right tables.dtype priorities.dtype names.shape values.shape → tables.shape ≠ none → priorities.shape ≠ none →
      ∃ w' r as', callEach (.append data :: (names.values.zip values.values).map (fun e => .createItem e.1 1 e.2) ++ [.close true]) w as = (w', r, as') ∧
        insert w data tables priorities names values as = (w', raise r)) := by
  obtain ⟨hb, hiff⟩ := C113_checks tables priorities
  constructor
  · intro hr
    unfold insert
    rcases hb with hb | hb
    · rw [hb]
      obtain ⟨h1, h2, a, b, h3, h4, h5⟩ := hiff.mp hb
      have : insertOp w data names values as = (w, .ret (some .invalidArgument)) := by
        apply Writer.C93_shapes
        obtain ⟨n, hn, -⟩ := dims_one (ht _ h3)
        obtain ⟨m, hm, -⟩ := dims_one (hp _ h4)
        right; right
        intro he
        exact hr ⟨h1, h2, n, hn, by rw [← he, hn]⟩
      dsimp only
      rw [this]
      exact ⟨rfl, .inr rfl⟩
    · rw [hb]
      exact ⟨rfl, .inl rfl⟩
  · rintro ⟨h1, h2, n, h3, h4⟩ k1 k2
    have one : ∀ t : TensorSpec, t.shape ≠ none → IsValueOf t [n] → ∃ a, t.shape = some [a] ∧ ∀ m, a = some m → m = n := by
      intro t hk hv
      cases hs : t.shape with
      | none => exact absurd hs hk
      | some dims =>
        have := hv _ hs
        match dims, this with
        | [a], this => exact ⟨a, rfl, this.1⟩
    obtain ⟨a, a1, a2⟩ := one tables k1 (h3 ▸ ht)
    obtain ⟨b, b1, b2⟩ := one priorities k2 (h4 ▸ hp)
    have hb : build tables priorities = .ok () := hiff.mpr ⟨h1, h2, a, b, a1, b1, fun m m' hm hm' => (a2 m hm).trans (b2 m' hm').symm⟩
    obtain ⟨⟨w', r, as'⟩, he⟩ : ∃ x, callEach (insertCalls data (names.values.zip values.values) ++ [.close true]) w as = x := ⟨_, rfl⟩
    refine ⟨w', r, as', he, ?_⟩
    have : insertOp w data names values as = (w', r) := by
      unfold insertOp
      rw [if_neg (by rw [h3, h4]; simp), if_neg (by rw [h3, h4]; simp), he]
    unfold insert
    rw [hb]
    dsimp only
    rw [this]

/-- C113: in a program that runs eagerly `ValueError` is raised exactly for arguments that are not right, as documented. -/
theorem C113_eager {tables priorities : TensorSpec} {names : Vec String} {values : Vec Pri} (ht : Eager tables names.shape) (hp : Eager priorities values.shape)
    (w : Writer) (data : Timestep) (as : List (List Answer)) :
    (insert w data tables priorities names values as).2 = some (.raised .valueError) ↔ ¬ Right tables.dtype priorities.dtype names.shape values.shape := by
  obtain ⟨hb, hiff⟩ := C113_checks tables priorities
  unfold insert
  constructor
  · rintro h ⟨h1, h2, n, h3, h4⟩
    have : build tables priorities = .ok () := hiff.mpr ⟨h1, h2, some n, some n, by rw [ht, h3]; rfl, by rw [hp, h4]; rfl, by rintro _ _ ⟨⟩ ⟨⟩; rfl⟩
    rw [this] at h
    dsimp only at h
    cases hr : (insertOp w data names values as).2 with
    | ret o => rw [hr] at h; cases o <;> cases h
    | blocked => rw [hr] at h; cases h
    | died => rw [hr] at h; cases h
  · intro hr
    rcases hb with hb | hb
    · obtain ⟨h1, h2, a, b, h3, h4, h5⟩ := hiff.mp hb
      refine absurd ⟨h1, h2, ?_⟩ hr
      rw [ht] at h3
      rw [hp] at h4
      simp only [Option.some.injEq] at h3 h4
      obtain ⟨n, hn, rfl⟩ := List.map_eq_singleton_iff.mp h3
      obtain ⟨m, hm, rfl⟩ := List.map_eq_singleton_iff.mp h4
      exact ⟨n, hn, by rw [hm, h5 n m rfl rfl]⟩
    · rw [hb]

/-- C113 (partial): after an insert that raises nothing, the arguments were right and the `i`-th item was written for the `i`-th table with the `i`-th priority, all of
them with the data. Missing: as for `C93_op_partial`. -/
theorem C113_inserted_partial {w w' : Writer} (hn : w.New) (h1 : w.chunkLength = 1) {data : Timestep} {tables priorities : TensorSpec} {names : Vec String}
    {values : Vec Pri} {as : List (List Answer)} (ht : IsValueOf tables names.shape) (hp : IsValueOf priorities values.shape) (hwf : ∀ t ∈ data, t.WF)
    (hf : ∀ i ≤ (names.values.zip values.values).length, .finish none ∉ as.getD i [])
    (h : insert w data tables priorities names values as = (w', some (.ok ()))) :
    Right tables.dtype priorities.dtype names.shape values.shape ∧ Writer.Inserted w' data (names.values.zip values.values) := by
  constructor
  · refine Classical.byContradiction fun hr => ?_
    have := ((C113_insert_partial ht hp w data as).1 hr).2
    rw [h] at this
    rcases this with h | h <;> cases h
  · unfold insert at h
    split at h
    · obtain ⟨⟨w1, r⟩, he⟩ : ∃ x, insertOp w data names values as = x := ⟨_, rfl⟩
      rw [he] at h
      have h2 : w1 = w' := congrArg Prod.fst h
      have h3 : raise r = some (.ok ()) := congrArg Prod.snd h
      subst h2
      match r, h3 with
      | .ret none, _ => exact Writer.C93_op_partial hn h1 hwf hf he
    · cases h
    · cases h

namespace Demo
/-- Vectors of two and of unknown length. -/
def names : TensorSpec := ⟨.string, some [some 2]⟩
def prios : TensorSpec := ⟨.double, some [none]⟩
def op : Writer := Writer.InsertDemo.op

/-- The hypotheses of `C113_insert_partial` and `C113_inserted_partial` are met, by right arguments of which not everything is known, and by wrong ones. -/
theorem demo : IsValueOf names [2] ∧ IsValueOf prios [2] ∧ IsValueOf prios [3] ∧
    (insert op [Writer.Demo.x 1] names prios ⟨[2], ["a", "b"]⟩ ⟨[2], [.val 1, .val 2]⟩ Writer.InsertDemo.answers).2 = some (.ok ()) ∧
    (insert op [Writer.Demo.x 1] names prios ⟨[2], ["a", "b"]⟩ ⟨[2], [.val 1, .val 2]⟩ Writer.InsertDemo.answers).1.sent.map (fun it => (it.table, it.priority)) =
      [("a", .val 1), ("b", .val 2)] := by
  refine ⟨?_, ?_, ?_, by decide, by decide⟩ <;> rintro dims ⟨⟩ <;> exact ⟨by intro m h; cases h <;> rfl, trivial⟩

/-- Those of `C113_eager`, for right and for wrong arguments. -/
theorem demo_eager : Eager ⟨.double, some [some 3]⟩ [3] ∧ Eager names [2] ∧
    (insert op [] names ⟨.double, some [some 3]⟩ ⟨[2], ["a", "b"]⟩ ⟨[3], [.val 1, .val 2, .val 3]⟩ []).2 = some (.raised .valueError) :=
  ⟨rfl, rfl, by decide⟩
end Demo

/-- C113 does not hold in full: shapes that differ do not raise `ValueError` (tf_client.py:103) if a length is not known when the graph is made. The op is made, and
fails when it is run. -/
theorem C113_late_is_false : ¬ Right .string .double [2] [3] ∧
    (insert Demo.op [Writer.Demo.x 1] Demo.names Demo.prios ⟨[2], ["a", "b"]⟩ ⟨[3], [.val 1, .val 2, .val 3]⟩ []).2 = some (.raised (.status .invalidArgument)) := by
  refine ⟨?_, by decide⟩
  rintro ⟨-, -, n, h, h'⟩
  simp only [List.cons.injEq, and_true] at h h'
  omega

/-- C113 does not hold in full: a vector is refused if its rank is not known when the graph is made. -/
theorem C113_rank_is_false : Right .string .double [2] [2] ∧ IsValueOf ⟨.string, none⟩ [2] ∧ build ⟨.string, none⟩ Demo.prios = .raised .valueError :=
  ⟨⟨rfl, rfl, 2, rfl, rfl⟩, by rintro _ ⟨⟩, by decide⟩

end TFInsert
end Verif
