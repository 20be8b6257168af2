import Verif.Proofs.Gil
/-
C123: the methods of the Python module and the global interpreter lock.
-/
namespace Verif.Gil

/-- C123, partial: with any number of threads that call methods of the module, in any interleaving and whatever the calls return, Python is
never used by a thread without the lock; except for the five methods of `careless`, for which the full claim is false (`C123_info_is_false` and
the following). -/
theorem C123_safe_partial {as : List Act} {w : W} (ho : Only careless as) (h : run init as = some w) : w.ub = false :=
  (Inv.run (Inv.init false) (fun i m hm => safe_methods m (ho i m hm).1 (ho i m hm).2) h).ub

/-- C123, partial: a thread that waits in a C++ call (for a server, a thread or a file) does not have the lock; except in the methods of
`careless` and in the constructor and destructors of `selfish`, for which it is false (`C123_server_is_false`, `C123_del_is_false`). -/
theorem C123_waits_partial {as : List Act} {w : W} (ho : Only (careless ++ selfish) as) (h : run init as = some w) {i : Nat}
    (hw : w.waits i) : w.gil ≠ some i := by
  intro hg
  have h0 := (Inv.run (Inv.init true) (fun i m hm => strict_methods m (ho i m hm).1 (ho i m hm).2) h).disc i
  unfold W.waits at hw
  cases ht : w.todo i with
  | nil => rw [ht] at hw; cases hw
  | cons o r =>
    rw [ht] at hw h0
    simp only [List.head?_cons, Option.some.injEq] at hw
    subst hw
    simp [hg, disc] at h0

/-- C123, partial: a thread that needs the lock gets it: the thread that has it, if any, gives it up after a number of its own steps, which do
not wait for anything (`C123_waits_partial`), whatever its calls return; then the waiting thread can go on. The same exceptions. -/
theorem C123_free_partial {as : List Act} {w : W} (ho : Only (careless ++ selfish) as) (h : run init as = some w) {i j : Nat}
    (hg : w.gil = some i) (hj : w.wants j) (oks : Nat → Bool) :
    i ≠ j ∧ ∃ k v, run w (alone i oks k) = some v ∧ v.gil = none := by
  have hi := Inv.run (Inv.init true) (fun i m hm => strict_methods m (ho i m hm).1 (ho i m hm).2) h
  refine ⟨?_, frees _ oks hi hg (Nat.le_refl _)⟩
  rintro rfl
  have h0 := hi.disc i
  unfold W.wants at hj
  cases ht : w.todo i with
  | nil => rw [ht] at hj; cases hj
  | cons o r =>
    rw [ht] at hj h0
    simp only [List.head?_cons, Option.some.injEq] at hj
    subst hj
    simp [hg, disc] at h0

/-- C123: a thread never ends a call with the lock, nor does it wait for a lock that it has: between calls it has given it up. -/
theorem C123_returns {as : List Act} {w : W} (ho : Only careless as) (h : run init as = some w) {i : Nat}
    (hd : w.todo i = [] ∨ w.wants i) : w.gil ≠ some i := by
  intro hg
  have h0 := (Inv.run (Inv.init false) (fun i m hm => safe_methods m (ho i m hm).1 (ho i m hm).2) h).disc i
  rcases hd with hd | hd
  · rw [hd, hg] at h0
    simp [disc] at h0
  · unfold W.wants at hd
    cases ht : w.todo i with
    | nil => rw [ht] at hd; cases hd
    | cons o r =>
      rw [ht] at hd h0
      simp only [List.head?_cons, Option.some.injEq] at hd
      subst hd
      simp [hg, disc] at h0

/-- C123: why waiting with the lock matters: as long as the thread that has the lock does nothing, no other thread that needs it moves,
whatever all other threads do. If it waits for one of them, both wait forever. -/
theorem C123_blocked {w v : W} {i j : Nat} (hg : w.gil = some i) (hj : w.wants j) {as : List Act} (ha : ∀ a ∈ as, ¬ a.of i)
    (h : run w as = some v) : v.gil = some i ∧ v.todo j = w.todo j := blocked_run hg hj ha h

/-! ### The exceptions -/

/-- A call of a method by thread 0 with what its C++ calls return. -/
def demoCall (m : Method) (oks : List Bool) : List Act := .start 0 m :: oks.map (.run 0)

/-- C123: `Table.info` uses Python without the lock in every call. -/
theorem C123_info_is_false : ∃ m ∈ methods, m.name = "Table.info" ∧ ∀ a b c d e : Bool,
    (run init (demoCall m [a, b, c, d, e])).map (·.ub) = some true :=
  ⟨⟨"Table.info", true, [.call true, .py], false⟩, by decide +kernel, rfl, by decide +kernel⟩

/-- C123: `Writer.Flush`, `Client.NewWriter` and `Client.NewSampler` use Python without the lock whenever the call fails, and only then. -/
theorem C123_raise_is_false : ∀ name ∈ ["Writer.Flush", "Client.NewWriter", "Client.NewSampler"], ∃ m ∈ methods, m.name = name ∧
    ∀ a b c d ok : Bool, (run init (demoCall m [a, b, c, ok, d])).map (·.ub) = some (!ok) := by
  intro name hn
  simp only [List.mem_cons, List.not_mem_nil, or_false] at hn
  rcases hn with rfl | rfl | rfl
  · exact ⟨⟨"Writer.Flush", true, [.call true, .raise], false⟩, by decide +kernel, rfl, by decide +kernel⟩
  · exact ⟨⟨"Client.NewWriter", true, [.call true, .raise], false⟩, by decide +kernel, rfl, by decide +kernel⟩
  · exact ⟨⟨"Client.NewSampler", true, [.call true, .raise], false⟩, by decide +kernel, rfl, by decide +kernel⟩

/-- C123: `WeakCellRef.dtype` uses Python without the lock whenever it succeeds. -/
theorem C123_dtype_is_false : ∃ m ∈ methods, m.name = "WeakCellRef.dtype" ∧
    (run init (demoCall m (List.replicate 7 true))).map (·.ub) = some true :=
  ⟨⟨"WeakCellRef.dtype", false, [.call false, .raise, .release, .call true, .pyIfOk, .acquire, .raise], false⟩, by decide +kernel, rfl,
    by decide +kernel⟩

/-- C123: the constructor of `Server` waits (it loads a checkpoint) with the lock; meanwhile another thread that calls a method cannot go on. -/
theorem C123_server_is_false : ∃ as w, Only careless as ∧ run init as = some w ∧ w.waits 0 ∧ w.gil = some 0 ∧ w.wants 1 ∧
    ∀ ok, (step w (.run 1 ok)).isNone := by
  refine ⟨[.start 0 ⟨"Server", false, [.call true, .raise], false⟩, .run 0 true, .run 0 true, .start 1 (quick "Table.name")], _, ?_, rfl, rfl,
    rfl, rfl, fun _ => rfl⟩
  intro i m hm
  simp only [List.mem_cons, List.not_mem_nil, or_false, Act.start.injEq, reduceCtorEq, false_or] at hm
  rcases hm with ⟨_, rfl⟩ | ⟨_, rfl⟩ <;> decide +kernel

/-- C123: so do the destructors of samplers, tables and servers, which wait for their threads to end. -/
theorem C123_del_is_false : ∀ name ∈ ["del Sampler", "del Table", "del Server"], ∃ m ∈ methods, m.name = name ∧
    ∃ w, run init [.start 0 m, .run 0 true, .run 0 true, .start 1 (quick "Table.name")] = some w ∧ w.waits 0 ∧ w.gil = some 0 ∧ w.wants 1 := by
  intro name hn
  simp only [List.mem_cons, List.not_mem_nil, or_false] at hn
  rcases hn with rfl | rfl | rfl
  · exact ⟨⟨"del Sampler", false, [.call true], false⟩, by decide +kernel, rfl, _, rfl, rfl, rfl, rfl⟩
  · exact ⟨⟨"del Table", false, [.call true], false⟩, by decide +kernel, rfl, _, rfl, rfl, rfl, rfl⟩
  · exact ⟨⟨"del Server", false, [.call true], false⟩, by decide +kernel, rfl, _, rfl, rfl, rfl, rfl⟩

/-! ### Cases -/

/-- `C123_blocked` with other threads that do move: thread 0 destroys a sampler, thread 1 wants the lock, thread 2 is in a call and comes back. -/
example : ∃ w v, run init [.start 2 (guarded "Table.can_sample"), .run 2 true, .run 2 true, .run 2 true,
    .start 0 ⟨"del Sampler", false, [.call true], false⟩, .run 0 true, .run 0 true, .start 1 (quick "Table.name")] = some w ∧
    w.gil = some 0 ∧ w.wants 1 ∧ (∀ a ∈ [Act.run 2 true], ¬ a.of 0) ∧ run w [.run 2 true] = some v ∧ v.wants 1 :=
  ⟨_, _, rfl, rfl, rfl, by simp [Act.of], rfl, rfl⟩

/-- Two threads: one waits for a sample without the lock, meanwhile the other has it, and a third one wants it. -/
def demoRun : List Act := [.start 0 (released "Sampler.GetNextTrajectory"), .run 0 true, .run 0 true, .run 0 true,
  .start 1 (quick "Table.name"), .run 1 true, .start 2 (guarded "Table.can_sample")]

example : Only (careless ++ selfish) demoRun ∧ ∃ w, run init demoRun = some w ∧ w.waits 0 ∧ w.gil = some 1 ∧ w.wants 2 := by
  refine ⟨?_, _, rfl, rfl, rfl, rfl⟩
  intro i m hm
  simp only [demoRun, List.mem_cons, List.not_mem_nil, or_false, Act.start.injEq, reduceCtorEq, false_or] at hm
  rcases hm with ⟨_, rfl⟩ | ⟨_, rfl⟩ | ⟨_, rfl⟩ <;> decide +kernel

/-- A call that fails raises with the lock and is over. -/
example : (run init (demoCall (released "Sampler.GetNextTrajectory") [true, true, true, false, true, true, true])).map
    (fun w => (w.gil, w.todo 0, w.ub)) = some (none, [], false) := by decide +kernel

end Verif.Gil
