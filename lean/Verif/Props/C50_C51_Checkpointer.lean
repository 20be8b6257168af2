import Verif.Proofs.CkptFiles
/-
C50: a crash during `Save`. C51: `LoadLatest` and the start of the server.
-/
namespace Verif
open Ckpt

/-- C50: whatever was in the root directory, and wherever each attempt to save ended (an error or a crash between any two operations
on the file system, also while old checkpoints are deleted file by file, and with anything in the files not yet
closed): `LoadLatest` restores exactly what the last attempt that wrote its `DONE` file was to save; if there is none,
what it would have restored before. Missing: attempts whose name, the formatted local time, is not later than those
present (`C50_clock`). -/
theorem C50_crash_partial {fs0 fs : FS} {as : List Attempt} (h : Saves fs0 as fs) :
    loadLatest fs = match lastFinished as with
      | some a => .ok (a.tables, a.chunks)
      | none => loadLatest fs0 := by
  induction h with
  | nil => rfl
  | @snoc as fs a fs' _ hn hc ih =>
    rw [attempt_effect hn hc]
    simp only [lastFinished, List.reverse_append, List.reverse_singleton, List.singleton_append, List.find?_cons]
    cases hf : a.finished with
    | true => rfl
    | false =>
      rw [if_neg (by simp)]
      exact ih

/-- C50: until the new checkpoint is complete, all older directories are as they were. -/
theorem C50_untouched {fs fs' : FS} {a : Attempt} (hf : a.finished = false)
    (hc : AfterCrash a.name (exec fs ((a.ops fs).take a.steps)) fs') : ∀ m, m ≠ a.name → fs'.get? m = fs.get? m := by
  intro m hm
  rw [hc.1 m hm]
  by_cases hk : a.keep = 0
  · simp [Attempt.ops, hk, exec]
  · have : ¬ (writeOps a.name a.tables a.chunks).length ≤ a.steps := by
      intro hs
      have : a.finished = true := by simp [Attempt.finished]; omega
      simp [hf] at this
    simp only [Attempt.ops, if_neg hk]
    rw [List.take_append_of_le_length (by omega), exec_other]
    intro op ho heq
    rw [writeOps_target op (List.mem_of_mem_take ho)] at heq
    exact hm heq.symm

/-- A `Save` that runs to its end keeps exactly the new directory and the latest others, `keep` in all. -/
theorem C50_keep {fs : FS} {a : Attempt} (hk : 0 < a.keep) (hn : a.name ∉ fs.keys) (m : Nat) :
    m ∈ (exec fs (a.ops fs)).keys ↔ (m = a.name ∨ m ∈ fs.keys) ∧ (a.name :: fs.keys).countP (m < ·) < a.keep := by
  have hk' : ¬ a.keep = 0 := by omega
  simp only [Attempt.ops, if_neg hk']
  rw [exec_append, deleteOps, deletes_keys, write_keys hn]
  generalize hw : exec fs (writeOps a.name a.tables a.chunks) = fw
  have hperm : (namesDesc fw).Perm (a.name :: fs.keys) := by
    refine (List.perm_ext_iff_of_nodup (namesDesc_nodup fw) (List.nodup_cons.mpr ⟨hn, fs.keys_nodup⟩)).mpr fun x => ?_
    rw [mem_namesDesc, ← hw, write_keys hn, List.mem_cons]
  rw [← hperm.countP_eq]
  have hmem : (m = a.name ∨ m ∈ fs.keys) ↔ m ∈ namesDesc fw := by rw [hperm.mem_iff, List.mem_cons]
  rw [hmem, ← countP_desc (namesDesc_desc fw) (namesDesc_nodup fw)]
  have hnd := namesDesc_nodup fw
  rw [← List.take_append_drop a.keep (namesDesc fw)] at hnd
  constructor
  · rintro ⟨h1, h2⟩
    rw [← List.take_append_drop a.keep (namesDesc fw)] at h1
    rcases List.mem_append.mp h1 with h1 | h1
    · exact h1
    · exact absurd h1 h2
  · intro h1
    refine ⟨List.mem_of_mem_take h1, fun h2 => ?_⟩
    exact (List.nodup_append.mp hnd).2.2 m h1 m h2 rfl

/-- Attempts: one complete, one that crashes while it writes the chunks, one that crashes while the older ones are
deleted. -/
def saveA : Attempt := ⟨1, [10], [100, 101], 1, fun _ => [.chunks, .done, .tables], 100⟩
def saveB : Attempt := ⟨2, [20], [200, 201], 1, fun _ => [.chunks, .done, .tables], 6⟩
def saveC : Attempt := ⟨3, [30], [300, 301], 1, fun _ => [.chunks, .tables], 9 + 4⟩

/-- The root directory after each of them. -/
def fsA : FS := exec AMap.empty ((saveA.ops AMap.empty).take saveA.steps)
def fsB : FS := (exec fsA ((saveB.ops fsA).take saveB.steps)).insert 2 ⟨some ⟨[20], true⟩, some ⟨[7777], false⟩, false⟩
def fsC : FS := exec fsB ((saveC.ops fsB).take saveC.steps)

theorem Ckpt.AfterCrash.refl (n : Nat) (fs : FS) : AfterCrash n fs fs := by
  refine ⟨fun _ _ => rfl, ?_⟩
  cases fs.get? n with
  | none => trivial
  | some d =>
    have : ∀ f, SameFile f f := by intro f; cases f <;> simp [SameFile]
    exact ⟨rfl, this _, this _⟩

/-- The hypothesis of `C50_crash_partial`: the chunks of the second attempt are damaged by the crash; of the first the
chunks are gone after the third, its `DONE` is not. -/
example : Saves AMap.empty [saveA, saveB, saveC] fsC ∧ fsB.get? 2 = some ⟨some ⟨[20], true⟩, some ⟨[7777], false⟩, false⟩ ∧
    fsC.get? 1 = some ⟨some ⟨[10], true⟩, none, true⟩ ∧ loadLatest fsB = .ok ([10], [100, 101]) ∧
    loadLatest fsC = .ok ([30], [300, 301]) := by
  refine ⟨.snoc (.snoc (.snoc .nil (by simp) (.refl _ _)) (by decide +kernel) ⟨fun m hm => ?_, ?_⟩) (by decide +kernel) (.refl _ _),
    by decide +kernel, by decide +kernel, by decide +kernel, by decide +kernel⟩
  · exact (AMap.get?_insert _ _ _ _).trans (if_neg hm)
  · have h1 : (exec fsA ((saveB.ops fsA).take saveB.steps)).get? saveB.name =
      some ⟨some ⟨[20], true⟩, some ⟨[200], false⟩, false⟩ := by decide +kernel
    have h2 : fsB.get? saveB.name = some ⟨some ⟨[20], true⟩, some ⟨[7777], false⟩, false⟩ := by decide +kernel
    have h3 : AfterCrash saveB.name (exec fsA ((saveB.ops fsA).take saveB.steps)) fsB :=
      ⟨fun m hm => (AMap.get?_insert _ _ _ _).trans (if_neg hm), by rw [h1, h2]; simp [SameFile]⟩
    exact h3.2

/-- The clock is set back, or summer time ends: the name of the new checkpoint comes before that of the old one. -/
def saveBack : Attempt := ⟨0, [50], [500], 1, fun _ => [], 100⟩

/-- `Save` succeeds, deletes what it has just written, and the old state is restored. -/
theorem C50_clock : saveBack.finished = true ∧ (exec fsA (saveBack.ops fsA)).get? saveBack.name = none ∧
    loadLatest (exec fsA (saveBack.ops fsA)) = .ok (saveA.tables, saveA.chunks) := by
  decide +kernel

/-- Two calls of `Checkpoint` at the same time. Nothing keeps them apart: each begins with its own directory and ends with the deletion of
all but the last. -/
def saveE : Attempt := ⟨4, [40], [400], 1, fun _ => [.chunks, .done, .tables], 100⟩
def saveF : Attempt := ⟨5, [50], [500], 1, fun _ => [.chunks, .done, .tables], 2⟩

/-- C50 with two calls at the same time is false. The call `saveE` begins first; `saveF` has created its directory and no more when `saveE` writes
its `DONE` file. The directory that `saveE` then keeps is the unfinished one: it deletes its own checkpoint and all before, and succeeds. If the
process ends before `saveF` is complete there is nothing to start from. -/
theorem C50_overlap_is_false : ∃ begun written ended, begun ++ written = writeOps saveE.name saveE.tables saveE.chunks ∧
    ended = deleteOps (exec fsA (begun ++ (saveF.ops fsA).take saveF.steps ++ written)) saveE.keep saveE.order ∧
    loadLatest fsA = .ok (saveA.tables, saveA.chunks) ∧
    loadLatest (exec fsA (begun ++ (saveF.ops fsA).take saveF.steps ++ written)) = .ok (saveE.tables, saveE.chunks) ∧
    loadLatest (exec fsA (begun ++ (saveF.ops fsA).take saveF.steps ++ written ++ ended)) = .err .notFound ∧
    startServer (exec fsA (begun ++ (saveF.ops fsA).take saveF.steps ++ written ++ ended)) none = .empty :=
  ⟨(writeOps saveE.name saveE.tables saveE.chunks).take 3, (writeOps saveE.name saveE.tables saveE.chunks).drop 3, _, by decide +kernel, rfl, by decide +kernel,
    by decide +kernel, by decide +kernel, by decide +kernel⟩

/-! ### C51 -/

/-- C51: `LoadLatest` loads the largest complete entry, and reports `NotFound` if there is none. `Load` reads exactly the two
files. -/
theorem C51_latest (fs : FS) :
    (∀ n d, fs.get? n = some d → d.done = true → (∀ m d', fs.get? m = some d' → d'.done = true → m ≤ n) →
      loadLatest fs = match d.tables, d.chunks with
        | some t, some c => .ok (t.records, c.records)
        | _, _ => .err .notFound) ∧
    ((∀ n d, fs.get? n = some d → d.done = false) → loadLatest fs = .err .notFound) := by
  constructor
  · intro n d hd hdone hmax
    rw [loadLatest_of (n := n)]
    · obtain ⟨t, c, dn⟩ := d
      simp only at hdone
      subst hdone
      cases t <;> cases c <;> simp [load, hd]
    · simp [hasDone, hd, hdone]
    · intro m hm
      unfold hasDone at hm
      split at hm
      · simp at hm
      · rename_i d' hd'
        exact hmax m d' hd' hm
  · intro h
    refine loadLatest_none fun n => ?_
    unfold hasDone
    split
    · rfl
    · rename_i d hd
      exact h n d hd

/-- C51: if a complete checkpoint is in the root directory it is restored whatever the fallback is; the fallback is restored if
there is none. Missing: a directory with a `DONE` file and without data (`C51_missing_file`). -/
theorem C51_start_partial (fs : FS) (fb : Option (FS × Nat)) :
    (∀ n t c, fs.get? n = some ⟨some t, some c, true⟩ → (∀ m d, fs.get? m = some d → d.done = true → m ≤ n) →
      startServer fs fb = .root t.records c.records) ∧
    ((∀ n d, fs.get? n = some d → d.done = false) → startServer fs fb =
      match fb with
      | none => .empty
      | some (fs', n) =>
        match fs'.get? n with
        | some ⟨some t, some c, true⟩ => .fallback t.records c.records
        | _ => .empty) := by
  constructor
  · intro n t c hd hmax
    have := (C51_latest fs).1 n _ hd rfl hmax
    simp only at this
    simp [startServer, this]
  · intro h
    have := (C51_latest fs).2 h
    simp only [startServer, this]
    cases fb with
    | none => rfl
    | some p =>
      obtain ⟨fs', n⟩ := p
      obtain ⟨o, ho⟩ : ∃ o, fs'.get? n = o := ⟨_, rfl⟩
      simp only [loadFallback, hasDone, load, ho]
      cases o with
      | none => simp
      | some d =>
        obtain ⟨t, c, dn⟩ := d
        cases dn <;> cases t <;> cases c <;> simp

/-- The hypotheses of the two theorems above. -/
example : startServer fsB (some (fsA, 1)) = .root [10] [100, 101] ∧
    startServer (AMap.empty.insert 7 ⟨some ⟨[1], true⟩, none, false⟩) (some (fsA, 1)) = .fallback [10] [100, 101] := by
  decide +kernel

/-- A directory that has `DONE` but lacks the chunks. -/
def fsHalf : FS := fsA.insert 9 ⟨some ⟨[90], true⟩, none, true⟩

/-- Though an older complete checkpoint is there, `LoadLatest` reports `NotFound` and the server starts from the
fallback, or empty. -/
theorem C51_missing_file : load fsHalf 1 = .ok ([10], [100, 101]) ∧ loadLatest fsHalf = .err .notFound ∧
    startServer fsHalf none = .empty ∧ startServer fsHalf (some (fsC, 3)) = .fallback [30] [300, 301] := by
  decide +kernel

end Verif
