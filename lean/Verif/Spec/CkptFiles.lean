import Verif.Model.CkptFiles
/-
The words used in C50 and C51.
-/
namespace Verif.Ckpt

/-- `Save` got as far as writing the `DONE` file. -/
def Attempt.finished (a : Attempt) : Bool :=
  decide (0 < a.keep ∧ (writeOps a.name a.tables a.chunks).length ≤ a.steps)

/-- A file after a crash: if it was not closed it may contain anything. -/
def SameFile : Option File → Option File → Prop
  | none, none => True
  | some f, some g => f.closed = true → g = f
  | _, _ => False

/-- `fs'` is what is found after a crash in `fs` while directory `n` was being written. -/
def AfterCrash (n : Nat) (fs fs' : FS) : Prop :=
  (∀ m, m ≠ n → fs'.get? m = fs.get? m) ∧
  match fs.get? n, fs'.get? n with
  | none, none => True
  | some d, some d' => d'.done = d.done ∧ SameFile d.tables d'.tables ∧ SameFile d.chunks d'.chunks
  | _, _ => False

/-- What the root directory can look like after a sequence of attempts to save, each of which ended anywhere. The time in the
name of a checkpoint is later than those of the directories that are there. -/
inductive Saves (fs0 : FS) : List Attempt → FS → Prop
  | nil : Saves fs0 [] fs0
  | snoc {as fs a fs'} : Saves fs0 as fs → (∀ n ∈ fs.keys, n < a.name) →
      AfterCrash a.name (exec fs ((a.ops fs).take a.steps)) fs' → Saves fs0 (as ++ [a]) fs'

/-- The last attempt that finished. -/
def lastFinished (as : List Attempt) : Option Attempt := as.reverse.find? (·.finished)

end Verif.Ckpt
