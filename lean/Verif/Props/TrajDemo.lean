import Verif.Spec.TrajWriter
/-
Writers and events for the examples beside the theorems about the trajectory writer.
-/
namespace Verif
namespace TrajWriter
namespace TrajDemo

/-- Keys of chunks that differ between columns. -/
def colKey (i n : Nat) : Nat := 2 ^ i * (2 * n + 1)

theorem colKey_succ (i n : Nat) : colKey (i + 1) n = 2 * colKey i n := by
  simp [colKey, Nat.pow_succ, Nat.mul_comm, Nat.mul_left_comm]
theorem colKey_zero (n : Nat) : colKey 0 n = 2 * n + 1 := by simp [colKey]
theorem colKey_inj : ∀ i j m n, colKey i m = colKey j n → i = j ∧ m = n
  | 0, 0, m, n, h => by simp only [colKey_zero] at h; exact ⟨rfl, by omega⟩
  | 0, j + 1, m, n, h => by rw [colKey_zero, colKey_succ] at h; omega
  | i + 1, 0, m, n, h => by rw [colKey_zero, colKey_succ] at h; omega
  | i + 1, j + 1, m, n, h => by
    rw [colKey_succ, colKey_succ] at h
    have := colKey_inj i j m n (by omega)
    omega

/-- A new writer with the options. -/
def writer (o : ChunkerOpts) : TrajWriter := ⟨o, none, colKey, fun n => n, 1, .empty, .empty, 0, 0, [], [], none, false, .start, [], [], [], []⟩

theorem started {o : ChunkerOpts} (h : o.validate = .ok ()) : (writer o).Started where
  new := by simp [TrajWriter.new, writer, h]
  gen := fun _ _ h => h
  colGen := colKey_inj

/-- A row with one number. -/
def row (n : Nat) : Tensor := ⟨.int32, [1], [n]⟩

/-- The environment of the worker: everything succeeds, a request waits for the item. -/
def good : Input := ⟨true, false, none, fun _ => 8⟩

def big : Input := ⟨true, true, none, fun _ => 8⟩

/-- `Write` fails, and the status is `Unavailable`. -/
def bad : Input := ⟨false, false, some .unavailable, fun _ => 8⟩

def opts : ChunkerOpts := .constant 2 4 false

/-- Two items that share a chunk; the second one also needs a chunk that is cut short by the flush. -/
def two : List Event :=
  [.append [some (row 5)] true, .append [some (row 6)] true, .createItem "t" (.val 1) [⟨[⟨0, 0⟩, ⟨0, 1⟩], false⟩],
   .append [some (row 7)] true, .createItem "t" (.val 2) [⟨[⟨0, 1⟩, ⟨0, 2⟩], false⟩], .flushBegin 0]

/-- The worker makes `n` steps. -/
def steps (n : Nat) (inp : Input) : List Event := List.replicate n (.worker inp)

end TrajDemo
end TrajWriter
end Verif
