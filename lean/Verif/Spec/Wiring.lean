import Verif.Model.Wiring
/-
Words for C118.
-/
namespace Verif.Wiring

/-- `w'` follows from `w` by events that are all of the kind `P`, without the process dying. -/
inductive Path (P : World → Event → Prop) : World → World → Prop
  | refl {w} : Path P w w
  | step {w w1 w2 e} : Path P w w1 → P w1 e → step w1 e = .next w2 → Path P w w2

/-- What can become of some rate limiters and extensions of which no table has been made. -/
def Reachable (w : World) : Prop := ∃ lims exts, Path (fun _ _ => True) (init lims exts) w

/-- The extension `x` is one of those of the table `tid`. -/
def World.Has (w : World) (tid x : Nat) : Prop := ∃ b, w.tabs.get? tid = some b ∧ x ∈ b.sync ++ b.async

/-- The rate limiter `l` is that of the table `tid`. -/
def World.HasLimiter (w : World) (tid l : Nat) : Prop := ∃ b, w.tabs.get? tid = some b ∧ b.lim = l

/-- The event is not `UnsafeAddExtension` with an extension that can run asynchronously on a table whose workers have
been started. -/
def NotLate (w : World) (e : Event) : Prop :=
  ∀ tid x, e = .addExtension tid x → w.canAsync x = true → ∀ b, w.tabs.get? tid = some b → b.worker = false

/-- As `Reachable`, all extensions being added in time. -/
def ReachableInTime (w : World) : Prop := ∃ lims exts, Path NotLate (init lims exts) w

end Verif.Wiring
