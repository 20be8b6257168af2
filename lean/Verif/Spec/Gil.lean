import Verif.Model.Gil
/-
Words for C123.
-/
namespace Verif.Gil

/-- The methods that use Python while the lock is released (pybind.cc:574, 588, 639, 655, 844-845). -/
def careless : List String := ["Table.info", "Writer.Flush", "Client.NewWriter", "Client.NewSampler", "WeakCellRef.dtype"]

/-- The methods and destructors that wait while they have the lock (pybind.cc:757-765; sampler.cc:505, table.cc:158-173,
platform/default/server.cc:76-79). -/
def selfish : List String := ["Server", "del Sampler", "del Table", "del Server"]

/-- Only methods of pybind.cc:498-979 are called, and none of those in `bad`. -/
def Only (bad : List String) (as : List Act) : Prop := ∀ i m, Act.start i m ∈ as → m ∈ methods ∧ m.name ∉ bad

/-- Thread `i` is in a C++ call that waits (for pybind.cc:498-979). -/
def W.waits (w : W) (i : Nat) : Prop := (w.todo i).head? = some (.call true)

/-- Thread `i` needs the lock to go on (for pybind.cc:498-979). -/
def W.wants (w : W) (i : Nat) : Prop := (w.todo i).head? = some .acquire

/-- Thread `i` does something (for pybind.cc:498-979). -/
def Act.of (i : Nat) : Act → Prop
  | .start j _ => j = i
  | .run j _ => j = i

/-- The next `k` steps of thread `i`, whose C++ calls return `oks` (for pybind.cc:498-979). -/
def alone (i : Nat) (oks : Nat → Bool) (k : Nat) : List Act := (List.range k).map fun j => .run i (oks j)

end Verif.Gil
