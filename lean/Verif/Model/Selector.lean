import Verif.Model.Fifo
import Verif.Model.Uniform
import Verif.Model.Heap
import Verif.Model.Prioritized
import Verif.Spec.Selector
/-
The selector interface reverb/cc/selectors/interface.h:31-66 over its five implementations.
-/
namespace Verif
open Spec (Call)

/-- The randomness available to one `Sample` call. `idx` is the raw integer from which
`absl::Uniform<size_t>(0, n)` derives an index (modelled as `idx % n`, which reaches every index),
`u` is the value of `absl::Uniform<double>(0, 1)` (uniform.cc:59-66, prioritized.cc:107-120,
heap.cc:59-62). -/
structure Draw where
  idx : Nat
  u : Rat
  u_nonneg : 0 ≤ u
  u_lt_one : u < 1

/-- The concrete selector behind an `ItemSelector` pointer (selectors/interface.h:31-66). -/
inductive Sel where
  | fifo (s : ListSel)
  | lifo (s : ListSel)
  | uniform (s : Uniform)
  | heap (s : HeapSel)
  | prio (s : Prio)

/-- Dispatch of the state-changing calls of `FifoSelector` (fifo.cc) (fifo.cc:26-59). -/
def ListSel.applyFifo (s : ListSel) : Call → ListSel × Res Unit
  | .insert k p => s.insertBack k p
  | .update k p => s.update k p
  | .delete k => s.delete k
  | .clear => (s.clear, .ok ())

/-- Dispatch of the state-changing calls of `LifoSelector` (lifo.cc) (lifo.cc:25-58). -/
def ListSel.applyLifo (s : ListSel) : Call → ListSel × Res Unit
  | .insert k p => s.insertFront k p
  | .update k p => s.update k p
  | .delete k => s.delete k
  | .clear => (s.clear, .ok ())

/-- Dispatch of the state-changing calls of `UniformSelector` (uniform.cc) (uniform.cc:26-71). -/
def Uniform.apply (s : Uniform) : Call → Uniform × Res Unit
  | .insert k p => s.insert k p
  | .update k p => s.update k p
  | .delete k => s.delete k
  | .clear => (s.clear, .ok ())

/-- Dispatch of the state-changing calls of `HeapSelector` (heap.cc) (heap.cc:28-68). -/
def HeapSel.apply (s : HeapSel) : Call → HeapSel × Res Unit
  | .insert k p => s.insert k p
  | .update k p => s.update k p
  | .delete k => s.delete k
  | .clear => (s.clear, .ok ())

/-- Dispatch of the state-changing calls of `PrioritizedSelector` (prioritized.cc)
(prioritized.cc:59-159). -/
def Prio.apply (s : Prio) : Call → Prio × Res Unit
  | .insert k p => s.insert k p
  | .update k p => s.update k p
  | .delete k => s.delete k
  | .clear => (s.clear, .ok ())

/-- A history of calls on a selector; results are dropped (model only: any sequence of the calls of
selectors/interface.h:44-58). -/
def runCalls {S : Type} (apply : S → Call → S × Res Unit) (s : S) (cs : List Call) : S :=
  cs.foldl (fun s c => (apply s c).1) s

namespace Sel

/-- Virtual dispatch (interface.h:31-66). -/
def apply : Sel → Call → Sel × Res Unit
  | .fifo s, c => let r := s.applyFifo c; (.fifo r.1, r.2)
  | .lifo s, c => let r := s.applyLifo c; (.lifo r.1, r.2)
  | .uniform s, c => let r := s.apply c; (.uniform r.1, r.2)
  | .heap s, c => let r := s.apply c; (.heap r.1, r.2)
  | .prio s, c => let r := s.apply c; (.prio r.1, r.2)

/-- `Sample` with the given randomness (interface.h:45-49). -/
def sample : Sel → Draw → Res (Key × Rat)
  | .fifo s, _ => s.sample
  | .lifo s, _ => s.sample
  | .uniform s, d => s.sampleAt (d.idx % s.keys.length)
  | .heap s, _ => s.sample
  | .prio s, d => s.sampleAt d.u

end Sel

/-- The configuration of a selector (checkpoint.proto `KeyDistributionOptions`,
tfrecord_checkpointer.cc:112-136 `MakeDistribution`). -/
inductive SelKind where
  | fifo | lifo | uniform
  | heap (minHeap : Bool)
  | prio (w : PowFn)

/-- tfrecord_checkpointer.cc:112-136 `MakeDistribution`, and the constructors. -/
def SelKind.make : SelKind → Sel
  | .fifo => .fifo ListSel.init
  | .lifo => .lifo ListSel.init
  | .uniform => .uniform Uniform.init
  | .heap b => .heap (HeapSel.init b)
  | .prio w => .prio (Prio.init w)

/-- Priorities admitted by a kind of selector (only prioritized.cc:42-49 rejects any). -/
def SelKind.accept : SelKind → Pri → Bool
  | .prio _ => Spec.acceptNonneg
  | _ => Spec.acceptAll

end Verif
