import Verif.Model.Dbl
/-
Model of reverb/cc/selectors/prioritized.cc in the arithmetic of `double`. `Model/Prioritized.lean` is the same code in exact arithmetic.
-/
namespace Verif

/-- Neither NaN nor negative: the priorities that `CheckValidPriority` accepts (prioritized.cc:42-49). Infinity is accepted. -/
def Dbl.Nonneg : Dbl → Prop
  | .nan => False
  | .pinf => True
  | .ninf => False
  | .fin q => 0 ≤ q

/-- `std::pow(·, priority_exponent_)` on bases that are not negative: any function whose results are neither NaN nor negative, which is trusted of
`std::pow` (prioritized.cc:38-40). -/
structure PowD where
  f : Dbl → Dbl
  nonneg : ∀ p, p.Nonneg → (f p).Nonneg

/-- prioritized.cc:38-40 `power`. -/
def PowD.power (w : PowD) (base : Dbl) : Dbl := if base.isZero then .fin 0 else w.f base

/-- `PrioritizedSelector` state (prioritized.h:69-121). -/
structure DPrio where
  pow : PowD
  capacity : Nat
  keyAt : Nat → Key
  sum : Nat → Dbl
  value : Nat → Dbl
  index : AMap Key Nat

/-- The state-changing calls of the selector (prioritized.cc:59-105, 153-159), with priorities that are any doubles. -/
inductive DCall where
  | insert (k : Key) (p : Dbl)
  | update (k : Key) (p : Dbl)
  | delete (k : Key)
  | clear
  deriving DecidableEq, Repr

namespace DPrio

/-- prioritized.cc:53-57. -/
def init (w : PowD) : DPrio := ⟨w, 2 ^ 17, fun _ => 0, fun _ => .fin 0, fun _ => .fin 0, AMap.empty⟩

/-- prioritized.cc:42-49 `CheckValidPriority`. -/
def validPriority : Dbl → Bool
  | .nan => false
  | p => !p.lt (.fin 0)

/-- `key_to_index_.size()` (prioritized.cc:82, 108 and 178). -/
def n (s : DPrio) : Nat := s.index.size

/-- prioritized.cc:177-179 `NodeSum`. -/
def nodeSum (s : DPrio) (i : Nat) : Dbl := if i < s.n then s.sum i else .fin 0

/-- prioritized.cc:33 `kMaxApproximationError`: the double next to 0.0001. -/
def maxError : Dbl := Dbl.round (1 / 10000)

/-- prioritized.cc:190-191: the new sum, not below zero. -/
def clamped (x : Dbl) : Dbl := if x.lt (.fin 0) then .fin 0 else x

/-- prioritized.cc:192-193: the difference between a sum and what it should be. -/
def errorAt (s : DPrio) (i : Nat) : Dbl := (((s.sum i).sub (s.nodeSum (2 * i + 1))).sub (s.nodeSum (2 * i + 2))).sub (s.value i) |>.abs

/-- prioritized.cc:189-193 `UPDATE_SUM(i)`, without the error. -/
def addTo (s : DPrio) (i : Nat) (difference : Dbl) : DPrio :=
  { s with sum := fun j => if j = i then clamped ((s.sum i).add difference) else s.sum j }

/-- prioritized.cc:206-209: the loop over the ancestors of `i`. -/
def updateParents (s : DPrio) (error : Dbl) (i : Nat) (difference : Dbl) : DPrio × Dbl :=
  if h : i ≠ 0 ∧ error.le maxError = true then
    updateParents (s.addTo ((i - 1) / 2) difference) ((s.addTo ((i - 1) / 2) difference).errorAt ((i - 1) / 2)) ((i - 1) / 2) difference
  else (s, error)
termination_by i
decreasing_by omega

/-- prioritized.cc:223-228 `ReinitializeSumTree`, for the indices below `i`, from the top down. -/
def reinit (s : DPrio) : Nat → DPrio
  | 0 => s
  | i + 1 =>
    reinit { s with sum := fun j => if j = i then ((s.value i).add (s.nodeSum (2 * i + 1))).add (s.nodeSum (2 * i + 2)) else s.sum j } i

/-- prioritized.cc:198-209: `SetNode` up to the test of the error. -/
def pathSums (s : DPrio) (i : Nat) (v : Dbl) : DPrio × Dbl :=
  let s1 := { s with value := fun j => if j = i then v else s.value j }
  let s2 := s1.addTo i (v.sub (s.value i))
  s2.updateParents (s2.errorAt i) i (v.sub (s.value i))

/-- prioritized.cc:195-219 `SetNode`. -/
def setNode (s : DPrio) (i : Nat) (v : Dbl) : DPrio :=
  if maxError.lt (s.pathSums i v).2 then (s.pathSums i v).1.reinit s.capacity else (s.pathSums i v).1

/-- prioritized.cc:66-72: the element to be removed is replaced by the last one. -/
def replaceByLast (s : DPrio) (i : Nat) : DPrio :=
  if i ≠ s.n - 1 then
    { s.setNode i (s.value (s.n - 1)) with
      keyAt := fun j => if j = i then s.keyAt (s.n - 1) else s.keyAt j
      index := s.index.insert (s.keyAt (s.n - 1)) i }
  else s

/-- prioritized.cc:59-78 `Delete`. -/
def delete (s : DPrio) (k : Key) : DPrio × Res Unit :=
  match s.index.get? k with
  | none => (s, .err .invalidArgument)
  | some i =>
    ({ (s.replaceByLast i).setNode (s.n - 1) (.fin 0) with index := (s.replaceByLast i).index.erase k }, .ok ())

/-- prioritized.cc:83-86: room for one more element. -/
def grown (s : DPrio) : DPrio := if s.n = s.capacity then { s with capacity := s.capacity * 2 } else s

/-- prioritized.cc:80-95 `Insert`. -/
def insert (s : DPrio) (k : Key) (p : Dbl) : DPrio × Res Unit :=
  if validPriority p then
    match s.index.get? k with
    | some _ => (s.grown, .err .invalidArgument)
    | none =>
      if s.n < s.grown.capacity then
        (({ s.grown with index := s.index.insert k s.n, keyAt := fun j => if j = s.n then k else s.keyAt j } : DPrio).setNode s.n (s.pow.power p),
          .ok ())
      else (s.grown, .died)
  else (s, .err .invalidArgument)

/-- prioritized.cc:97-105 `Update`. -/
def update (s : DPrio) (k : Key) (p : Dbl) : DPrio × Res Unit :=
  if validPriority p then
    match s.index.get? k with
    | none => (s, .err .invalidArgument)
    | some i => (s.setNode i (s.pow.power p), .ok ())
  else (s, .err .invalidArgument)

/-- prioritized.cc:153-159 `Clear`. -/
def clear (s : DPrio) : DPrio :=
  { s with sum := fun i => if i < s.n then .fin 0 else s.sum i,
           value := fun i => if i < s.n then .fin 0 else s.value i,
           index := AMap.empty }

/-- The calls (prioritized.cc:59-105 and 153-159). -/
def apply (s : DPrio) : DCall → DPrio × Res Unit
  | .insert k p => s.insert k p
  | .update k p => s.update k p
  | .delete k => s.delete k
  | .clear => (s.clear, .ok ())

/-- prioritized.cc:123-144: the walk down the tree. `none` stands for a walk that leaves the tree. -/
def walk (s : DPrio) (i : Nat) (t : Dbl) : Option Nat :=
  if t.lt (s.nodeSum (2 * i + 1)) then
    if h : 2 * i + 1 < s.n then walk s (2 * i + 1) t else none
  else
    let t1 := t.sub (s.nodeSum (2 * i + 1))
    if t1.lt (s.nodeSum (2 * i + 2)) then
      if h : 2 * i + 2 < s.n then walk s (2 * i + 2) t1 else none
    else some i
termination_by s.n - i

/-- prioritized.cc:116-119: all sums are zero. An index outside of the array is undefined behaviour. -/
def sampleUniform (s : DPrio) (u : Rat) : Res (Key × Dbl) :=
  match ((Dbl.fin u).mul (Dbl.ofInt s.n)).toSize with
  | none => .died
  | some pos => if pos < s.capacity then .ok (s.keyAt pos, (Dbl.fin 1).div (Dbl.ofInt s.n)) else .died

/-- prioritized.cc:107-151 `Sample`, for the value `u` drawn by `absl::Uniform<double>(0, 1)`. -/
def sampleAt (s : DPrio) (u : Rat) : Res (Key × Dbl) :=
  if s.n = 0 then .died
  else if (s.sum 0).isZero then s.sampleUniform u
  else
    match s.walk 0 ((Dbl.fin u).mul (s.sum 0)) with
    | none => .died
    | some i => if i < s.n then .ok (s.keyAt i, (s.value i).div (s.sum 0)) else .died

end DPrio
end Verif
