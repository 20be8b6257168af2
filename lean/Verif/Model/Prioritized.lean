import Verif.Basic
/-
Model of reverb/cc/selectors/prioritized.cc in exact arithmetic.
-/
namespace Verif

/-- `std::pow(·, priority_exponent_)` on positive bases: an arbitrary function that is not negative.
(prioritized.cc:38-40; that `std::pow` of a positive base is not negative is trusted.) -/
structure PowFn where
  f : Rat → Rat
  nonneg : ∀ q, 0 < q → 0 ≤ f q

/-- prioritized.cc:38-40 `power`. -/
def PowFn.power (w : PowFn) (base : Rat) : Rat := if base = 0 then 0 else w.f base

/-- `PrioritizedSelector` state (prioritized.h:69-121): `sum_tree_` as three index functions of length
`capacity`, and `key_to_index_`. -/
structure Prio where
  pow : PowFn
  capacity : Nat
  keyAt : Nat → Key
  sum : Nat → Rat
  value : Nat → Rat
  index : AMap Key Nat

namespace Prio

/-- prioritized.cc:53-57. -/
def init (w : PowFn) : Prio :=
  ⟨w, 2 ^ 17, fun _ => 0, fun _ => 0, fun _ => 0, AMap.empty⟩

/-- prioritized.cc:42-49 `CheckValidPriority`; the accepted number if any. -/
def checkPriority : Pri → Option Rat
  | .nan => none
  | .val q => if q < 0 then none else some q

/-- `key_to_index_.size()` (prioritized.cc:82, 108 and 178). -/
def n (s : Prio) : Nat := s.index.size

/-- prioritized.cc:177-179 `NodeSum`. -/
def nodeSum (s : Prio) (i : Nat) : Rat := if i < s.n then s.sum i else 0

/-- prioritized.cc:33 `kMaxApproximationError`. -/
def maxError : Rat := 1 / 10000

/-- `std::abs` (prioritized.cc:192). -/
def absR (q : Rat) : Rat := if q < 0 then -q else q

/-- prioritized.cc:189-193 `UPDATE_SUM(i)`: new state and the error. -/
def updateSum (s : Prio) (i : Nat) (difference : Rat) : Prio × Rat :=
  let x := s.sum i + difference
  let x := if x < 0 then 0 else x
  let s1 := { s with sum := fun j => if j = i then x else s.sum j }
  (s1, absR (s1.sum i - s1.nodeSum (2 * i + 1) - s1.nodeSum (2 * i + 2) - s1.value i))

/-- prioritized.cc:206-209: the loop over the ancestors of `i`. -/
def updateParents (s : Prio) (error : Rat) (i : Nat) (difference : Rat) : Prio × Rat :=
  if h : i ≠ 0 ∧ error ≤ maxError then
    let r := s.updateSum ((i - 1) / 2) difference
    updateParents r.1 r.2 ((i - 1) / 2) difference
  else (s, error)
termination_by i
decreasing_by omega

/-- prioritized.cc:223-228 `ReinitializeSumTree`, for the indices below `i`, from the top down. -/
def reinit (s : Prio) : Nat → Prio
  | 0 => s
  | i + 1 =>
    let x := s.value i + s.nodeSum (2 * i + 1) + s.nodeSum (2 * i + 2)
    reinit { s with sum := fun j => if j = i then x else s.sum j } i

/-- prioritized.cc:195-219 `SetNode`. -/
def setNode (s : Prio) (i : Nat) (v : Rat) : Prio :=
  let difference := v - s.value i
  let s1 := { s with value := fun j => if j = i then v else s.value j }
  let r1 := s1.updateSum i difference
  let r2 := r1.1.updateParents r1.2 i difference
  if maxError < r2.2 then r2.1.reinit s.capacity else r2.1

/-- prioritized.cc:59-78 `Delete`. -/
def delete (s : Prio) (k : Key) : Prio × Res Unit :=
  let last := s.n - 1
  match s.index.get? k with
  | none => (s, .err .invalidArgument)
  | some i =>
    let s1 :=
      if i ≠ last then
        let s0 := s.setNode i (s.value last)
        let lastKey := s0.keyAt last
        { s0 with keyAt := fun j => if j = i then lastKey else s0.keyAt j,
                  index := s0.index.insert lastKey i }
      else s
    let s2 := s1.setNode last 0
    ({ s2 with index := s2.index.erase k }, .ok ())

/-- prioritized.cc:80-95 `Insert`. -/
def insert (s : Prio) (k : Key) (p : Pri) : Prio × Res Unit :=
  match checkPriority p with
  | none => (s, .err .invalidArgument)
  | some q =>
    let i := s.n
    let s := if i = s.capacity then { s with capacity := s.capacity * 2 } else s
    match s.index.get? k with
    | some _ => (s, .err .invalidArgument)
    | none =>
      if i < s.capacity then
        let s1 := { s with index := s.index.insert k i, keyAt := fun j => if j = i then k else s.keyAt j }
        (s1.setNode i (s.pow.power q), .ok ())
      else (s, .died)

/-- prioritized.cc:97-105 `Update`. -/
def update (s : Prio) (k : Key) (p : Pri) : Prio × Res Unit :=
  match checkPriority p with
  | none => (s, .err .invalidArgument)
  | some q =>
    match s.index.get? k with
    | none => (s, .err .invalidArgument)
    | some i => (s.setNode i (s.pow.power q), .ok ())

/-- prioritized.cc:123-144: the walk down the tree. `none` stands for a walk that leaves the tree and
then never ends (all sums outside the tree are 0, so the remaining weight is negative for ever). -/
def walk (s : Prio) (i : Nat) (t : Rat) : Option (Nat × Rat) :=
  if t < s.nodeSum (2 * i + 1) then
    if h : 2 * i + 1 < s.n then walk s (2 * i + 1) t else none
  else
    let t1 := t - s.nodeSum (2 * i + 1)
    if t1 < s.nodeSum (2 * i + 2) then
      if h : 2 * i + 2 < s.n then walk s (2 * i + 2) t1 else none
    else some (i, t1 - s.nodeSum (2 * i + 2))
termination_by s.n - i

/-- prioritized.cc:107-151 `Sample`, for the value `u` drawn by `absl::Uniform<double>(0, 1)`. -/
def sampleAt (s : Prio) (u : Rat) : Res (Key × Rat) :=
  if s.n = 0 then .died
  else if s.sum 0 = 0 then .ok (s.keyAt ((u * s.n).floor.toNat), 1 / (s.n : Rat))
  else
    match s.walk 0 (u * s.sum 0) with
    | none => .died
    | some (i, _) => if i < s.n then .ok (s.keyAt i, s.value i / s.sum 0) else .died

/-- prioritized.cc:153-159 `Clear`. -/
def clear (s : Prio) : Prio :=
  { s with sum := fun i => if i < s.n then 0 else s.sum i,
           value := fun i => if i < s.n then 0 else s.value i,
           index := AMap.empty }

end Prio
end Verif
