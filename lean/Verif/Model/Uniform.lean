import Verif.Basic
/-
Model of reverb/cc/selectors/uniform.cc.
-/
namespace Verif

/-- `UniformSelector` state (uniform.h: `keys_`, `key_to_index_`) (uniform.h:48-56; the generator
`bit_gen_` is the `Draw` of a call). -/
structure Uniform where
  keys : List Key
  index : AMap Key Nat

namespace Uniform

/-- A newly constructed selector (the member initialisers of uniform.h:50-53). -/
def init : Uniform := ⟨[], AMap.empty⟩

/-- uniform.cc:26-42 `Delete`. `keys_.back()` on an empty vector would be undefined behaviour and
is a death of the process here. -/
def delete (s : Uniform) (k : Key) : Uniform × Res Unit :=
  match s.index.get? k with
  | none => (s, .err .invalidArgument)
  | some i =>
    let index1 := s.index.erase k
    match s.keys.getLast? with
    | none => (s, .died)
    | some lastKey =>
      if i ≠ s.keys.length - 1 then
        ({ keys := (s.keys.set i lastKey).dropLast, index := index1.insert lastKey i }, .ok ())
      else
        ({ keys := s.keys.dropLast, index := index1 }, .ok ())

/-- uniform.cc:44-51 `Insert`. -/
def insert (s : Uniform) (k : Key) (_p : Pri) : Uniform × Res Unit :=
  match s.index.get? k with
  | some _ => (s, .err .invalidArgument)
  | none => ({ keys := s.keys ++ [k], index := s.index.insert k s.keys.length }, .ok ())

/-- uniform.cc:53-57 `Update`. -/
def update (s : Uniform) (k : Key) (_p : Pri) : Uniform × Res Unit :=
  match s.index.get? k with
  | none => (s, .err .invalidArgument)
  | some _ => (s, .ok ())

/-- uniform.cc:59-66 `Sample`, for the value `i` drawn by `absl::Uniform<size_t>(0, keys_.size())`.
A draw outside the range would read outside the vector. -/
def sampleAt (s : Uniform) (i : Nat) : Res (Key × Rat) :=
  match s.keys[i]? with
  | none => .died
  | some k => .ok (k, 1 / (s.keys.length : Rat))

/-- uniform.cc:68-71 `Clear`. -/
def clear (_s : Uniform) : Uniform := ⟨[], AMap.empty⟩

end Uniform
end Verif
