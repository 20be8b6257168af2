import Verif.Model.Signature
/-
What a leaf of a nested signature is, and where it is (C52).
-/
namespace Verif

/-- One step down into a nested signature: to an element of a list or tuple, an entry of a dictionary, or a field of a named tuple, which
has a position and a name. -/
inductive PathStep where
  | pos (i : Nat)
  | key (k : String)
  | field (i : Nat) (k : String)
  deriving DecidableEq, Repr

/-- What the step is called. -/
def PathStep.name : PathStep → String
  | .pos i => toString i
  | .key k => k
  | .field _ k => k

/-- Positions come in their order, and keys in theirs. -/
inductive PathStep.Before : PathStep → PathStep → Prop
  | pos {i j : Nat} : i < j → Before (.pos i) (.pos j)
  | key {k l : String} : k < l → Before (.key k) (.key l)
  | field {i j : Nat} {k l : String} : i < j → Before (.field i k) (.field j l)

/-- The first step in which two paths differ decides which one comes first. -/
inductive PathBefore : List PathStep → List PathStep → Prop
  | here {a b : PathStep} {p q : List PathStep} : a.Before b → PathBefore (a :: p) (b :: q)
  | there {a : PathStep} {p q : List PathStep} : PathBefore p q → PathBefore (a :: p) (a :: q)

/-- The path `p` leads from the first signature to the second one. -/
inductive Sig.At : Sig → List PathStep → Sig → Prop
  | here {s : Sig} : At s [] s
  | list {vs : List Sig} {i : Nat} {v t : Sig} {p : List PathStep} : vs[i]? = some v → At v p t → At (.list vs) (.pos i :: p) t
  | tuple {vs : List Sig} {i : Nat} {v t : Sig} {p : List PathStep} : vs[i]? = some v → At v p t → At (.tuple vs) (.pos i :: p) t
  | dict {fs : List (String × Sig)} {k : String} {v t : Sig} {p : List PathStep} :
      (k, v) ∈ fs → At v p t → At (.dict fs) (.key k :: p) t
  | named {fs : List (String × Sig)} {i : Nat} {k : String} {v t : Sig} {p : List PathStep} :
      fs[i]? = some (k, v) → At v p t → At (.named fs) (.field i k :: p) t

/-- At the end of the path is a tensor, with or without bounds. -/
def Sig.Leaf (s : Sig) (p : List PathStep) (c : NamedSpec) : Prop := s.At p (.spec c) ∨ s.At p (.bounded c)

/-- The keys of a dictionary are distinct, everywhere in the signature: this is so for every map of protobuf. -/
def Sig.WF (s : Sig) : Prop := ∀ p fs, s.At p (.dict fs) → (fs.map Prod.fst).Nodup

/-- The names of the steps and the own name of the tensor, as far as they are not empty, with slashes between them. -/
def pathName (p : List PathStep) (own : String) : String := "/".intercalate ((p.map PathStep.name ++ [own]).filter (· ≠ ""))

end Verif
