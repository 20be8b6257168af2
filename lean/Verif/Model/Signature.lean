import Verif.Model.NewSampler
/-
Model of support/signature.cc: how the signature of a table is flattened.
-/
namespace Verif

/-- support/signature.h `TensorSpec`, with the name (signature.h:38-42). -/
structure NamedSpec where
  name : String
  spec : TensorSpec
  deriving DecidableEq, Repr

/-- TensorFlow's `StructuredValue`, as far as signature.cc looks at it. `bounded` has two bounds, which are ignored. The entries of a
`dict` are a map of protobuf, in any order; those of a `named` tuple a list of pairs. `other` are the remaining kinds (signature.cc:118-121).
Dimensions of less than -1, for which the constructor of `PartialTensorShape` dies, are left out. -/
inductive Sig where
  | spec (c : NamedSpec)
  | bounded (c : NamedSpec)
  | list (vs : List Sig)
  | tuple (vs : List Sig)
  | dict (fields : List (String × Sig))
  | named (fields : List (String × Sig))
  | other

/-- signature.cc:56-62 `ExtendContext`; a number is given by its decimal digits. -/
def extendContext (context val : String) : String :=
  context ++ (if context ≠ "" ∧ val ≠ "" then "/" else "") ++ val

/-- One key is put in its place among sorted ones (signature.cc:100-120, where the keys of a dictionary
are sorted). -/
def insertKey (k : String) : List String → List String
  | [] => [k]
  | l :: ls => if k ≤ l then k :: l :: ls else l :: insertKey k ls

/-- signature.cc:103 `std::sort` of strings. The order is that of the bytes, which for UTF-8 is the one of the characters. -/
def sortKeys : List String → List String
  | [] => []
  | k :: ks => insertKey k (sortKeys ks)

/-- One result after the other: the first failure ends the flattening (`REVERB_RETURN_IF_ERROR`)
(signature.cc:89-120). -/
def Res.append {α : Type} (a b : Res (List α)) : Res (List α) :=
  match a with
  | .err e => .err e
  | .died => .died
  | .ok xs =>
    match b with
    | .err e => .err e
    | .died => .died
    | .ok ys => .ok (xs ++ ys)

/-- signature.cc:104-108: the loop over the sorted keys. Flattening has no effect besides its result, so that the results are given here; a
key that is not there is a failed check of `at`. -/
def flattenKeys (subs : List (String × Res (List NamedSpec))) : List String → Res (List NamedSpec)
  | [] => .ok []
  | k :: ks =>
    match subs.lookup k with
    | none => .died
    | some r => r.append (flattenKeys subs ks)

mutual

/-- signature.cc:64-125 `FlatSignatureFromStructuredValue`: what is appended to the list. -/
def Sig.flattenIn (context : String) : Sig → Res (List NamedSpec)
  | .spec c => .ok [⟨extendContext context c.name, c.spec⟩]
  | .bounded c => .ok [⟨extendContext context c.name, c.spec⟩]
  | .list vs => Sig.flattenSeq context 0 vs
  | .tuple vs => Sig.flattenSeq context 0 vs
  | .dict fields => flattenKeys (Sig.flattenEach context fields) (sortKeys (fields.map Prod.fst))
  | .named fields => Sig.flattenPairs context fields
  | .other => .err .invalidArgument

/-- signature.cc:84-88, 91-95: the loop over a list or tuple, from element `i` on. -/
def Sig.flattenSeq (context : String) (i : Nat) : List Sig → Res (List NamedSpec)
  | [] => .ok []
  | v :: vs => (Sig.flattenIn (extendContext context (toString i)) v).append (Sig.flattenSeq context (i + 1) vs)

/-- signature.cc:105-107: what the entries of a dictionary give. -/
def Sig.flattenEach (context : String) : List (String × Sig) → List (String × Res (List NamedSpec))
  | [] => []
  | (k, v) :: fs => (k, Sig.flattenIn (extendContext context k) v) :: Sig.flattenEach context fs

/-- signature.cc:112-115: the loop over the fields of a named tuple. -/
def Sig.flattenPairs (context : String) : List (String × Sig) → Res (List NamedSpec)
  | [] => .ok []
  | (k, v) :: fs => (Sig.flattenIn (extendContext context k) v).append (Sig.flattenPairs context fs)

end

/-- signature.cc:129-133 `FlatSignatureFromStructuredValue`, starting with an empty list. -/
def Sig.flatten (s : Sig) : Res (List NamedSpec) := s.flattenIn ""

/-- signature.cc:36-52 `FlatSignatureFromTableInfo`; the message is left out. -/
def flatSignature (signature : Option Sig) : Res (Option (List NamedSpec)) :=
  match signature with
  | none => .ok none
  | some s =>
    match s.flatten with
    | .ok l => .ok (some l)
    | .err e => .err e
    | .died => .died

/-- client.cc:347-354: the signatures of all tables a server has told of, from the one given on; the first failure is returned. -/
def flatSignatures : List (String × Option Sig) → Signatures → Res Signatures
  | [], sigs => .ok sigs
  | (table, s) :: rest, sigs =>
    match flatSignature s with
    | .ok l => flatSignatures rest (sigs.insert table (l.map (·.map NamedSpec.spec)))
    | .err e => .err e
    | .died => .died

end Verif
