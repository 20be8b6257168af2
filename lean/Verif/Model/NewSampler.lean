import Verif.Model.ClientSampler
/-
Model of how a client chooses the output spec of a new sampler: client.cc:60-108 and 154-308. The cache of signatures is a value here;
what the server answers is given.
-/
namespace Verif

/-- client.cc `internal::FlatSignatureMap`: the tables of the server, with a flat signature or without
(signature.h:60-62). -/
abbrev Signatures := AMap String (Option (List TensorSpec))

/-- client.cc:60-108 `MaybeUpdateServerInfoCache`: the cache if there is one; nothing if the timeout is minus infinity (`atOnce`); what
the server answers otherwise. The new value of the cache is the answer of the server. -/
def fetchSignatures (cached : Option Signatures) (atOnce : Bool) (server : Res Signatures) : Res Signatures :=
  match cached with
  | some s => .ok s
  | none => if atOnce then .ok .empty else server

/-- client.cc:227-238: key, probability, table size and priority. -/
def infoSpecs : List TensorSpec := [⟨.uint64, some []⟩, ⟨.double, some []⟩, ⟨.int64, some []⟩, ⟨.double, some []⟩]

/-- client.cc:195-246 `GetDtypesAndShapesForSampler`, given the signatures. -/
def samplerSpec (s : Signatures) (table : String) : Option (List TensorSpec) :=
  match s.get? table with
  | none => none
  | some none => none
  | some (some sig) => some (infoSpecs ++ sig)

/-- client.cc:175-193 `NewSampler` with only a timeout: the output spec. An error is logged or not even that. -/
def newSamplerSpec (sigs : Res Signatures) (table : String) : Option (List TensorSpec) :=
  match sigs with
  | .ok s => samplerSpec s table
  | _ => none

/-- client.cc:272-287: the loop over the requested types and shapes. -/
def requestFits : List TensorSpec → List TensorSpec → Bool
  | w :: ws, r :: rs => if w.dtype ≠ r.dtype ∨ w.shape.compatible r.shape = false then false else requestFits ws rs
  | _, _ => true

/-- client.cc:248-301 `NewSampler` with requested types and shapes (lists of the same length here, see 253-257): the output spec. -/
def newSamplerChecked (sigs : Res Signatures) (table : String) (request : List TensorSpec) : Res (Option (List TensorSpec)) :=
  match sigs with
  | .err e => .err e
  | .died => .died
  | .ok s =>
    match samplerSpec s table with
    | none => .ok (some request)
    | some specs =>
      if specs.length ≠ request.length then .err .invalidArgument
      else if requestFits specs request then .ok (some specs)
      else .err .invalidArgument

end Verif
