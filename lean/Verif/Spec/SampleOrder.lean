import Verif.Proofs.ClientSamplerFlow
/-
Words for the order in which a sampler returns samples.
-/
namespace Verif
namespace ClientSampler

/-- The samples that calls have taken and not returned yet. -/
def held (v : ClientSampler) : List Sample := v.calls.entries.filterMap fun e =>
  match e.2 with
  | .holding _ s => some s
  | _ => none

/-- All samples that workers have put into the queue, in order. -/
def arrived (v : ClientSampler) : List Sample := v.pushed.map Prod.snd

/-- The calls that returned `out` got the samples `done`, in order; the others got none and returned an error. -/
inductive Accounts (c : SamplerCfg) : List (SampleCall × Sample) → List SampleOut → Prop
  | nil : Accounts c [] []
  | sample {done out k s o} : Accounts c done out → k.outcome c s = .ok o → Accounts c (done ++ [(k, s)]) (out ++ [o])
  | other {done out} (st : Code) : Accounts c done out → Accounts c done (out ++ [.error st])

/-- Calls of `GetNextTimestep` that returned `out` went from one state of a sample to the other. -/
inductive Reads (c : SamplerCfg) : Sample → List SampleOut → Sample → Prop
  | nil (s : Sample) : Reads c s [] s
  | step {s s1 s2 : Sample} {out : List SampleOut} {o : SampleOut} : Reads c s out s1 → s1.isEndOfSample = false →
      s1.stepOutcome c = .ok (o, s2) → Reads c s (out ++ [o]) s2

/-- Calls of `GetNextTimestep` that returned `out` read the samples `done` to their ends, one after the other; the others got no sample
and returned an error. -/
inductive ReadAll (c : SamplerCfg) : List Sample → List SampleOut → Prop
  | nil : ReadAll c [] []
  | sample {done out s steps s'} : ReadAll c done out → Reads c s steps s' → s'.isEndOfSample = true →
      ReadAll c (done ++ [s]) (out ++ steps)
  | other {done out} (st : Code) : ReadAll c done out → ReadAll c done (out ++ [.error st])

/-- No call of `GetNextTimestep`. -/
def NoTimesteps : Event → Prop
  | .call _ k => k ≠ .timestep
  | _ => True

/-- Only calls of `GetNextTimestep`. -/
def OnlyTimesteps : Event → Prop
  | .call _ k => k = .timestep
  | _ => True

/-- Each call is made after the last one has returned. -/
def Serial (v : ClientSampler) : Event → Prop
  | .call _ _ => v.calls.size = 0
  | _ => True

end ClientSampler
end Verif
