import Verif.Model.ClientSampler
/-
Words for what the client sampler does.
-/
namespace Verif

/-- What the call returned completes a sample. -/
def SampleOut.complete : SampleOut → Bool
  | .timestep _ last => last
  | .batched _ _ => true
  | .trajectory _ => true
  | .error _ => false

/-- The call returned an error. -/
def SampleOut.isError : SampleOut → Bool
  | .error _ => true
  | _ => false

namespace ClientSampler

/-- All schedules of events that satisfy `P`, and where they lead. -/
inductive Reach (c : SamplerCfg) (now : Int) (P : ClientSampler → Event → Prop) : List Event → ClientSampler → Prop
  | init : Reach c now P [] (init c now)
  | step {evs e v v'} : Reach c now P evs v → P v e → step c v e = some v' → Reach c now P (evs ++ [e]) v'

/-- The server sends no more samples than a request asks for, and the table gives no more than one batch (see C55 and C20 for the servers
and tables of this model). -/
def Faithful (v : ClientSampler) : Event → Prop
  | .response i es => ∀ cl n got want sampled parts,
      v.workers[i]? = some ⟨cl, .fetch n got (.reading want sampled parts)⟩ → ((es.filter Entry.last).length : Int) ≤ want - sampled
  | .answer i (.ok l) => ∀ cl n got final base batch deadline,
      v.workers[i]? = some ⟨cl, .fetch n got (.sampling final base batch deadline)⟩ → (l.length : Int) ≤ batch
  | _ => True

/-- The samples that calls have returned completely. -/
def delivered (v : ClientSampler) : Nat := v.log.countP SampleOut.complete

/-- The number of samples in all requests that have been sent. -/
def asked (v : ClientSampler) : Int := (v.sent.map SampleReq.num).sum

/-- There is a sample of which `GetNextTimestep` has returned a part. -/
def partlyRead (v : ClientSampler) : Bool := v.active.any fun s => !s.isEndOfSample

/-- Call `x` is waiting in `Pop`. -/
def Waits (v : ClientSampler) (x : Nat) : Prop := ∃ k since, v.calls.get? x = some (.popping k since)

/-- Worker `i` waits for the server or the table. -/
def WaitsOutside (v : ClientSampler) (i : Nat) : Prop := ∃ cl n got f, v.workers[i]? = some ⟨cl, .fetch n got f⟩ ∧
  ((f = .asking ∧ got < n) ∨ (∃ want sampled parts, f = .reading want sampled parts) ∨
    ∃ final base batch deadline, f = .sampling final base batch deadline)

/-- A step of the sampler itself, without anything from outside. -/
def Event.isOwn : Event → Bool
  | .pop _ => true
  | .finish _ => true
  | .work _ => true
  | .closeStep => true
  | _ => false

end ClientSampler
end Verif
