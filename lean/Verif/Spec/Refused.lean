import Verif.Spec.EndToEndSteps
import Verif.Spec.OutputSpec
import Verif.Spec.SampleOrder
import Verif.Spec.ClientSampler
import Verif.Spec.EndToEnd
/-
Words for C115.
-/
namespace Verif

/-- The client knows a signature of the table. -/
def Knows (sigs : Option Signatures) (table : String) (sig : List TensorSpec) : Prop := ∃ m, sigs = some m ∧ m.get? table = some (some sig)

namespace TrajWriter

/-- The calls that somebody has made on one trajectory writer. The references of the items that were accepted are ones that `Append`
returned, and neighbours that are in the same chunk are steps that follow each other (see C33). -/
structure Use where
  writer : TrajWriter
  calls : List Event
  started : writer.Started
  valid : ∀ e ∈ calls, e.Valid
  refs : ∀ pre t p cols post k, calls = pre ++ .createItem t p cols :: post → writer.replyAt pre (.createItem t p cols) = .ok (.item k) →
    (∃ values, writer.Gives pre cols values) ∧ ∀ col ∈ cols, (writer.run pre).Contiguous col.refs

end TrajWriter

/-- What is inserted through the streams `ins` was written by these trajectory writers, or is the first part of it. -/
def TrajWrittenBy {ι : Type} (ins : Nat → List InsertReq) (users : ι → TrajWriter.Use) : Prop :=
  ∀ s, ∃ u, ∃ str ∈ ((users u).writer.run (users u).calls).streams, ins s <+: str.map Msg.toReq

namespace ClientSampler

/-- Only calls of `GetNextTrajectory`. -/
def OnlyTrajectories : Event → Prop
  | .call _ k => k = .trajectory
  | _ => True

/-- No calls of `GetNextTrajectory`. -/
def NoTrajectories : Event → Prop
  | .call _ k => k ≠ .trajectory
  | _ => True

/-- No sample was refused: a call returned an error only when the queue of the sampler had been closed, and it was the status of that: all samples
have been returned, `Close` was called, or a worker could not go on. -/
def NoneRefused (v : ClientSampler) : Prop :=
  ∀ e, .error e ∈ v.log → v.queueClosed = true ∧ (e = .outOfRange ∨ e = .cancelled ∧ v.closed = true ∨ v.status = some e)

/-- No worker had to stop because of a sample: what came on the streams could all be unpacked. -/
def AllUnpacked (L : Links) : Prop := ∀ q, ∀ r ∈ clientSamples (L.read q), ∃ s, r = .ok s

end ClientSampler
end Verif
