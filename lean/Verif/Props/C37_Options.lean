import Verif.Proofs.TrajOpts
import Verif.Props.C38_C40_TrajStreams
/-
C37: are the options that the user asked for the ones that the columns use?
-/
namespace Verif
namespace TrajWriter

/-- C37, the part about constant options that is true: the column works with the length and the number of kept references asked for. It does
not use the delta encoding asked for. -/
theorem C37_constant_partial {w : TrajWriter} (hs : w.Started) (evs : List Event) {i : Nat} {c : Chunker}
    (hc : (w.run evs).chunkers.get? i = some c) {m k : Int} {d : Bool} (ha : w.asked i w.opts evs = .constant m k d) :
    c.opts = .constant m k false := by
  have h := (hs.optInv.run evs).all i c hc
  have h1 := h.opts
  have h2 := h.delta
  simp only [ha] at h1
  cases ho : c.opts with
  | constant m' k' d' =>
    rw [ho] at h1 h2
    simp only [ChunkerOpts.clone, ChunkerOpts.delta, ChunkerOpts.constant.injEq] at h1 h2
    rw [h1.1, h1.2.1, h2]
  | auto a =>
    rw [ho] at h1
    simp [ChunkerOpts.clone] at h1

/-- C37, the part about auto-tuned options that is true. -/
theorem C37_auto_partial {w : TrajWriter} (hs : w.Started) (evs : List Event) {i : Nat} {c : Chunker}
    (hc : (w.run evs).chunkers.get? i = some c) {a : AutoTuned} (ha : w.asked i w.opts evs = .auto a) :
    ∃ b, c.opts = .auto b ∧ b.keep = a.keep ∧ b.weight = a.weight ∧ b.delta = false := by
  have h := (hs.optInv.run evs).all i c hc
  have h1 := h.opts
  have h2 := h.delta
  simp only [ha] at h1
  cases ho : c.opts with
  | constant m' k' d' =>
    rw [ho] at h1
    simp [ChunkerOpts.clone] at h1
  | auto b =>
    rw [ho] at h1 h2
    simp only [ChunkerOpts.clone, AutoTuned.new, ChunkerOpts.auto.injEq, AutoTuned.mk.injEq] at h1
    exact ⟨b, rfl, h1.1, h1.2.2.1, h2⟩

/-- C37 fails: whatever was asked for, no chunk is delta encoded. -/
theorem C37_never_delta {w : TrajWriter} (hs : w.Started) (evs : List Event) {r : Ref} {ch : ChunkData}
    (hc : (w.run evs).chunkOf r = some ch) : ch.deltaEncoded = false := by
  have h := (hs.optInv.run evs).all
  unfold chunkOf cell? at hc
  cases hg : (w.run evs).chunkers.get? r.col with
  | none => simp [hg] at hc
  | some c =>
    rw [hg] at hc
    simp only [Option.bind_some] at hc
    cases hx : c.cells[r.id]? with
    | none => simp [hx] at hc
    | some x =>
      rw [hx] at hc
      exact (h _ c hg).cells x (List.mem_of_getElem? hx) ch hc

/-! ### Examples -/
namespace TrajDemo

/-- Delta encoding is asked for at first, then another length for column 0, which is refused while there are rows in the buffer. -/
def configured : List Event :=
  [.configure 1 (.constant 3 3 true), .append [some (row 5), some (row 8)] true, .configure 0 (.constant 1 2 true),
   .append [some (row 6)] true, .configure 0 (.constant 1 3 true)]

example : (writer (.constant 2 4 true)).replyAt (configured.take 2) (.configure 0 (.constant 1 2 true)) = .err .failedPrecondition ∧
    (writer (.constant 2 4 true)).asked 0 (.constant 2 4 true) (configured.take 4) = .constant 2 4 true ∧
    (writer (.constant 2 4 true)).asked 0 (.constant 2 4 true) configured = .constant 1 3 true ∧
    (writer (.constant 2 4 true)).asked 1 (.constant 2 4 true) configured = .constant 3 3 true ∧
    (((writer (.constant 2 4 true)).run configured).chunkers.get? 0).map Chunker.opts = some (.constant 1 3 false) ∧
    (((writer (.constant 2 4 true)).run configured).chunkers.get? 1).map Chunker.opts = some (.constant 3 3 false) := by decide +kernel

/-- C37 fails: delta encoding was asked for, but the chunk is not delta encoded. -/
theorem C37_delta_dropped : (writer (.constant 2 4 true)).Started ∧
    ((writer (.constant 2 4 true)).asked 0 (.constant 2 4 true) (configured.take 4)).delta = true ∧
    (((writer (.constant 2 4 true)).run (configured.take 4)).chunkOf ⟨0, 0⟩).map ChunkData.deltaEncoded = some false :=
  ⟨started (by decide), by decide +kernel, by decide +kernel⟩

end TrajDemo
end TrajWriter
end Verif
