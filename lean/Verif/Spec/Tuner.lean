import Verif.Spec.Chunker
/-
Words for C110: what the automatic tuning of the chunk length goes by (documentation at chunker.h:303-345).
-/
namespace Verif
namespace Tuner

/-- The last `n` of a list. -/
def newest {α : Type} (n : Nat) (l : List α) : List α := l.drop (l.length - n)

/-- The average. -/
def mean (l : List Rat) : Rat := l.sum / (l.length : Nat)

/-- The average length of the chunks of an item. A chunk referenced several times counts once. -/
def itemLength (refs : List ChunkObs) : Rat := mean (refs.eraseDups.map fun c => ((c.length : Nat) : Rat))

/-- The bytes of the chunks of an item for each of its steps. A chunk referenced several times is sent once. -/
def itemBytes (refs : List ChunkObs) : Rat := (refs.eraseDups.map fun c => ((c.bytes : Nat) : Rat)).sum / (refs.length : Nat)

/-- The buffer of chunks after the items of a round: the five newest; a chunk that is already there does not enter again. -/
def chunkBuffer (round : List (List ChunkObs)) : List ChunkObs :=
  round.foldl (fun buffer refs => newest 5 (buffer ++ refs.eraseDups.filter fun c => decide (c ∉ buffer))) []

/-- The average chunk length when a round is scored: over its ten newest items and the chunks in the buffer. -/
def length (round : List (List ChunkObs)) : Rat :=
  mean ((newest 10 round).map itemLength ++ (chunkBuffer round).map fun c => ((c.length : Nat) : Rat))

/-- The cost when a round is scored: `bytes_per_step_in_item * throughput_weight + bytes_per_step_in_chunks`. -/
def cost (weight : Rat) (round : List (List ChunkObs)) : Rat :=
  mean ((newest 10 round).map itemBytes) * weight +
    mean ((chunkBuffer round).map fun c => ((c.bytes : Nat) : Rat) / ((c.length : Nat) : Rat))

/-- Can the round be scored? -/
def full (round : List (List ChunkObs)) : Bool := decide (10 ≤ round.length ∧ 5 ≤ (chunkBuffer round).length)

/-- The two numbers of a score. -/
def scored (weight : Rat) (round : List (List ChunkObs)) : Score := ⟨length round, cost weight round⟩

/-- The items since the last scoring, when `items` have been observed one by one. -/
def roundOf (items : List (List ChunkObs)) : List (List ChunkObs) :=
  items.foldl (fun round refs => if full (round ++ [refs]) then [] else round ++ [refs]) []

/-- Chunks with the same key are the same chunk. -/
def OneEach (items : List (List ChunkObs)) : Prop :=
  ∀ r ∈ items, ∀ r' ∈ items, ∀ c ∈ r, ∀ c' ∈ r', c.key = c'.key → c = c'

end Tuner
end Verif
