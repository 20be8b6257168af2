import Verif.Model.ChunkStore
/-
The words used in C49.
-/
namespace Verif.ChunkStore

/-- Keys of dead chunks that the cleaner has not erased yet. -/
def S.pending (s : S) : List Key := s.dying ++ s.queue ++ s.popped

/-- The states reached by any interleaving. -/
inductive Reachable : S → Prop
  | init : Reachable init
  | step {s r a} : Reachable s → step s a = some r → Reachable r.1

/-- The states reached if no key is inserted whose previous chunk is dead and not yet cleaned up. -/
inductive Tidy : S → Prop
  | init : Tidy init
  | step {s r a} : Tidy s → step s a = some r → (∀ k d, a = .insert k d → k ∉ s.pending) → Tidy r.1

/-- The states reached if no key is inserted again after a chunk with that key has died. -/
inductive NoReuse : S → Prop
  | init : NoReuse init
  | step {s r a} : NoReuse s → step s a = some r →
      (∀ k d, a = .insert k d → ∀ c ∈ s.chunks, c.key = k → 0 < c.refs) → NoReuse r.1

/-- The chunk with this number has this key and an owner. -/
def S.live (s : S) (id : Nat) (k : Key) : Prop := ∃ c, s.chunks[id]? = some c ∧ c.key = k ∧ 0 < c.refs

end Verif.ChunkStore
