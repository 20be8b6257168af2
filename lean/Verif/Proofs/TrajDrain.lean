import Verif.Proofs.TrajLost
namespace Verif
namespace TrajWriter
open Chunker (Row Used Moves Held ident)

/-- The worker makes `n` steps in a constant environment. -/
def work (w : TrajWriter) (inp : Input) (n : Nat) : TrajWriter := w.run (List.replicate n (.worker inp))

theorem work_zero (w : TrajWriter) (inp : Input) : w.work inp 0 = w := rfl

theorem work_succ (w : TrajWriter) (inp : Input) (n : Nat) : w.work inp (n + 1) = (w.workerStep inp).1.work inp n := rfl

theorem work_add (w : TrajWriter) (inp : Input) (a b : Nat) : w.work inp (a + b) = (w.work inp a).work inp b := by
  rw [work, work, work, ← run_append, List.replicate_append_replicate]

theorem ready_congr {w w' : TrajWriter} (h : w'.chunkers = w.chunkers) (r : Ref) : w'.ready r = w.ready r := by
  simp [ready, cell?, h]

theorem ready_moves {w w' : TrajWriter} {b : Bool} (h : MMoves w.chunkers w'.chunkers b) {r : Ref} (hr : w.ready r = true) : w'.ready r = true := by
  obtain ⟨ch, hch⟩ := (ready_iff _ _).mp hr
  exact (ready_iff _ _).mpr ⟨ch, chunkOf_moves h hch⟩

/-- What the user sees of the writer stays. -/
structure Same (w w' : TrajWriter) : Prop where
  chunkers : w'.chunkers = w.chunkers
  queue : w'.queue = w.queue
  inFlight : w'.inFlight = w.inFlight
  closed : w'.closed = w.closed
  unrecoverable : w'.unrecoverable = w.unrecoverable
  items : itemsOf w'.msgs = itemsOf w.msgs

/-- The loop in `SendNotAlreadySentChunks`. -/
theorem work_chunks {inp : Input} (hok : inp.ok = true) {it : WItem} : ∀ {rest : List Ref} {w : TrajWriter}, w.phase = .chunks it rest →
    (∀ r ∈ rest, w.ready r = true) → (∀ r ∈ it.refs, r ∈ rest ∨ w.keyOf r ∈ w.streamed) →
    (w.work inp rest.length).phase = .chunks it [] ∧ Same w (w.work inp rest.length) ∧
      ∀ r ∈ it.refs, w.keyOf r ∈ (w.work inp rest.length).streamed
  | [], w, hp, _, hs => ⟨hp, ⟨rfl, rfl, rfl, rfl, rfl, rfl⟩, fun r hr => by
      rcases hs r hr with h | h
      · cases h
      · exact h⟩
  | r :: rest, w, hp, hr, hs => by
    rw [List.length_cons, work_succ]
    obtain ⟨ch, hch⟩ := (ready_iff _ _).mp (hr r List.mem_cons_self)
    have hstep : (w.workerStep inp).1 = w.sendChunk inp it r rest := by simp only [workerStep, hp]
    have hsc : ∃ w', w.sendChunk inp it r rest = w' ∧ w'.phase = .chunks it rest ∧ Same w w' ∧ w.keyOf r ∈ w'.streamed ∧ w.streamed ⊆ w'.streamed := by
      refine ⟨_, rfl, ?_⟩
      unfold sendChunk
      simp only [hch]
      split
      · rename_i hk
        exact ⟨rfl, ⟨rfl, rfl, rfl, rfl, rfl, rfl⟩, hk, fun _ h => h⟩
      · refine ⟨by simp [hok], ⟨rfl, rfl, rfl, rfl, rfl, ?_⟩, by simp, by simp⟩
        simp only
        split
        · simp [itemsOf]
        · rfl
    obtain ⟨w', he, g1, g2, g3, g4⟩ := hsc
    rw [hstep, he]
    obtain ⟨k1, k2, k3⟩ := work_chunks hok (it := it) (rest := rest) (w := w') g1
      (fun x hx => by rw [ready_congr g2.chunkers]; exact hr x (List.mem_cons_of_mem _ hx))
      (fun x hx => by
        rw [keyOf_congr g2.chunkers]
        rcases hs x hx with h | h
        · rcases List.mem_cons.mp h with rfl | h
          · exact .inr g3
          · exact .inl h
        · exact .inr (g4 h))
    refine ⟨k1, ⟨k2.chunkers.trans g2.chunkers, k2.queue.trans g2.queue, k2.inFlight.trans g2.inFlight, k2.closed.trans g2.closed,
      k2.unrecoverable.trans g2.unrecoverable, k2.items.trans g2.items⟩, fun x hx => ?_⟩
    have := k3 x hx
    rw [keyOf_congr g2.chunkers] at this
    exact this

/-- One item, from `GetNextPendingItem` on. -/
theorem work_item {w : TrajWriter} {rows : Nat → List Row} (hb : w.Base rows) {inp : Input} (hok : inp.ok = true) (hp : w.phase = .fetch)
    (hc : w.closed = false) {it : WItem} {q : List WItem} (hq : w.queue = it :: q) (hr : ∀ r ∈ it.refs, w.ready r = true) :
    ∃ n, (w.work inp n).phase = .fetch ∧ (w.work inp n).queue = q ∧ (w.work inp n).closed = false ∧
      (w.work inp n).unrecoverable = w.unrecoverable ∧ itemsOf (w.work inp n).msgs = itemsOf w.msgs ++ [it] ∧
      (w.work inp n).inFlight = (if it.key ∈ w.inFlight then w.inFlight else w.inFlight ++ [it.key]) ∧
      MMoves w.chunkers (w.work inp n).chunkers false := by
  have h1 : (w.workerStep inp).1 = { w with phase := .chunks it it.refs } := by
    simp [workerStep, hp, hc, hq]
  obtain ⟨a1, a2, a3⟩ := work_chunks hok (it := it) (rest := it.refs) (w := { w with phase := .chunks it it.refs }) rfl hr fun r hr => .inl hr
  refine ⟨1 + (it.refs.length + 5), ?_⟩
  rw [work_add, show w.work inp 1 = { w with phase := .chunks it it.refs } from h1, work_add]
  generalize TrajWriter.work { w with phase := .chunks it it.refs } inp it.refs.length = w1 at *
  have h2 : (w1.workerStep inp).1 = { w1 with phase := .check it } := by simp only [workerStep, a1]
  have h3 : (({ w1 with phase := .check it } : TrajWriter).workerStep inp).1 = { w1 with
      inFlight := if it.key ∈ w1.inFlight then w1.inFlight else w1.inFlight ++ [it.key]
      streamed := w1.keepKeys
      phase := .finalize it } := by
    simp only [workerStep, checkItem]
    rw [if_pos]
    · rfl
    · rw [List.all_eq_true]
      intro r hr
      have := a3 r hr
      rw [decide_eq_true_eq]
      rw [show ({ w1 with phase := .check it } : TrajWriter).keyOf r = TrajWriter.keyOf { w with phase := .chunks it it.refs } r from
        keyOf_congr a2.chunkers r]
      exact this
  obtain ⟨k1, k2⟩ := onAll_ok (f := finalizeOne inp.bytes it) (reset := false) (g := w.colGen) (rows := rows) (fun i c _ => by
        obtain ⟨op, o1, o2, o3, o4⟩ := finalizeOne_op inp.bytes it i c
        exact ⟨op, o1, o2, o3, fun h => by rw [o4] at h; cases h⟩) (is := w1.chunkers.keys) (m := w1.chunkers)
        (by rw [a2.chunkers]; exact hb.cols)
  rw [show (5 : Nat) = 0 + 1 + 1 + 1 + 1 + 1 from rfl, work_succ, h2, work_succ, h3, work_succ]
  simp only [workerStep]
  rw [work_succ]
  simp only [workerStep]
  rw [work_succ]
  simp only [workerStep, hok, if_true, work_zero]
  refine ⟨trivial, by rw [a2.queue]; simp [hq], by rw [a2.closed]; exact hc, a2.unrecoverable, ?_, by rw [a2.inFlight], ?_⟩
  · rw [itemsOf_append, a2.items]
    rfl
  · have := a2.chunkers
    simp only at this
    rw [this] at k2
    rw [this]
    exact k2

/-- The whole queue. -/
theorem work_queue {inp : Input} (hok : inp.ok = true) : ∀ {q : List WItem} {w : TrajWriter} {rows : Nat → List Row} {cr P : List WItem}
    {cf : List Key}, w.Inv rows cr cf P → w.phase = .fetch → w.closed = false → w.queue = q → (∀ it ∈ q, ∀ r ∈ it.refs, w.ready r = true) →
    ∃ n, (w.work inp n).phase = .fetch ∧ (w.work inp n).queue = [] ∧ (w.work inp n).unrecoverable = w.unrecoverable ∧
      itemsOf (w.work inp n).msgs = itemsOf w.msgs ++ q ∧ ∀ k ∈ (w.work inp n).inFlight, k ∈ w.inFlight ∨ k ∈ q.map WItem.key
  | [], w, rows, cr, P, cf, hi, hp, hc, hq, _ => ⟨0, hp, hq, rfl, by simp [work_zero], fun k hk => .inl hk⟩
  | it :: q, w, rows, cr, P, cf, hi, hp, hc, hq, hr => by
    obtain ⟨n, a1, a2, a3, a4, a5, a6, a7⟩ := work_item hi.base hok hp hc hq (hr it List.mem_cons_self)
    obtain ⟨rows', P', hi', _⟩ := hi.run (evs := List.replicate n (.worker inp)) fun e he => by
      rw [List.eq_of_mem_replicate he]; trivial
    obtain ⟨m, b1, b2, b3, b4, b5⟩ := work_queue hok (q := q) (w := w.work inp n) hi' a1 a3 a2 fun x hx r hr2 =>
      ready_moves a7 (hr x (List.mem_cons_of_mem _ hx) r hr2)
    refine ⟨n + m, ?_⟩
    rw [work_add]
    refine ⟨b1, b2, b3.trans a4, by rw [b4, a5]; simp, fun k hk => ?_⟩
    rcases b5 k hk with h | h
    · rw [a6] at h
      split at h
      · exact .inl h
      · rcases List.mem_append.mp h with h | h
        · exact .inl h
        · simp only [List.mem_singleton] at h
          subst h
          exact .inr (by simp)
    · exact .inr (List.mem_cons_of_mem _ h)

end TrajWriter
end Verif
