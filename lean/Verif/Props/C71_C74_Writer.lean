import Verif.Proofs.WriterFlow
import Verif.Proofs.WriterKept
import Verif.Proofs.Rows
import Verif.Props.C42_Writer
/-
C71: items in flight. C72: confirmations. C73: signatures. C74: `AppendSequence`.
-/
namespace Verif
namespace Writer

/-! ### C71 -/

/-- **C71.** With `max_in_flight_items = k ≥ 1`, whatever calls are made, whatever the server does, and also in the middle of a call: the
number of items that were given to `Write` on the current stream is at most `k` greater than the number of confirmations that were read
from this stream. The middle of a call is where it waits when the answers that it has got are used up. -/
theorem C71 {w w1 : Writer} (hn : w.New) {k : Int} (hk : 1 ≤ k) (hm : w.maxInFlight = some k) {evs : List Event} (hrun : w.run evs = some w1)
    (c : Call) (as : List Answer) : ((itemsOf (w1.call c as).1.msgs).length : Int) ≤ (w1.call c as).1.acks + k := by
  obtain ⟨h1, h2⟩ := Flow.new hn (by omega) hm
  obtain ⟨g1, g2⟩ := run_flow (by omega) h1 h2 hrun
  exact (call_flow (by omega) c as g1 g2).1.items

namespace Demo

/-- At most two items in flight. -/
def two : Writer := .new 1 4 false (some 2) none id fun _ => false

/-- Three items of one step. -/
def threeItems : List Event :=
  [(.append [x 1], []), (.createItem "t" 1 (.val 1), [.write true]), (.createItem "t" 1 (.val 2), [.write true])]

/-- The bound is reached: two items are written, none is confirmed, and the third one is not written before the server has confirmed one. -/
theorem two_run : (two.run threeItems).any (fun w1 => (itemsOf w1.msgs).length == 2 && w1.acks == 0 &&
    (w1.createItem "t" 1 (.val 3) [.write true]).2.1 == .blocked &&
    (itemsOf (w1.createItem "t" 1 (.val 3) [.write true]).1.msgs).length == 2 &&
    (w1.createItem "t" 1 (.val 3) [.confirms 1 false, .write true]).2.1 == .ret none &&
    (itemsOf (w1.createItem "t" 1 (.val 3) [.confirms 1 false, .write true]).1.msgs).length == 3) = true := by decide

theorem two_new : two.New := ⟨rfl, fun _ _ h => h⟩

end Demo

/-! ### C72 -/

/-- **C72, with nothing pending.** If `max_in_flight_items` is set and no item is pending, then a `Flush` that returns OK has waited for the server: as many
confirmations have been read from the stream as items have been sent on it. -/
theorem C72_flush_partial {w w1 : Writer} (hn : w.New) {k : Int} (hk : 1 ≤ k) (hm : w.maxInFlight = some k) {evs : List Event}
    (hrun : w.run evs = some w1) (hp : w1.pending = []) {as : List Answer} (h : (w1.flush as).2.1 = .ret none) :
    (w1.flush as).1.written ≤ (w1.flush as).1.acks := by
  obtain ⟨h1, h2⟩ := Flow.new hn (by omega) hm
  obtain ⟨g1, g2⟩ := run_flow (by omega) h1 h2 hrun
  have g3 := (call_flow (by omega) .flush as g1 g2).1.count
  have g3 : ((w1.flush as).1.written : Int) - (w1.flush as).1.acks ≤ (w1.flush as).1.inFlight := g3
  have g4 := (confirmItems_flow 0 as w1 g1).2
  have g5 : (w1.flush as).1.inFlight ≤ 0 := by
    unfold flush at h ⊢
    split at h
    · cases h
    · rw [if_neg (by assumption)]
      rw [if_neg (by simp [hp])] at h ⊢
      obtain ⟨⟨w2, r2, as2⟩, he⟩ : ∃ x, confirmItems 0 as w1 = x := ⟨_, rfl⟩
      rw [he] at h g4 ⊢
      cases r2 with
      | blocked => cases h
      | died => cases h
      | ret b =>
        cases b with
        | false => cases h
        | true => exact g4 rfl
  omega

/-- One item is written and confirmed. -/
def confirmedItem : List Event := [(.append [Demo.x 1], []), (.createItem "t" 1 (.val 1), [.write true])]

/-- The hypotheses of `C72_flush_partial` are met: `Flush` waits, and returns when the confirmation has been read. -/
theorem flush_waits : (Demo.two.run confirmedItem).any (fun w1 => w1.pending == [] && (w1.flush []).2.1 == .blocked &&
    (w1.flush [.confirms 1 false]).2.1 == .ret none) = true := by decide

/-- A step and an item that waits for its chunk. -/
def pendingItem : List Event := [(.append [Demo.x 1], []), (.createItem "t" 1 (.val 1), [])]

/-- A writer with chunks of two steps and at most two items in flight. -/
def limited2 : Writer := .new 2 4 false (some 2) none id fun _ => false

/-- **C72 fails when items are pending.** The documentation says that `Flush` blocks until the server has confirmed that all items have been written.
If items are pending it writes them and returns OK without a confirmation. -/
theorem C72_flush : ∃ w1, limited2.run pendingItem = some w1 ∧ (w1.flush [.write true]).2.1 = .ret none ∧
    (w1.flush [.write true]).1.written = 1 ∧ (w1.flush [.write true]).1.acks = 0 := by
  obtain ⟨w1, h, hp⟩ := (Option.any_eq_true _ _).mp (by decide : (limited2.run pendingItem).any (fun w1 =>
    (w1.flush [.write true]).2.1 == .ret none && (w1.flush [.write true]).1.written == 1 && (w1.flush [.write true]).1.acks == 0) = true)
  simp only [Bool.and_eq_true, beq_iff_eq] at hp
  exact ⟨w1, h, hp.1.1, hp.1.2, hp.2⟩

/-- **C72 fails for Close.** `Close` returns OK though no confirmation came and the stream ended with an error: what goes wrong while the stream is
closed is only logged. -/
theorem C72_close : ∃ w1, Demo.two.run confirmedItem = some w1 ∧ w1.written = 1 ∧ w1.acks = 0 ∧
    (w1.close true [.confirms 0 true, .finish (some .internal)]).2.1 = .ret none := by
  obtain ⟨w1, h, hp⟩ := (Option.any_eq_true _ _).mp (by decide : (Demo.two.run confirmedItem).any (fun w1 =>
    w1.written == 1 && w1.acks == 0 && (w1.close true [.confirms 0 true, .finish (some .internal)]).2.1 == .ret none) = true)
  simp only [Bool.and_eq_true, beq_iff_eq] at hp
  exact ⟨w1, h, hp.1.1, hp.1.2, hp.2⟩

/-! ### C73 -/

/-- **C73, soundness.** If `CreateItem` returns OK for `n` steps, and at least `n` steps were appended, then the client knew of the table (if it knew
of tables at all) and, if the table has a signature, each of the last `n` steps agrees with it. -/
theorem C73 {w w1 : Writer} (hn : w.New) {evs : List Event} (hrun : w.run evs = some w1) {table : String} {n : Nat} {priority : Pri}
    {as : List Answer} (hle : n ≤ (w.history evs).length) (h : (w1.createItem table n priority as).2.1 = .ret none) :
    Signatures.Allow w1.sigs table (lastSteps n (w.history evs)) := by
  unfold createItem at h
  split at h
  · cases h
  rename_i hc
  split at h
  · cases h
  split at h
  · cases h
  rename_i hmax
  have hs := checkSignature_iff (ring_of_run hn hrun (by simpa using hc)) hle (by omega) table
  rcases hs.2 with g | g
  · exact hs.1.mp g
  · rw [Int.toNat_natCast, g] at h
    cases h

/-- **C73, refusal.** If the steps do not agree with the signature, or the table is not known, then an open writer refuses the item as invalid and nothing
changes, so that the next calls are not affected. -/
theorem C73_refused {w w1 : Writer} (hn : w.New) {evs : List Event} (hrun : w.run evs = some w1) (hopen : w1.closed = false) {table : String}
    {n : Nat} {priority : Pri} {as : List Answer} (hle : n ≤ (w.history evs).length)
    (h : ¬ Signatures.Allow w1.sigs table (lastSteps n (w.history evs))) :
    w1.createItem table n priority as = (w1, .ret (some .invalidArgument), as) := by
  unfold createItem
  rw [if_neg (by simp [hopen])]
  split
  · rfl
  split
  · rfl
  rename_i hmax
  have hs := checkSignature_iff (ring_of_run hn hrun hopen) hle (by omega) table
  rw [Int.toNat_natCast]
  rcases hs.2 with g | g
  · exact absurd (hs.1.mp g) h
  · rw [g]

/-- The signatures of the examples: scalars of 32 bits, or a vector of any length. -/
def someSigs : Signatures := AMap.insert (AMap.insert .empty "scalars" (some [⟨.int32, some []⟩])) "vectors" (some [⟨.int32, some [none]⟩])

/-- A writer with these. -/
def signed : Writer := .new 2 4 false none (some someSigs) id fun _ => false

/-- Both theorems apply: an item of the last step is accepted for one table, and refused for the other one and for an unknown one. -/
theorem signed_run : (signed.run [(.append [Demo.x 1], [])]).any (fun w1 =>
    (w1.createItem "scalars" 1 (.val 1) []).2.1 == .ret none &&
    (w1.createItem "vectors" 1 (.val 1) []).2.1 == .ret (some .invalidArgument) &&
    (w1.createItem "other" 1 (.val 1) []).2.1 == .ret (some .invalidArgument)) = true := by decide

/-! ### C74 -/

theorem append_none_or {w : Writer} {step : Timestep} {as : List Answer} {f : Writer → List Answer → Writer × Ret (Option Code) × List Answer} :
    (match w.append step as with
      | (w1, .ret none, as1) => f w1 as1
      | (w1, .ret (some e), as1) => (w1, .ret (some e), as1)
      | (w1, .blocked, as1) => (w1, .blocked, as1)
      | (w1, .died, as1) => (w1, .died, as1)) =
    if (w.append step as).2.1 = .ret none then f (w.append step as).1 (w.append step as).2.2 else w.append step as := by
  obtain ⟨w1, r, as1⟩ := w.append step as
  rcases r with (_ | _) | _ | _
  · rfl
  · rfl
  · rfl
  · rfl

theorem subSlices {cols : List (DType × List Nat × List Tensor)} (hrows : ∀ c ∈ cols, ∀ t ∈ c.2.2, Tensor.Is c.1 c.2.1 t) {i : Nat}
    (hi : ∀ c ∈ cols, i < c.2.2.length) :
    (cols.map fun c => Tensor.stack c.1 c.2.1 c.2.2).mapM (·.row? i) =
      some (cols.filterMap fun c => c.2.2[i]?) := by
  induction cols with
  | nil => rfl
  | cons c cs ih =>
    have h1 : (Tensor.stack c.1 c.2.1 c.2.2).row? i = some (c.2.2[i]'(hi c List.mem_cons_self)) := by
      unfold Tensor.row?
      rw [Tensor.subSlice_stack (hrows c List.mem_cons_self) (hi c List.mem_cons_self)]
    rw [List.map_cons, List.mapM_cons, ih (fun c hc => hrows c (List.mem_cons_of_mem _ hc)) (fun c hc => hi c (List.mem_cons_of_mem _ hc)), h1,
      List.filterMap_cons, List.getElem?_eq_getElem (hi c List.mem_cons_self)]
    rfl

theorem appendRows_eq {cols : List (DType × List Nat × List Tensor)} {T : Nat} (hrows : ∀ c ∈ cols, ∀ t ∈ c.2.2, Tensor.Is c.1 c.2.1 t)
    (hlen : ∀ c ∈ cols, c.2.2.length = T) : ∀ (n i : Nat) (w : Writer) (as : List Answer), i + n = T →
    appendRows (cols.map fun c => Tensor.stack c.1 c.2.1 c.2.2) i n w as =
      w.appendEach as ((List.range' i n).map fun j => cols.filterMap fun c => c.2.2[j]?)
  | 0, i, w, as, _ => rfl
  | n + 1, i, w, as, h => by
    unfold appendRows
    rw [subSlices hrows fun c hc => by rw [hlen c hc]; omega]
    dsimp only
    refine (append_none_or (f := fun w1 as1 => appendRows (cols.map fun c => Tensor.stack c.1 c.2.1 c.2.2) (i + 1) n w1 as1)).trans ?_
    rw [List.range'_succ, List.map_cons, appendEach]
    split
    · exact appendRows_eq hrows hlen n (i + 1) _ _ (by omega)
    · rfl

/-- **C74.** `AppendSequence` with columns that are batches of `T` rows each is the same as calling `Append` for each of the `T` steps that consist of
the `i`-th rows, one after the other, until one fails: the state of the writer, the result and what is asked of the server are the
same. -/
theorem C74 {cols : List (DType × List Nat × List Tensor)} (hne : cols ≠ []) {T : Nat} (hlen : ∀ c ∈ cols, c.2.2.length = T)
    (hrows : ∀ c ∈ cols, ∀ t ∈ c.2.2, Tensor.Is c.1 c.2.1 t) (w : Writer) (as : List Answer) :
    w.appendSequence (cols.map fun c => Tensor.stack c.1 c.2.1 c.2.2) as =
      w.appendEach as ((List.range T).map fun i => cols.filterMap fun c => c.2.2[i]?) := by
  obtain ⟨c, cs, rfl⟩ := List.exists_cons_of_ne_nil hne
  unfold appendSequence
  rw [List.map_cons]
  dsimp only
  rw [if_neg]
  · have h := appendRows_eq hrows hlen T 0 w as (by omega)
    rw [List.map_cons] at h
    have e : (Tensor.stack c.1 c.2.1 c.2.2).shape.headD 0 = T := by
      simp [Tensor.stack, hlen c List.mem_cons_self]
    rw [e, h, List.range_eq_range']
  · simp only [Bool.not_eq_true, List.any_eq_false]
    intro t ht
    rw [← List.map_cons (f := fun c : DType × List Nat × List Tensor => Tensor.stack c.1 c.2.1 c.2.2)] at ht
    obtain ⟨d, hd, rfl⟩ := List.mem_map.mp ht
    simp [Tensor.stack, hlen d hd, hlen c List.mem_cons_self]

/-- **C74, refusal.** Without columns, with a scalar or with columns of different lengths nothing is appended. -/
theorem C74_refused (w : Writer) (seq : List Tensor) (as : List Answer)
    (h : seq = [] ∨ (∃ t ∈ seq, t.shape = []) ∨ ∃ t ∈ seq, ∃ u ∈ seq, t.shape.head? ≠ u.shape.head?) :
    w.appendSequence seq as = (w, .ret (some .invalidArgument), as) := by
  unfold appendSequence
  cases seq with
  | nil => rfl
  | cons first rest =>
    dsimp only
    rw [if_pos]
    rw [List.any_eq_true]
    rcases h with h | ⟨t, ht, h⟩ | ⟨t, ht, u, hu, h⟩
    · cases h
    · exact ⟨t, ht, by simp [h]⟩
    · by_cases he : t.shape.head? = first.shape.head?
      · exact ⟨u, hu, by simp [← he, Ne.symm h]⟩
      · exact ⟨t, ht, by simp [he]⟩

/-- Two columns with three rows each, of which the third step completes no chunk. -/
def sequence : List (DType × List Nat × List Tensor) := [(.int32, [], [Demo.x 1, Demo.x 2, Demo.x 3]), (.int32, [], [Demo.x 4, Demo.x 5, Demo.x 6])]

theorem sequence_ok : (∀ c ∈ sequence, c.2.2.length = 3) ∧ (∀ c ∈ sequence, ∀ t ∈ c.2.2, Tensor.Is c.1 c.2.1 t) ∧
    (Demo.writer.appendSequence (sequence.map fun c => Tensor.stack c.1 c.2.1 c.2.2) []).1.buffer = [[Demo.x 3, Demo.x 6]] ∧
    (Demo.writer.appendSequence (sequence.map fun c => Tensor.stack c.1 c.2.1 c.2.2) []).1.chunks.length = 1 := by
  refine ⟨by decide, ?_, by decide, by decide⟩
  intro c hc t ht
  simp only [sequence, List.mem_cons, List.not_mem_nil, or_false] at hc
  rcases hc with rfl | rfl
  all_goals
    simp only [List.mem_cons, List.not_mem_nil, or_false] at ht
    rcases ht with rfl | rfl | rfl <;> exact ⟨Demo.wf _, rfl, rfl⟩

end Writer
end Verif
