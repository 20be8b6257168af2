import Verif.Proofs.WriterFull
/-
The number of unconfirmed items of the old writer.
-/
namespace Verif
namespace Writer

/-- At most `k` items are unconfirmed. -/
structure Flow (k : Int) (w : Writer) : Prop where
  max : w.maxInFlight = some k
  count : (w.written : Int) - w.acks ≤ w.inFlight
  bound : w.inFlight ≤ k
  items : ((itemsOf w.msgs).length : Int) ≤ w.acks + k

/-- The number of items written to an open stream is that of the items that were sent. -/
def Exact (w : Writer) : Prop := w.half = false → (itemsOf w.msgs).length = w.written

theorem Quiet.exact {w w' : Writer} (q : w.Quiet w') (h : w.Exact) : w'.Exact := by
  obtain ⟨i, r, a, rfl⟩ := q
  exact h

theorem confirmItems_flow {k : Int} (limit : Int) : ∀ (as : List Answer) (w : Writer), Flow k w → Flow k (confirmItems limit as w).1 ∧
    ((confirmItems limit as w).2.1 = .ret true → (confirmItems limit as w).1.inFlight ≤ limit)
  | [], w, h => by
    unfold confirmItems
    split
    · rename_i hl; exact ⟨h, fun _ => hl⟩
    · split
      · exact ⟨h, by simp⟩
      · exact ⟨h, by simp⟩
  | a :: as, w, h => by
    unfold confirmItems
    split
    · rename_i hl; exact ⟨h, fun _ => hl⟩
    · split
      · exact ⟨h, by simp⟩
      · cases a with
        | write ok => exact ⟨h, by simp⟩
        | finish s => exact ⟨h, by simp⟩
        | confirms n dead =>
          refine confirmItems_flow limit as { w.confirmed n with running := !dead } ⟨h.max, ?_, ?_, ?_⟩
          · show (w.written : Int) - ((w.acks + n : Nat) : Int) ≤ w.inFlight - n
            have := h.count
            omega
          · show w.inFlight - n ≤ k
            have := h.bound
            omega
          · show ((itemsOf w.msgs).length : Int) ≤ ((w.acks + n : Nat) : Int) + k
            have := h.items
            omega

theorem stopped_flow {k : Int} (hk : 0 ≤ k) {w : Writer} (h : Flow k w) : Flow k w.stopped.1 ∧ 0 ≤ w.stopped.1.inFlight := by
  unfold stopped
  split
  · rename_i hp
    exact ⟨⟨h.max, h.count, h.bound, h.items⟩, by show 0 ≤ w.inFlight; omega⟩
  · refine ⟨⟨h.max, ?_, hk, h.items⟩, Int.le_refl _⟩
    show (w.written : Int) - w.acks ≤ 0
    have := h.count
    omega

theorem stopWorker_flow {k : Int} (hk : 0 ≤ k) {w : Writer} (as : List Answer) (h : Flow k w) :
    Flow k (w.stopWorker as).1 ∧ (∀ r, (w.stopWorker as).2.1 = .ret r → 0 ≤ (w.stopWorker as).1.inFlight) := by
  unfold stopWorker
  rw [if_neg (by rw [h.max]; simp)]
  split
  · have := stopped_flow hk h
    exact ⟨this.1, fun _ _ => this.2⟩
  · split
    · rename_i n _ _
      have h' : Flow k (w.confirmed n) := by
        refine ⟨h.max, ?_, ?_, ?_⟩
        · show (w.written : Int) - ((w.acks + n : Nat) : Int) ≤ w.inFlight - n
          have := h.count
          omega
        · show w.inFlight - n ≤ k
          have := h.bound
          omega
        · show ((itemsOf w.msgs).length : Int) ≤ ((w.acks + n : Nat) : Int) + k
          have := h.items
          omega
      have := stopped_flow hk h'
      exact ⟨this.1, fun _ _ => this.2⟩
    · split
      · exact ⟨h, by simp⟩
      · have := stopped_flow hk h
        exact ⟨this.1, fun _ _ => this.2⟩

theorem itemsOf_chunks (msgs : List Msg) (cs : List ChunkData) : itemsOf (msgs ++ [⟨cs, none⟩]) = itemsOf msgs := by simp [itemsOf]

theorem write_flow {k : Int} {w : Writer} (cs : List ChunkData) (as : List Answer) (h : Flow k w) (hx : w.Exact) :
    Flow k (w.write ⟨cs, none⟩ as).1 ∧ (w.write ⟨cs, none⟩ as).1.Exact := by
  by_cases hh : w.half = true
  · rw [write_half hh]; exact ⟨h, hx⟩
  · have hh : w.half = false := by simpa using hh
    have key : Flow k { w with msgs := w.msgs ++ [⟨cs, none⟩] } ∧ Writer.Exact { w with msgs := w.msgs ++ [⟨cs, none⟩] } := by
      refine ⟨⟨h.max, h.count, h.bound, ?_⟩, ?_⟩
      · show ((itemsOf (w.msgs ++ [⟨cs, none⟩])).length : Int) ≤ _
        rw [itemsOf_chunks]
        exact h.items
      · intro g
        show (itemsOf (w.msgs ++ [⟨cs, none⟩])).length = _
        rw [itemsOf_chunks]
        exact hx g
    cases as with
    | nil => rw [write_nil hh]; exact key
    | cons a as =>
      cases a with
      | write ok => rw [write_ok hh]; exact key
      | confirms n dead => rw [write_confirms hh]; exact key
      | finish st => rw [write_finish hh]; exact key

/-- An item is written while there is room for it. -/
theorem write_item {k : Int} {w : Writer} (req : List ChunkData) (p : WItem × List Key) (as : List Answer) (h : Flow k w) (hx : w.Exact)
    (hlt : w.inFlight ≤ k - 1) : Flow k (w.write ⟨req, some p⟩ as).1 ∧ (w.write ⟨req, some p⟩ as).1.inFlight = w.inFlight ∧
      ((w.write ⟨req, some p⟩ as).2.1 = .ret true → (itemsOf (w.write ⟨req, some p⟩ as).1.msgs).length = (w.write ⟨req, some p⟩ as).1.written + 1) := by
  by_cases hh : w.half = true
  · rw [write_half hh]; exact ⟨h, rfl, by simp⟩
  · have hh : w.half = false := by simpa using hh
    have hl : (itemsOf (w.msgs ++ [⟨req, some p⟩])).length = w.written + 1 := by
      rw [itemsOf_append, List.length_append, hx hh]
      rfl
    have key : Flow k { w with msgs := w.msgs ++ [⟨req, some p⟩] } := by
      refine ⟨h.max, h.count, h.bound, ?_⟩
      show ((itemsOf (w.msgs ++ [⟨req, some p⟩])).length : Int) ≤ w.acks + k
      rw [hl]
      have := h.count
      omega
    cases as with
    | nil => rw [write_nil hh]; exact ⟨key, rfl, fun _ => hl⟩
    | cons a as =>
      cases a with
      | write ok => rw [write_ok hh]; exact ⟨key, rfl, fun _ => hl⟩
      | confirms n dead => rw [write_confirms hh]; exact ⟨key, rfl, fun _ => hl⟩
      | finish st => rw [write_finish hh]; exact ⟨key, rfl, fun _ => hl⟩

theorem sendChunks_flow {k : Int} (need : List Key) : ∀ (cs req : List ChunkData) (keep : List Key) (w : Writer) (as : List Answer), Flow k w → w.Exact →
    Flow k (sendChunks need cs req keep w as).1 ∧ (sendChunks need cs req keep w as).1.Exact
  | [], _, _, _, _, h, hx => ⟨h, hx⟩
  | c :: cs, req, keep, w, as, h, hx => by
    unfold sendChunks
    split
    · split
      · have hw := write_flow (req ++ [c]) as h hx
        obtain ⟨⟨w1, r1, as1⟩, he⟩ : ∃ x, w.write ⟨req ++ [c], none⟩ as = x := ⟨_, rfl⟩
        rw [he] at hw ⊢
        have k1 : Flow k w1 ∧ w1.Exact := hw
        cases r1 with
        | blocked => exact k1
        | died => exact k1
        | ret b =>
          cases b with
          | false => exact k1
          | true => exact sendChunks_flow need cs _ _ _ _ ⟨k1.1.max, k1.1.count, k1.1.bound, k1.1.items⟩ k1.2
      · exact sendChunks_flow need cs _ _ _ _ h hx
    · split
      · exact sendChunks_flow need cs _ _ _ _ h hx
      · exact sendChunks_flow need cs _ _ _ _ h hx

theorem sendItems_flow {k : Int} (req : List ChunkData) (keep : List Key) : ∀ (items : List WItem) (w : Writer) (as : List Answer), Flow k w → w.Exact →
    Flow k (sendItems req keep items w as).1 ∧ ((sendItems req keep items w as).2.1 = .ret true → (sendItems req keep items w as).1.Exact)
  | [], _, _, h, hx => ⟨h, fun _ => hx⟩
  | it :: rest, w, as, h, hx => by
    unfold sendItems
    have ha : w.awaitRoom as = confirmItems (k - 1) as w := by unfold awaitRoom; rw [h.max]
    rw [ha]
    have hq := confirmItems_flow (k - 1) as w h
    have hqx := Quiet.exact (confirmItems_quiet (k - 1) as w) hx
    obtain ⟨⟨w1, r1, as1⟩, he1⟩ : ∃ x, confirmItems (k - 1) as w = x := ⟨_, rfl⟩
    rw [he1] at hq hqx ⊢
    have k1 : Flow k w1 := hq.1
    have k1x : w1.Exact := hqx
    cases r1 with
    | blocked => exact ⟨k1, by simp⟩
    | died => exact ⟨k1, by simp⟩
    | ret b =>
      cases b with
      | false => exact ⟨k1, by simp⟩
      | true =>
        dsimp only
        have hlt : w1.inFlight ≤ k - 1 := hq.2 rfl
        have hw := write_item req (it, keep) as1 k1 k1x hlt
        obtain ⟨⟨w2, r2, as2⟩, he⟩ : ∃ x, w1.write ⟨req, some (it, keep)⟩ as1 = x := ⟨_, rfl⟩
        rw [he] at hw ⊢
        have k2 : Flow k w2 := hw.1
        have k3 : w2.inFlight = w1.inFlight := hw.2.1
        cases r2 with
        | blocked => exact ⟨k2, by simp⟩
        | died => exact ⟨k2, by simp⟩
        | ret b =>
          cases b with
          | false => exact ⟨k2, by simp⟩
          | true =>
            refine sendItems_flow req keep rest _ _ ⟨k2.max, ?_, ?_, k2.items⟩ (fun _ => hw.2.2 rfl)
            · show ((w2.written + 1 : Nat) : Int) - w2.acks ≤ if w2.maxInFlight = none then w2.inFlight else w2.inFlight + 1
              rw [if_neg (by rw [k2.max]; simp)]
              have := k2.count
              omega
            · show (if w2.maxInFlight = none then w2.inFlight else w2.inFlight + 1) ≤ k
              rw [if_neg (by rw [k2.max]; simp)]
              omega

theorem openStream_flow {k : Int} {w w1 : Writer} (h : Flow k w) (hx : w.Exact) (ho : w.openStream = some w1) : Flow k w1 ∧ w1.Exact := by
  unfold openStream at ho
  split at ho
  · cases ho; exact ⟨h, hx⟩
  · split at ho
    · cases ho; exact ⟨⟨h.max, h.count, h.bound, h.items⟩, hx⟩
    · split at ho
      · cases ho
      · cases ho; exact ⟨⟨h.max, h.count, h.bound, h.items⟩, hx⟩

theorem writePending_flow {k : Int} {w : Writer} (as : List Answer) (h : Flow k w) (hx : w.Exact) : Flow k (w.writePending as).1 ∧
    ((w.writePending as).2.1 = .ret true → (w.writePending as).1.Exact) := by
  unfold writePending
  cases ho : w.openStream with
  | none => exact ⟨h, by simp⟩
  | some w1 =>
    dsimp only
    have h0 := openStream_flow h hx ho
    have h1 := sendChunks_flow (w1.pending.flatMap fun it => getChunkKeys it.traj) w1.chunks [] [] w1 as h0.1 h0.2
    obtain ⟨⟨w2, r2, as2⟩, he⟩ : ∃ x, sendChunks (w1.pending.flatMap fun it => getChunkKeys it.traj) w1.chunks [] [] w1 as = x := ⟨_, rfl⟩
    rw [he] at h1 ⊢
    have k1 : Flow k w2 ∧ w2.Exact := h1
    cases r2 with
    | blocked => exact ⟨k1.1, by simp⟩
    | died => exact ⟨k1.1, by simp⟩
    | ret o =>
      cases o with
      | none => exact ⟨k1.1, by simp⟩
      | some p => exact sendItems_flow _ _ _ _ _ k1.1 k1.2

theorem dropStream_flow {k : Int} {w : Writer} (h : Flow k w) (h0 : 0 ≤ w.inFlight) : Flow k w.dropStream :=
  ⟨h.max, by show (0 : Int) - 0 ≤ w.inFlight; omega, h.bound, by
    have h1 := h.bound
    show (0 : Int) ≤ 0 + k
    omega⟩

theorem dropStream_exact (w : Writer) : w.dropStream.Exact := fun _ => rfl

theorem writeRounds_flow {k : Int} (hk : 0 ≤ k) (retry : Bool) : ∀ (n : Nat) (w : Writer) (as : List Answer), Flow k w → w.Exact →
    Flow k (writeRounds retry n w as).1 ∧ ((∃ r, (writeRounds retry n w as).2.1 = .ret r) → (writeRounds retry n w as).1.Exact)
  | 0, _, _, h, hx => ⟨h, fun _ => hx⟩
  | n + 1, w, as, h, hx => by
    unfold writeRounds
    have h1 := writePending_flow as h hx
    obtain ⟨⟨w1, r1, as1⟩, he⟩ : ∃ x, w.writePending as = x := ⟨_, rfl⟩
    rw [he] at h1 ⊢
    have k1 : Flow k w1 := h1.1
    cases r1 with
    | blocked => exact ⟨k1, by simp⟩
    | died => exact ⟨k1, by simp⟩
    | ret b =>
      cases b with
      | true => exact ⟨k1, fun _ => h1.2 rfl⟩
      | false =>
        dsimp only
        have k1' : Flow k { w1 with half := true } := ⟨k1.max, k1.count, k1.bound, k1.items⟩
        have h2 := stopWorker_flow hk as1 k1'
        have hq := stopWorker_quiet { w1 with half := true } as1
        obtain ⟨⟨w2, r2, as2⟩, he2⟩ : ∃ x, stopWorker { w1 with half := true } as1 = x := ⟨_, rfl⟩
        rw [he2] at h2 hq ⊢
        have k2 : Flow k w2 := h2.1
        have k2x : w2.Exact := Quiet.exact hq (fun g => by cases g)
        cases r2 with
        | blocked => exact ⟨k2, fun _ => k2x⟩
        | died => exact ⟨k2, fun _ => k2x⟩
        | ret o =>
          have k3 : 0 ≤ w2.inFlight := h2.2 o rfl
          cases o with
          | some e => exact ⟨k2, fun _ => k2x⟩
          | none =>
            cases as2 with
            | nil => exact ⟨k2, fun _ => k2x⟩
            | cons a as3 =>
              cases a with
              | write ok => exact ⟨k2, fun _ => k2x⟩
              | confirms n dead => exact ⟨k2, fun _ => k2x⟩
              | finish st =>
                dsimp only
                split
                · exact writeRounds_flow hk retry n _ _ (dropStream_flow k2 k3) (dropStream_exact w2)
                · exact ⟨dropStream_flow k2 k3, fun _ => dropStream_exact w2⟩

/-- At most `k` items are unconfirmed after a call, and if it returns the number of items sent is known. -/
def Flows (k : Int) (res : Writer × Ret (Option Code) × List Answer) : Prop :=
  Flow k res.1 ∧ ((∃ r, res.2.1 = .ret r) → res.1.Exact)

theorem Flows.mk {k : Int} {w : Writer} {r : Ret (Option Code)} {as : List Answer} (h : Flow k w) (hx : w.Exact) : Flows k (w, r, as) := ⟨h, fun _ => hx⟩

theorem finish_flow {k : Int} (hk : 0 ≤ k) {w : Writer} (retry : Bool) (as : List Answer) (h : Flow k w) (hx : w.Exact) :
    Flows k (w.finish retry as) := by
  unfold finish
  cases w.makeChunk with
  | died => exact .mk h hx
  | err e => exact .mk h hx
  | ok ch =>
    dsimp only
    have h1 : Flows k (writeWithRetries { w with chunks := w.chunks ++ [ch] } retry as) :=
      writeRounds_flow hk retry _ { w with chunks := w.chunks ++ [ch] } as ⟨h.max, h.count, h.bound, h.items⟩ hx
    obtain ⟨⟨w1, r1, as1⟩, he⟩ : ∃ x, writeWithRetries { w with chunks := w.chunks ++ [ch] } retry as = x := ⟨_, rfl⟩
    rw [he] at h1 ⊢
    obtain ⟨k1, k2⟩ := h1
    have k1 : Flow k w1 := k1
    cases r1 with
    | blocked => exact ⟨k1, by simp⟩
    | died => exact ⟨k1, by simp⟩
    | ret r =>
      have k3 : w1.Exact := k2 ⟨r, rfl⟩
      cases r <;> exact .mk ⟨k1.max, k1.count, k1.bound, k1.items⟩ k3

theorem closeStream_flow {k : Int} (hk : 0 ≤ k) {w : Writer} (as : List Answer) (h : Flow k w) (hx : w.Exact) : Flows k (w.closeStream as) := by
  unfold closeStream
  split
  · exact .mk ⟨h.max, h.count, h.bound, h.items⟩ hx
  · have h1 := (confirmItems_flow 0 as { w with half := true } ⟨h.max, h.count, h.bound, h.items⟩).1
    have q1 := confirmItems_quiet 0 as { w with half := true }
    obtain ⟨⟨w1, r1, as1⟩, he⟩ : ∃ x, confirmItems 0 as { w with half := true } = x := ⟨_, rfl⟩
    rw [he] at h1 q1 ⊢
    have k1 : Flow k w1 := h1
    have x1 : w1.Exact := Quiet.exact q1 (fun g => by cases g)
    cases r1 with
    | blocked => exact .mk k1 x1
    | died => exact .mk k1 x1
    | ret b =>
      dsimp only
      have h2 := stopWorker_flow hk as1 k1
      have q2 := stopWorker_quiet w1 as1
      obtain ⟨⟨w2, r2, as2⟩, he2⟩ : ∃ x, w1.stopWorker as1 = x := ⟨_, rfl⟩
      rw [he2] at h2 q2 ⊢
      have k2 : Flow k w2 := h2.1
      have x2 : w2.Exact := Quiet.exact q2 x1
      cases r2 with
      | blocked => exact .mk k2 x2
      | died => exact .mk k2 x2
      | ret o =>
        have k3 : 0 ≤ w2.inFlight := h2.2 o rfl
        cases as2 with
        | nil => exact .mk k2 x2
        | cons a as3 =>
          cases a with
          | write ok => exact .mk k2 x2
          | confirms n dead => exact .mk k2 x2
          | finish st =>
            have k4 := dropStream_flow k2 k3
            exact .mk ⟨k4.max, k4.count, k4.bound, k4.items⟩ (dropStream_exact w2)

theorem call_flow {k : Int} (hk : 0 ≤ k) {w : Writer} (c : Call) (as : List Answer) (h : Flow k w) (hx : w.Exact) : Flows k (w.call c as) := by
  cases c with
  | append data =>
    show Flows k (w.append data as)
    unfold append
    split
    · exact .mk h hx
    split
    · exact .mk h hx
    split
    · exact .mk h hx
    have hp : Flow k (w.push data) := ⟨h.max, h.count, h.bound, h.items⟩
    have hpx : (w.push data).Exact := hx
    split
    · exact .mk hp hpx
    have h1 := finish_flow hk true as hp hpx
    obtain ⟨⟨w1, r1, as1⟩, he⟩ : ∃ x, (w.push data).finish true as = x := ⟨_, rfl⟩
    rw [he] at h1 ⊢
    obtain ⟨k1, k2⟩ := h1
    have k1 : Flow k w1 := k1
    cases r1 with
    | blocked => exact ⟨k1, by simp⟩
    | died => exact ⟨k1, by simp⟩
    | ret r =>
      have k3 : w1.Exact := k2 ⟨r, rfl⟩
      cases r <;> exact .mk ⟨k1.max, k1.count, k1.bound, k1.items⟩ k3
  | createItem table n p =>
    show Flows k (w.createItem table n p as)
    unfold createItem
    split
    · exact .mk h hx
    split
    · exact .mk h hx
    split
    · exact .mk h hx
    cases w.checkSignature table n.toNat with
    | err e => exact .mk h hx
    | died => exact .mk h hx
    | ok u =>
      dsimp only
      cases w.trajectory n with
      | none => exact .mk h hx
      | some traj =>
        dsimp only
        have hp : Flow k (w.pushItem table p traj) := ⟨h.max, h.count, h.bound, h.items⟩
        have hpx : (w.pushItem table p traj).Exact := hx
        split
        · have h1 : Flows k ((w.pushItem table p traj).writeWithRetries true as) := writeRounds_flow hk true _ _ as hp hpx
          obtain ⟨⟨w1, r1, as1⟩, he⟩ : ∃ x, (w.pushItem table p traj).writeWithRetries true as = x := ⟨_, rfl⟩
          rw [he] at h1 ⊢
          obtain ⟨k1, k2⟩ := h1
          have k1 : Flow k w1 := k1
          cases r1 with
          | blocked => exact ⟨k1, by simp⟩
          | died => exact ⟨k1, by simp⟩
          | ret r =>
            have k3 : w1.Exact := k2 ⟨r, rfl⟩
            cases r <;> exact .mk ⟨k1.max, k1.count, k1.bound, k1.items⟩ k3
        · exact .mk hp hpx
  | flush =>
    show Flows k (w.flush as)
    unfold flush
    split
    · exact .mk h hx
    split
    · exact finish_flow hk true as h hx
    · have h1 := (confirmItems_flow 0 as w h).1
      have q1 := confirmItems_quiet 0 as w
      obtain ⟨⟨w1, r1, as1⟩, he⟩ : ∃ x, confirmItems 0 as w = x := ⟨_, rfl⟩
      rw [he] at h1 q1 ⊢
      have k1 : Flow k w1 := h1
      have x1 : w1.Exact := Quiet.exact q1 hx
      cases r1 with
      | blocked => exact .mk k1 x1
      | died => exact .mk k1 x1
      | ret b => cases b <;> exact .mk k1 x1
  | close retry =>
    show Flows k (w.close retry as)
    unfold close
    split
    · exact .mk h hx
    split
    · exact closeStream_flow hk as h hx
    · have h1 := finish_flow hk retry as h hx
      obtain ⟨⟨w1, r1, as1⟩, he⟩ : ∃ x, w.finish retry as = x := ⟨_, rfl⟩
      rw [he] at h1 ⊢
      obtain ⟨k1, k2⟩ := h1
      have k1 : Flow k w1 := k1
      cases r1 with
      | blocked => exact ⟨k1, by simp⟩
      | died => exact ⟨k1, by simp⟩
      | ret r =>
        have k3 : w1.Exact := k2 ⟨r, rfl⟩
        cases r with
        | none => exact closeStream_flow hk as1 k1 k3
        | some e =>
          dsimp only
          split
          · exact closeStream_flow hk as1 k1 k3
          · exact .mk k1 k3

theorem run_flow {k : Int} (hk : 0 ≤ k) : ∀ {evs : List Event} {w w1 : Writer}, Flow k w → w.Exact → w.run evs = some w1 → Flow k w1 ∧ w1.Exact
  | [], w, w1, h, hx, hrun => by
    simp only [run, Option.some.injEq] at hrun
    exact hrun ▸ ⟨h, hx⟩
  | (c, as) :: evs, w, w1, h, hx, hrun => by
    have hc := call_flow hk c as h hx
    obtain ⟨hr, h1, _⟩ := run_cons hrun
    exact run_flow hk hc.1 (hc.2 hr) h1

theorem Flow.new {w : Writer} (hn : w.New) {k : Int} (hk : 0 ≤ k) (hm : w.maxInFlight = some k) : Flow k w ∧ w.Exact := by
  refine ⟨⟨hm, ?_, ?_, ?_⟩, ?_⟩
  · rw [hn.new]; simp [Writer.new]
  · rw [hn.new]; simpa [Writer.new] using hk
  · rw [hn.new]; simpa [Writer.new, itemsOf] using hk
  · intro _; rw [hn.new]; rfl

end Writer
end Verif
