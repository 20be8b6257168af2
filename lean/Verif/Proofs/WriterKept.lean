import Verif.Proofs.WriterFull
/-
The pending items of the old writer: none is lost.
-/
namespace Verif
namespace Writer

/-- What is no longer pending was sent. -/
def Kept (w w' : Writer) : Prop := ∃ pre, w.pending = pre ++ w'.pending ∧ w'.sent = w.sent ++ pre

theorem Kept.of {w w' : Writer} (h : w'.pending = w.pending) (h' : w'.sent = w.sent) : w.Kept w' := ⟨[], by simp [h], by simp [h']⟩

theorem Kept.refl (w : Writer) : w.Kept w := .of rfl rfl

theorem Kept.trans {a b c : Writer} (h : a.Kept b) (h' : b.Kept c) : a.Kept c := by
  obtain ⟨p1, e1, s1⟩ := h
  obtain ⟨p2, e2, s2⟩ := h'
  exact ⟨p1 ++ p2, by rw [e1, e2, List.append_assoc], by rw [s2, s1, List.append_assoc]⟩

theorem Quiet.keeps {w w' : Writer} (q : w.Quiet w') : w.Kept w' := by
  obtain ⟨i, r, a, rfl⟩ := q
  exact .of rfl rfl

theorem write_kept (w : Writer) (m : Msg) (as : List Answer) : ((w.write m as).1.pending = w.pending ∧ (w.write m as).1.sent = w.sent) ∧
    (w.write m as).2.2 <:+ as ∧ (w.write m as).1.stream = w.stream := by
  by_cases hh : w.half = true
  · rw [write_half hh]; exact ⟨⟨rfl, rfl⟩, List.suffix_rfl, rfl⟩
  · have hh : w.half = false := by simpa using hh
    cases as with
    | nil => rw [write_nil hh]; exact ⟨⟨rfl, rfl⟩, List.suffix_rfl, rfl⟩
    | cons a as =>
      cases a with
      | write ok => rw [write_ok hh]; exact ⟨⟨rfl, rfl⟩, List.suffix_cons _ _, rfl⟩
      | confirms n dead => rw [write_confirms hh]; exact ⟨⟨rfl, rfl⟩, List.suffix_rfl, rfl⟩
      | finish st => rw [write_finish hh]; exact ⟨⟨rfl, rfl⟩, List.suffix_rfl, rfl⟩

theorem sendChunks_kept (need : List Key) : ∀ (cs req : List ChunkData) (keep : List Key) (w : Writer) (as : List Answer),
    ((sendChunks need cs req keep w as).1.pending = w.pending ∧ (sendChunks need cs req keep w as).1.sent = w.sent) ∧
      (sendChunks need cs req keep w as).2.2 <:+ as ∧ (sendChunks need cs req keep w as).1.stream = w.stream
  | [], _, _, _, _ => ⟨⟨rfl, rfl⟩, List.suffix_rfl, rfl⟩
  | c :: cs, req, keep, w, as => by
    unfold sendChunks
    split
    · split
      · have hw := write_kept w ⟨req ++ [c], none⟩ as
        obtain ⟨⟨w1, r1, as1⟩, he⟩ : ∃ x, w.write ⟨req ++ [c], none⟩ as = x := ⟨_, rfl⟩
        rw [he] at hw ⊢
        have k1 : (w1.pending = w.pending ∧ w1.sent = w.sent) ∧ as1 <:+ as ∧ w1.stream = w.stream := hw
        cases r1 with
        | blocked => exact k1
        | died => exact k1
        | ret b =>
          cases b with
          | false => exact k1
          | true =>
            obtain ⟨i1, i2, i3⟩ := sendChunks_kept need cs [] (keep ++ [c.key])
              { w1 with streamed := w1.streamed ++ (req ++ [c]).map ChunkData.key } as1
            exact ⟨⟨i1.1.trans k1.1.1, i1.2.trans k1.1.2⟩, i2.trans k1.2.1, i3.trans k1.2.2⟩
      · exact sendChunks_kept need cs _ _ _ _
    · split
      · exact sendChunks_kept need cs _ _ _ _
      · exact sendChunks_kept need cs _ _ _ _

theorem sendItems_kept (req : List ChunkData) (keep : List Key) : ∀ (items : List WItem) (w : Writer) (as : List Answer), w.pending = items →
    w.Kept (sendItems req keep items w as).1 ∧ (sendItems req keep items w as).2.2 <:+ as ∧ (sendItems req keep items w as).1.stream = w.stream ∧
      ((sendItems req keep items w as).2.1 = .ret true → (sendItems req keep items w as).1.pending = [])
  | [], w, _, h => ⟨.refl w, List.suffix_rfl, rfl, fun _ => h⟩
  | it :: rest, w, as, h => by
    unfold sendItems
    have hq := awaitRoom_quiet w as
    have hsf := awaitRoom_suffix w as
    obtain ⟨⟨w1, r1, as1⟩, he1⟩ : ∃ x, w.awaitRoom as = x := ⟨_, rfl⟩
    rw [he1] at hq hsf ⊢
    have k1 : w.Kept w1 := Quiet.keeps hq
    have k2 : as1 <:+ as := hsf
    have k3 : w1.stream = w.stream := Quiet.stream hq
    have k4 : w1.pending = it :: rest := (Quiet.pending hq).trans h
    cases r1 with
    | blocked => exact ⟨k1, k2, k3, by simp⟩
    | died => exact ⟨k1, k2, k3, by simp⟩
    | ret b =>
      cases b with
      | false => exact ⟨k1, k2, k3, by simp⟩
      | true =>
        dsimp only
        have hw := write_kept w1 ⟨req, some (it, keep)⟩ as1
        obtain ⟨⟨w2, r2, as2⟩, he⟩ : ∃ x, w1.write ⟨req, some (it, keep)⟩ as1 = x := ⟨_, rfl⟩
        rw [he] at hw ⊢
        have l1 : w2.pending = w1.pending := hw.1.1
        have l1' : w2.sent = w1.sent := hw.1.2
        have l2 : as2 <:+ as := List.IsSuffix.trans hw.2.1 k2
        have l3 : w2.stream = w.stream := hw.2.2.trans k3
        have l4 : w.Kept w2 := k1.trans (.of l1 l1')
        cases r2 with
        | blocked => exact ⟨l4, l2, l3, by simp⟩
        | died => exact ⟨l4, l2, l3, by simp⟩
        | ret b =>
          cases b with
          | false => exact ⟨l4, l2, l3, by simp⟩
          | true =>
            obtain ⟨i1, i2, i3, i4⟩ := sendItems_kept req keep rest (w2.itemSent req rest) as2 rfl
            have hk : w2.Kept (w2.itemSent req rest) := by
              refine ⟨[it], ?_, ?_⟩
              · rw [l1, k4]; rfl
              · show w2.sent ++ w2.pending.head?.toList = _
                rw [l1, k4]; rfl
            exact ⟨(l4.trans hk).trans i1, i2.trans l2, i3.trans l3, i4⟩

theorem writePending_kept (w : Writer) (as : List Answer) : w.Kept (w.writePending as).1 ∧ (w.writePending as).2.2 <:+ as ∧
    (∀ b, (w.writePending as).2.1 = .ret b → (w.writePending as).1.stream = true) ∧
    ((w.writePending as).2.1 = .ret true → (w.writePending as).1.pending = []) := by
  unfold writePending
  cases ho : w.openStream with
  | none => exact ⟨.refl w, List.suffix_rfl, by simp, by simp⟩
  | some w1 =>
    dsimp only
    have h1 : w.Kept w1 ∧ w1.stream = true := by
      unfold openStream at ho
      split at ho
      · cases ho; exact ⟨.refl w, by assumption⟩
      · split at ho
        · cases ho; exact ⟨.of rfl rfl, rfl⟩
        · split at ho
          · cases ho
          · cases ho; exact ⟨.of rfl rfl, rfl⟩
    have hs := sendChunks_kept (w1.pending.flatMap fun it => getChunkKeys it.traj) w1.chunks [] [] w1 as
    obtain ⟨⟨w2, r2, as2⟩, he⟩ : ∃ x, sendChunks (w1.pending.flatMap fun it => getChunkKeys it.traj) w1.chunks [] [] w1 as = x := ⟨_, rfl⟩
    rw [he] at hs ⊢
    have k1 : w.Kept w2 := h1.1.trans (.of hs.1.1 hs.1.2)
    have k2 : as2 <:+ as := hs.2.1
    have k3 : w2.stream = true := hs.2.2.trans h1.2
    cases r2 with
    | blocked => exact ⟨k1, k2, by simp, by simp⟩
    | died => exact ⟨k1, k2, by simp, by simp⟩
    | ret o =>
      cases o with
      | none => exact ⟨k1, k2, fun _ _ => k3, by simp⟩
      | some p =>
        obtain ⟨i1, i2, i3, i4⟩ := sendItems_kept p.1 p.2 w2.pending w2 as2 rfl
        exact ⟨k1.trans i1, i2.trans k2, fun _ _ => i3.trans k3, i4⟩

theorem writeRounds_kept (retry : Bool) : ∀ (n : Nat) (w : Writer) (as : List Answer), w.Kept (writeRounds retry n w as).1 ∧
    (writeRounds retry n w as).2.2 <:+ as ∧
    ((writeRounds retry n w as).2.1 = .ret none → (writeRounds retry n w as).1.pending = [] ∨ .finish none ∈ as) ∧
    (∀ e, (writeRounds retry n w as).2.1 = .ret (some e) → ((writeRounds retry n w as).1.stream = false ∧ (writeRounds retry n w as).1.half = false) ∨
      ((writeRounds retry n w as).1.Stuck ∧ e = .dataLoss))
  | 0, w, as => ⟨.refl w, List.suffix_rfl, by simp [writeRounds], by simp [writeRounds]⟩
  | n + 1, w, as => by
    unfold writeRounds
    have h1 := writePending_kept w as
    obtain ⟨⟨w1, r1, as1⟩, he⟩ : ∃ x, w.writePending as = x := ⟨_, rfl⟩
    rw [he] at h1 ⊢
    obtain ⟨p1, p2, p3, p4⟩ := h1
    have p1 : w.Kept w1 := p1
    have p2 : as1 <:+ as := p2
    cases r1 with
    | blocked => exact ⟨p1, p2, by simp, by simp⟩
    | died => exact ⟨p1, p2, by simp, by simp⟩
    | ret b =>
      have q3 : w1.stream = true := p3 b rfl
      cases b with
      | true => exact ⟨p1, p2, fun _ => .inl (p4 rfl), by simp⟩
      | false =>
        dsimp only
        have hq := stopWorker_quiet { w1 with half := true } as1
        have hsf := stopWorker_suffix { w1 with half := true } as1
        have hsome := fun e => stopWorker_some (w := { w1 with half := true }) (as := as1) (e := e)
        obtain ⟨⟨w2, r2, as2⟩, he2⟩ : ∃ x, stopWorker { w1 with half := true } as1 = x := ⟨_, rfl⟩
        rw [he2] at hq hsf hsome ⊢
        have k1 : w.Kept w2 := (p1.trans (.of rfl rfl : w1.Kept { w1 with half := true })).trans (Quiet.keeps hq)
        have k2 : as2 <:+ as := List.IsSuffix.trans hsf p2
        cases r2 with
        | blocked => exact ⟨k1, k2, by simp, by simp⟩
        | died => exact ⟨k1, k2, by simp, by simp⟩
        | ret o =>
          cases o with
          | some e =>
            obtain ⟨g1, g2, g3, g4⟩ := hsome e rfl
            refine ⟨k1, k2, by simp, fun e' h' => .inr ⟨⟨?_, ?_, ?_, g3, g4⟩, ?_⟩⟩
            · exact (Quiet.stream hq).trans q3
            · exact Quiet.half hq
            · rw [Quiet.maxInFlight hq]; exact g2
            · cases h'; exact g1
          | none =>
            cases as2 with
            | nil => exact ⟨k1, k2, by simp, by simp⟩
            | cons a as3 =>
              have k2' : as3 <:+ as := (List.suffix_cons _ _).trans k2
              cases a with
              | write ok => exact ⟨k1, k2, by simp, by simp⟩
              | confirms n dead => exact ⟨k1, k2, by simp, by simp⟩
              | finish st =>
                dsimp only
                have k3 : w.Kept w2.dropStream := k1.trans (.of rfl rfl)
                split
                · obtain ⟨i1, i2, i3, i4⟩ := writeRounds_kept retry n w2.dropStream as3
                  exact ⟨k3.trans i1, i2.trans k2', fun h => (i3 h).imp id fun g => k2'.subset g, i4⟩
                · refine ⟨k3, k2', fun h => .inr ?_, fun _ _ => .inl ⟨rfl, rfl⟩⟩
                  have h : st = none := Ret.ret.inj h
                  exact k2.subset (by rw [h]; exact List.mem_cons_self)

theorem finish_kept (w : Writer) (retry : Bool) (as : List Answer) : w.Kept (w.finish retry as).1 ∧
    ((w.finish retry as).2.1 = .ret none → (w.finish retry as).1.pending = [] ∨ .finish none ∈ as) ∧
    (∀ e, (w.finish retry as).2.1 = .ret (some e) → w.makeChunk = .err e ∧ (w.finish retry as).1 = w ∨
      (∃ ch, w.makeChunk = .ok ch) ∧ (((w.finish retry as).1.stream = false ∧ (w.finish retry as).1.half = false) ∨ ((w.finish retry as).1.Stuck ∧ e = .dataLoss))) := by
  unfold finish
  cases w.makeChunk with
  | died => exact ⟨.refl w, by simp, by simp⟩
  | err e => exact ⟨.refl w, by simp, fun e' h => .inl ⟨by cases h; rfl, rfl⟩⟩
  | ok ch =>
    dsimp only
    have h1 : _ := writeRounds_kept retry (as.length + 1) { w with chunks := w.chunks ++ [ch] } as
    rw [show writeRounds retry (as.length + 1) { w with chunks := w.chunks ++ [ch] } as =
      writeWithRetries { w with chunks := w.chunks ++ [ch] } retry as from rfl] at h1
    obtain ⟨⟨w1, r1, as1⟩, he⟩ : ∃ x, writeWithRetries { w with chunks := w.chunks ++ [ch] } retry as = x := ⟨_, rfl⟩
    rw [he] at h1 ⊢
    obtain ⟨k1, k2, k3, k4⟩ := h1
    have k1 : w.Kept w1 := (.of rfl rfl : w.Kept { w with chunks := w.chunks ++ [ch] }).trans k1
    cases r1 with
    | blocked => exact ⟨k1, by simp, by simp⟩
    | died => exact ⟨k1, by simp, by simp⟩
    | ret r =>
      cases r with
      | none => exact ⟨k1.trans (.of rfl rfl), fun _ => k3 rfl, by simp⟩
      | some e =>
        refine ⟨k1.trans (.of rfl rfl), by simp, fun e' h => .inr ⟨⟨ch, rfl⟩, ?_⟩⟩
        rcases k4 e rfl with g | ⟨g, rfl⟩
        · exact .inl g
        · exact .inr ⟨⟨g.stream, g.half, g.limited, g.unconfirmed, g.running⟩, by cases h; rfl⟩

/-- What a call of `Append` does to the pending items. -/
theorem append_kept (w : Writer) (data : Timestep) (as : List Answer) : w.Kept (w.append data as).1 ∧
    ((w.append data as).2.1 = .ret none →
      if w.buffer.length + 1 < w.chunkLength then (w.append data as).1.pending = w.pending ∧ (w.append data as).1.sent = w.sent
      else (w.append data as).1.pending = [] ∨ .finish none ∈ as) ∧
    (∀ e, (w.append data as).2.1 = .ret (some e) →
      (w.closed = true ∨ w.buffer.head?.any (fun b => b.length != data.length) = true) ∧ w.append data as = (w, .ret (some e), as) ∨ (∃ e', (w.push data).makeChunk = .err e') ∨
      (∃ ch, (w.push data).makeChunk = .ok ch) ∧ (((w.append data as).1.stream = false ∧ (w.append data as).1.half = false) ∨ ((w.append data as).1.Stuck ∧ e = .dataLoss))) := by
  unfold append
  split
  · exact ⟨.refl w, by simp, fun e h => .inl ⟨.inl (by assumption), by cases h; rfl⟩⟩
  split
  · exact ⟨.refl w, by simp, fun e h => .inl ⟨.inr (by assumption), by cases h; rfl⟩⟩
  split
  · exact ⟨.refl w, by simp, by simp⟩
  have hbl : (w.push data).buffer.length = w.buffer.length + 1 := by simp [push]
  by_cases hb : (w.push data).buffer.length < w.chunkLength
  · rw [if_pos hb, if_pos (by omega)]
    exact ⟨.of rfl rfl, fun _ => ⟨rfl, rfl⟩, by simp⟩
  · rw [if_neg hb, if_neg (by omega)]
    have h1 := finish_kept (w.push data) true as
    obtain ⟨⟨w1, r1, as1⟩, he⟩ : ∃ x, (w.push data).finish true as = x := ⟨_, rfl⟩
    rw [he] at h1 ⊢
    obtain ⟨k1, k2, k3⟩ := h1
    have k1 : w.Kept w1 := (.of rfl rfl : w.Kept (w.push data)).trans k1
    cases r1 with
    | blocked => exact ⟨k1, by simp, by simp⟩
    | died => exact ⟨k1, by simp, by simp⟩
    | ret r =>
      cases r with
      | none => exact ⟨k1, fun _ => k2 rfl, by simp⟩
      | some e =>
        refine ⟨k1.trans (.of rfl rfl), by simp, fun e' h => .inr ?_⟩
        rcases k3 e rfl with ⟨g, _⟩ | ⟨g1, g⟩
        · exact .inl ⟨e, g⟩
        · refine .inr ⟨g1, ?_⟩
          rcases g with g | ⟨g, rfl⟩
          · exact .inl g
          · exact .inr ⟨⟨g.stream, g.half, g.limited, g.unconfirmed, g.running⟩, by cases h; rfl⟩

/-! ### Streams that do not fail -/

theorem sendChunks_true (need : List Key) : ∀ (cs req : List ChunkData) (keep : List Key) (w : Writer) (k : Nat), w.half = false → cs.length ≤ k →
    ∃ w1 p k1, sendChunks need cs req keep w (List.replicate k (.write true)) = (w1, .ret (some p), List.replicate k1 (.write true)) ∧
      k ≤ k1 + cs.length ∧ w1.half = false ∧ w1.pending = w.pending ∧ w1.maxInFlight = w.maxInFlight
  | [], req, keep, w, k, h, _ => ⟨w, _, k, rfl, by simp, h, rfl, rfl⟩
  | c :: cs, req, keep, w, k, h, hk => by
    simp only [List.length_cons] at hk ⊢
    unfold sendChunks
    split
    · split
      · obtain ⟨k, rfl⟩ : ∃ k', k = k' + 1 := ⟨k - 1, by omega⟩
        rw [List.replicate_succ, write_ok h]
        obtain ⟨w1, p, k1, g1, g2, g3, g4, g5⟩ := sendChunks_true need cs [] (keep ++ [c.key]) ({ w with
          msgs := w.msgs ++ [⟨req ++ [c], none⟩]
          streamed := w.streamed ++ (req ++ [c]).map ChunkData.key } : Writer) k h (by omega)
        exact ⟨w1, p, k1, g1, by omega, g3, g4, g5⟩
      · obtain ⟨w1, p, k1, g1, g2, g⟩ := sendChunks_true need cs (req ++ [c]) (keep ++ [c.key]) w k h (by omega)
        exact ⟨w1, p, k1, g1, by omega, g⟩
    · split
      · obtain ⟨w1, p, k1, g1, g2, g⟩ := sendChunks_true need cs req (keep ++ [c.key]) w k h (by omega)
        exact ⟨w1, p, k1, g1, by omega, g⟩
      · obtain ⟨w1, p, k1, g1, g2, g⟩ := sendChunks_true need cs req keep w k h (by omega)
        exact ⟨w1, p, k1, g1, by omega, g⟩

theorem sendItems_true (req : List ChunkData) (keep : List Key) : ∀ (items : List WItem) (w : Writer) (k : Nat), w.half = false →
    w.maxInFlight = none → items.length ≤ k →
    ∃ w1 as1, sendItems req keep items w (List.replicate k (.write true)) = (w1, .ret true, as1)
  | [], w, k, _, _, _ => ⟨w, _, rfl⟩
  | it :: rest, w, k, h, hm, hk => by
    simp only [List.length_cons] at hk
    obtain ⟨k, rfl⟩ : ∃ k', k = k' + 1 := ⟨k - 1, by omega⟩
    unfold sendItems
    have ha : w.awaitRoom (List.replicate (k + 1) (.write true)) = (w, .ret true, List.replicate (k + 1) (.write true)) := by
      unfold awaitRoom; rw [hm]
    rw [ha, List.replicate_succ]
    dsimp only
    rw [write_ok h]
    exact sendItems_true req keep rest _ k h hm (by omega)

theorem writePending_true {w : Writer} {k : Nat} (h : w.half = false) (hm : w.maxInFlight = none) (hk : w.chunks.length + w.pending.length ≤ k) :
    ∃ w1 as1, w.writePending (List.replicate k (.write true)) = (w1, .ret true, as1) := by
  have ho : ∃ w1, w.openStream = some w1 ∧ w1.half = false ∧ w1.maxInFlight = none ∧ w1.pending = w.pending ∧ w1.chunks = w.chunks := by
    unfold openStream
    split
    · exact ⟨w, rfl, h, hm, rfl, rfl⟩
    · exact ⟨_, rfl, h, hm, rfl, rfl⟩
  obtain ⟨w1, e1, e2, e3, e4, e5⟩ := ho
  unfold writePending
  rw [e1]
  dsimp only
  obtain ⟨w2, p, k1, g1, g2, g3, g4, g5⟩ := sendChunks_true (w1.pending.flatMap fun it => getChunkKeys it.traj) w1.chunks [] [] w1 k e2
    (by rw [e5]; omega)
  rw [g1]
  exact sendItems_true p.1 p.2 w2.pending w2 k1 g3 (by rw [g5, e3]) (by rw [g4, e4]; rw [e5] at g2; omega)

/-- If the chunk can be made and no `Write` fails then `Append` returns OK. -/
theorem append_true {w : Writer} {k : Nat} {data : Timestep} {ch : ChunkData} (hc : w.closed = false)
    (hb : w.buffer.head?.any (fun b => b.length != data.length) = false) (ht : w.maxTimesteps ≠ 0) (h : w.half = false) (hm : w.maxInFlight = none)
    (hch : (w.push data).makeChunk = .ok ch) (hk : w.chunks.length + 1 + w.pending.length ≤ k) :
    (w.append data (List.replicate k (.write true))).2.1 = .ret none := by
  unfold append
  rw [if_neg (by simp [hc]), if_neg (by simp [hb]), if_neg ht]
  split
  · rfl
  · unfold finish
    rw [hch]
    dsimp only
    obtain ⟨w1, as1, g⟩ := writePending_true (w := { (w.push data) with chunks := (w.push data).chunks ++ [ch] }) (k := k) h hm
      (by simpa [push] using hk)
    unfold writeWithRetries writeRounds
    rw [g]

/-! ### Stuck writers -/

theorem sendChunks_half (need : List Key) : ∀ (cs req : List ChunkData) (keep : List Key) (w : Writer) (as : List Answer), w.half = true →
    ∃ o, sendChunks need cs req keep w as = (w, .ret o, as)
  | [], _, _, _, _, _ => ⟨_, rfl⟩
  | c :: cs, req, keep, w, as, h => by
    unfold sendChunks
    split
    · split
      · rw [write_half h]; exact ⟨none, rfl⟩
      · exact sendChunks_half need cs _ _ _ _ h
    · split
      · exact sendChunks_half need cs _ _ _ _ h
      · exact sendChunks_half need cs _ _ _ _ h

theorem sendItems_half (req : List ChunkData) (keep : List Key) {items : List WItem} {w : Writer} (as : List Answer) (h : w.Stuck) (hi : items ≠ []) :
    sendItems req keep items w as = (w, .ret false, as) := by
  cases items with
  | nil => exact absurd rfl hi
  | cons it rest =>
    unfold sendItems
    obtain ⟨m, hm⟩ := Option.ne_none_iff_exists'.mp h.limited
    have ha : w.awaitRoom as = (w, .ret true, as) ∨ w.awaitRoom as = (w, .ret false, as) := by
      unfold awaitRoom
      rw [hm]
      dsimp only
      cases as with
      | nil =>
        unfold confirmItems
        split
        · exact .inl rfl
        · rw [if_pos h.running]; exact .inr rfl
      | cons a as =>
        unfold confirmItems
        split
        · exact .inl rfl
        · rw [if_pos h.running]; exact .inr rfl
    rcases ha with ha | ha
    · rw [ha]; dsimp only; rw [write_half h.half]
    · rw [ha]

theorem writeWithRetries_stuck {w : Writer} (h : w.Stuck) (hp : w.pending ≠ []) (retry : Bool) (as : List Answer) :
    w.writeWithRetries retry as = (w, .ret (some .dataLoss), as) := by
  have hw : w.writePending as = (w, .ret false, as) := by
    unfold writePending openStream
    rw [if_pos h.stream]
    dsimp only
    obtain ⟨o, ho⟩ := sendChunks_half (w.pending.flatMap fun it => getChunkKeys it.traj) w.chunks [] [] w as h.half
    rw [ho]
    cases o with
    | none => rfl
    | some p => exact sendItems_half _ _ _ h hp
  unfold writeWithRetries writeRounds
  rw [hw]
  dsimp only
  have hs : stopWorker { w with half := true } as = (w, .ret (some .dataLoss), as) := by
    unfold stopWorker
    rw [if_neg h.limited, if_pos h.running]
    unfold stopped
    rw [if_pos h.unconfirmed]
    have h1 := h.half
    have h2 := h.running
    cases w
    cases h1
    cases h2
    rfl
  rw [hs]

theorem batchColumns_err {b : List (List Tensor)} {e : Code} : ∀ {is : List Nat}, batchColumns b is = .err e → e = .invalidArgument
  | [], h => by cases h
  | i :: is, h => by
    unfold batchColumns at h
    cases hc : batchColumn b i with
    | died => rw [hc] at h; cases h
    | err e' =>
      rw [hc] at h
      cases h
      unfold batchColumn at hc
      split at hc
      · cases hc
      · split at hc
        · cases hc; rfl
        · unfold Tensor.concat at hc
          split at hc
          · cases hc; rfl
          · split at hc
            · cases hc; rfl
            · split at hc
              · cases hc; rfl
              · split at hc <;> cases hc
    | ok t =>
      rw [hc] at h
      dsimp only at h
      cases hr : batchColumns b is with
      | died => rw [hr] at h; cases h
      | ok ts => rw [hr] at h; cases h
      | err e' => rw [hr] at h; cases h; exact batchColumns_err hr

theorem deltaEncodeList_err {e : Code} {enc : Bool} : ∀ {ts : List Tensor}, Tensor.deltaEncodeList ts enc ≠ .err e
  | [] => by simp [Tensor.deltaEncodeList]
  | t :: ts => by
    unfold Tensor.deltaEncodeList
    have h1 : ∀ c, Tensor.deltaEncode t enc ≠ .err c := by
      intro c
      unfold Tensor.deltaEncode
      split
      · split
        · simp
        · dsimp only
          split <;> simp
      · simp
    have ih := fun c => deltaEncodeList_err (e := c) (enc := enc) (ts := ts)
    cases hd : Tensor.deltaEncode t enc with
    | died => simp
    | err c => exact absurd hd (h1 c)
    | ok t' =>
      dsimp only
      cases hr : Tensor.deltaEncodeList ts enc with
      | died => simp
      | err c => exact absurd hr (ih c)
      | ok ts' => simp

theorem makeChunk_err {w : Writer} {e : Code} (h : w.makeChunk = .err e) : e = .invalidArgument := by
  unfold makeChunk at h
  cases hb : w.buffer with
  | nil => rw [hb] at h; cases h
  | cons a b =>
    rw [hb] at h
    dsimp only at h
    cases hc : batchColumns (a :: b) (List.range a.length) with
    | died => rw [hc] at h; cases h
    | err e' => rw [hc] at h; cases h; exact batchColumns_err hc
    | ok ts =>
      rw [hc] at h
      dsimp only at h
      split at h
      · rename_i he
        split at he
        · exact absurd he deltaEncodeList_err
        · cases he
      · cases h
      · cases h

theorem finish_stuck {w : Writer} (h : w.Stuck) (hp : w.pending ≠ []) (retry : Bool) (as : List Answer) :
    w.finish retry as = (w, .died, as) ∨ (∃ e, w.finish retry as = (w, .ret (some e), as) ∧ e ≠ .unavailable) := by
  unfold finish
  cases hm : w.makeChunk with
  | died => exact .inl rfl
  | err e =>
    refine .inr ⟨e, rfl, ?_⟩
    rintro rfl
    cases makeChunk_err hm
  | ok ch =>
    dsimp only
    rw [writeWithRetries_stuck (w := { w with chunks := w.chunks ++ [ch] }) ⟨h.stream, h.half, h.limited, h.unconfirmed, h.running⟩ hp]
    dsimp only
    rw [List.dropLast_concat]
    exact .inr ⟨_, rfl, by simp⟩

end Writer
end Verif
