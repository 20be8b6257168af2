import Verif.Proofs.WriterKept
import Verif.Proofs.WriterFull
/-
The old writer tries again after a stream has ended with Unavailable, if there is no limit on the items in flight.
-/
namespace Verif
namespace Writer

/-! ### The stream is not half-closed between calls -/

theorem write_keeps_half (w : Writer) (m : Msg) (as : List Answer) : (w.write m as).1.half = w.half := by
  by_cases hh : w.half = true
  · rw [write_half hh]
  · have hh : w.half = false := by simpa using hh
    cases as with
    | nil => rw [write_nil hh]
    | cons a as =>
      cases a with
      | write ok => rw [write_ok hh]
      | confirms n dead => rw [write_confirms hh]
      | finish st => rw [write_finish hh]

theorem sendChunks_keeps_half (need : List Key) : ∀ (cs req : List ChunkData) (keep : List Key) (w : Writer) (as : List Answer),
    (sendChunks need cs req keep w as).1.half = w.half
  | [], _, _, _, _ => rfl
  | c :: cs, req, keep, w, as => by
    unfold sendChunks
    split
    · split
      · have hw := write_keeps_half w ⟨req ++ [c], none⟩ as
        obtain ⟨⟨w1, r1, as1⟩, he⟩ : ∃ x, w.write ⟨req ++ [c], none⟩ as = x := ⟨_, rfl⟩
        rw [he] at hw ⊢
        have hw : w1.half = w.half := hw
        rcases r1 with (_ | _) | _ | _
        · exact hw
        · exact (sendChunks_keeps_half need cs _ _ _ _).trans hw
        · exact hw
        · exact hw
      · exact sendChunks_keeps_half need cs _ _ _ _
    · split
      · exact sendChunks_keeps_half need cs _ _ _ _
      · exact sendChunks_keeps_half need cs _ _ _ _

theorem sendItems_keeps_half (req : List ChunkData) (keep : List Key) : ∀ (items : List WItem) (w : Writer) (as : List Answer),
    (sendItems req keep items w as).1.half = w.half
  | [], _, _ => rfl
  | it :: rest, w, as => by
    unfold sendItems
    have hq := (awaitRoom_quiet w as).half
    obtain ⟨⟨w1, r1, as1⟩, he1⟩ : ∃ x, w.awaitRoom as = x := ⟨_, rfl⟩
    rw [he1] at hq ⊢
    have hq : w1.half = w.half := hq
    rcases r1 with (_ | _) | _ | _
    · exact hq
    · dsimp only
      have hw := (write_keeps_half w1 ⟨req, some (it, keep)⟩ as1).trans hq
      obtain ⟨⟨w2, r2, as2⟩, he⟩ : ∃ x, w1.write ⟨req, some (it, keep)⟩ as1 = x := ⟨_, rfl⟩
      rw [he] at hw ⊢
      have hw : w2.half = w.half := hw
      rcases r2 with (_ | _) | _ | _
      · exact hw
      · exact (sendItems_keeps_half req keep rest _ _).trans hw
      · exact hw
      · exact hw
    · exact hq
    · exact hq

theorem openStream_keeps_half {w w1 : Writer} (h : w.openStream = some w1) : w1.half = w.half := by
  unfold openStream at h
  split at h
  · cases h; rfl
  · split at h
    · cases h; rfl
    · split at h
      · cases h
      · cases h; rfl

theorem writePending_keeps_half (w : Writer) (as : List Answer) : (w.writePending as).1.half = w.half := by
  unfold writePending
  cases ho : w.openStream with
  | none => rfl
  | some w1 =>
    dsimp only
    have h1 := (sendChunks_keeps_half (w1.pending.flatMap fun it => getChunkKeys it.traj) w1.chunks [] [] w1 as).trans (openStream_keeps_half ho)
    obtain ⟨⟨w2, r2, as2⟩, he⟩ : ∃ x, sendChunks (w1.pending.flatMap fun it => getChunkKeys it.traj) w1.chunks [] [] w1 as = x := ⟨_, rfl⟩
    rw [he] at h1 ⊢
    have h1 : w2.half = w.half := h1
    rcases r2 with (_ | p) | _ | _
    · exact h1
    · exact (sendItems_keeps_half _ _ _ _ _).trans h1
    · exact h1
    · exact h1

theorem core_maxInFlight {w w' : Writer} (h : w'.core = w.core) : w'.maxInFlight = w.maxInFlight := by
  show w'.core.maxInFlight = w.core.maxInFlight; rw [h]

theorem writeRounds_half (retry : Bool) : ∀ (n : Nat) (w : Writer) (as : List Answer), w.maxInFlight = none → w.half = false →
    ∀ r, (writeRounds retry n w as).2.1 = .ret r → (writeRounds retry n w as).1.half = false
  | 0, w, as, _, _, r, h => by simp [writeRounds] at h
  | n + 1, w, as, hm, hh, r, h => by
    revert h
    unfold writeRounds
    have h1 := (writePending_keeps_half w as).trans hh
    have hm1 := (core_maxInFlight (writePending_core w as)).trans hm
    obtain ⟨⟨w1, r1, as1⟩, he⟩ : ∃ x, w.writePending as = x := ⟨_, rfl⟩
    rw [he] at h1 hm1 ⊢
    have h1 : w1.half = false := h1
    have hm1 : w1.maxInFlight = none := hm1
    rcases r1 with (_ | _) | _ | _
    · dsimp only
      have hst : stopWorker { w1 with half := true } as1 = ({ w1 with half := true }, .ret none, as1) := by
        unfold stopWorker
        rw [if_pos hm1]
      rw [hst]
      dsimp only
      rcases as1 with _ | ⟨_ | ⟨k, dead⟩ | st, as3⟩
      · simp
      · simp
      · simp
      · dsimp only
        split
        · exact fun h => (writeRounds_half retry n _ _ (by exact hm1) rfl r h :)
        · exact fun _ => rfl
    · exact fun _ => h1
    · simp
    · simp

theorem writeWithRetries_half {w : Writer} (retry : Bool) (as : List Answer) (hm : w.maxInFlight = none) (hh : w.half = false) (r : Option Code)
    (h : (w.writeWithRetries retry as).2.1 = .ret r) : (w.writeWithRetries retry as).1.half = false :=
  writeRounds_half retry _ w as hm hh r h

theorem finish_half {w : Writer} (retry : Bool) (as : List Answer) (hm : w.maxInFlight = none) (hh : w.half = false) (r : Option Code)
    (h : (w.finish retry as).2.1 = .ret r) : (w.finish retry as).1.half = false := by
  revert h
  unfold finish
  cases w.makeChunk with
  | died => simp
  | err e => exact fun _ => hh
  | ok ch =>
    dsimp only
    have h1 := writeWithRetries_half (w := { w with chunks := w.chunks ++ [ch] }) retry as hm hh
    obtain ⟨⟨w1, r1, as1⟩, he⟩ : ∃ x, writeWithRetries { w with chunks := w.chunks ++ [ch] } retry as = x := ⟨_, rfl⟩
    rw [he] at h1 ⊢
    rcases r1 with (_ | e) | _ | _
    · exact fun _ => h1 _ rfl
    · exact fun _ => h1 _ rfl
    · simp
    · simp

theorem closeStream_half {w : Writer} (as : List Answer) (hh : w.half = false) (r : Option Code) (h : (w.closeStream as).2.1 = .ret r) :
    (w.closeStream as).1.half = false := by
  revert h
  unfold closeStream
  split
  · exact fun _ => hh
  · obtain ⟨⟨w1, r1, as1⟩, he⟩ : ∃ x, confirmItems 0 as { w with half := true } = x := ⟨_, rfl⟩
    rw [he]
    cases r1 with
    | blocked => simp
    | died => simp
    | ret b =>
      dsimp only
      obtain ⟨⟨w2, r2, as2⟩, he2⟩ : ∃ x, w1.stopWorker as1 = x := ⟨_, rfl⟩
      rw [he2]
      cases r2 with
      | blocked => simp
      | died => simp
      | ret b =>
        rcases as2 with _ | ⟨_ | ⟨n, dead⟩ | st, as3⟩
        · simp
        · simp
        · simp
        · exact fun _ => rfl

theorem call_half {w : Writer} (c : Call) (as : List Answer) (hm : w.maxInFlight = none) (hh : w.half = false) (r : Option Code)
    (h : (w.call c as).2.1 = .ret r) : (w.call c as).1.half = false := by
  cases c with
  | append data =>
    have h : (w.append data as).2.1 = .ret r := h
    show (w.append data as).1.half = false
    revert h
    unfold append
    split
    · exact fun _ => hh
    split
    · exact fun _ => hh
    split
    · exact fun _ => hh
    split
    · exact fun _ => hh
    have h1 := finish_half (w := w.push data) true as hm hh
    obtain ⟨⟨w1, r1, as1⟩, he⟩ : ∃ x, (w.push data).finish true as = x := ⟨_, rfl⟩
    rw [he] at h1 ⊢
    rcases r1 with (_ | e) | _ | _
    · exact fun _ => h1 _ rfl
    · exact fun _ => h1 _ rfl
    · simp
    · simp
  | createItem table n p =>
    have h : (w.createItem table n p as).2.1 = .ret r := h
    show (w.createItem table n p as).1.half = false
    revert h
    unfold createItem
    split
    · exact fun _ => hh
    split
    · exact fun _ => hh
    split
    · exact fun _ => hh
    cases w.checkSignature table n.toNat with
    | err e => exact fun _ => hh
    | died => exact fun _ => hh
    | ok u =>
      dsimp only
      cases w.trajectory n with
      | none => exact fun _ => hh
      | some traj =>
        dsimp only
        split
        · have h1 := writeWithRetries_half (w := w.pushItem table p traj) true as hm hh
          obtain ⟨⟨w1, r1, as1⟩, he⟩ : ∃ x, (w.pushItem table p traj).writeWithRetries true as = x := ⟨_, rfl⟩
          rw [he] at h1 ⊢
          rcases r1 with (_ | e) | _ | _
          · exact fun _ => h1 _ rfl
          · exact fun _ => h1 _ rfl
          · simp
          · simp
        · exact fun _ => hh
  | flush =>
    have h : (w.flush as).2.1 = .ret r := h
    show (w.flush as).1.half = false
    revert h
    unfold flush
    split
    · exact fun _ => hh
    split
    · exact fun h => finish_half true as hm hh r h
    · have hq := (confirmItems_quiet 0 as w).half
      obtain ⟨⟨w1, r1, as1⟩, he⟩ : ∃ x, confirmItems 0 as w = x := ⟨_, rfl⟩
      rw [he] at hq ⊢
      have hq' : w1.half = false := Eq.trans hq hh
      rcases r1 with (_ | _) | _ | _ <;> exact fun _ => Eq.trans (b := w1.half) rfl hq'
  | close retry =>
    have h : (w.close retry as).2.1 = .ret r := h
    show (w.close retry as).1.half = false
    revert h
    unfold close
    split
    · exact fun _ => hh
    split
    · exact fun h => closeStream_half as hh r h
    · have h1 := finish_half retry as hm hh
      obtain ⟨⟨w1, r1, as1⟩, he⟩ : ∃ x, w.finish retry as = x := ⟨_, rfl⟩
      rw [he] at h1 ⊢
      rcases r1 with (_ | e) | _ | _
      · exact fun h => closeStream_half as1 (h1 _ rfl) r h
      · dsimp only
        split
        · exact fun h => closeStream_half as1 (h1 _ rfl) r h
        · exact fun _ => h1 _ rfl
      · simp
      · simp

/-! ### Streams that fail -/

theorem sendChunks_false (need : List Key) (rest : List Answer) : ∀ (cs req : List ChunkData) (keep : List Key) (w : Writer), w.half = false →
    ∃ w1, sendChunks need cs req keep w (.write false :: rest) = (w1, .ret none, rest) ∨
      ∃ p, sendChunks need cs req keep w (.write false :: rest) = (w1, .ret (some p), .write false :: rest)
  | [], req, keep, w, _ => ⟨w, .inr ⟨_, rfl⟩⟩
  | c :: cs, req, keep, w, h => by
    unfold sendChunks
    split
    · split
      · rw [write_ok h]
        exact ⟨_, .inl rfl⟩
      · exact sendChunks_false need rest cs _ _ w h
    · split
      · exact sendChunks_false need rest cs _ _ w h
      · exact sendChunks_false need rest cs _ _ w h

theorem writePending_false {w : Writer} (rest : List Answer) (h : w.half = false) (hm : w.maxInFlight = none) (hp : w.pending ≠ []) :
    ∃ w1, w.writePending (.write false :: rest) = (w1, .ret false, rest) ∧ w1.pending = w.pending := by
  have ho : ∃ w1, w.openStream = some w1 ∧ w1.half = false ∧ w1.maxInFlight = none ∧ w1.pending = w.pending := by
    unfold openStream
    split
    · exact ⟨w, rfl, h, hm, rfl⟩
    · exact ⟨_, rfl, h, hm, rfl⟩
  obtain ⟨w1, e1, e2, e3, e4⟩ := ho
  unfold writePending
  rw [e1]
  dsimp only
  have hk := (sendChunks_kept (w1.pending.flatMap fun it => getChunkKeys it.traj) w1.chunks [] [] w1 (.write false :: rest)).1.1
  have hh := (sendChunks_keeps_half (w1.pending.flatMap fun it => getChunkKeys it.traj) w1.chunks [] [] w1 (.write false :: rest)).trans e2
  have hmm := (core_maxInFlight (sendChunks_core (w1.pending.flatMap fun it => getChunkKeys it.traj) w1.chunks [] [] w1 (.write false :: rest))).trans e3
  obtain ⟨w2, he | ⟨p, he⟩⟩ := sendChunks_false (w1.pending.flatMap fun it => getChunkKeys it.traj) rest w1.chunks [] [] w1 e2
  · rw [he] at hk ⊢
    exact ⟨w2, rfl, Eq.trans hk e4⟩
  · rw [he] at hk hh hmm ⊢
    have hk : w2.pending = w.pending := Eq.trans hk e4
    have hh : w2.half = false := hh
    have hmm : w2.maxInFlight = none := hmm
    obtain ⟨it, rest', hpe⟩ := List.exists_cons_of_ne_nil hp
    dsimp only
    rw [hk, hpe]
    unfold sendItems
    have ha : w2.awaitRoom (.write false :: rest) = (w2, .ret true, .write false :: rest) := by unfold awaitRoom; rw [hmm]
    rw [ha]
    dsimp only
    rw [write_ok hh]
    exact ⟨_, rfl, by show w2.pending = _; rw [hk, hpe]⟩

/-- `k` streams fail, then all goes well. -/
theorem writeRounds_again {N : Nat} : ∀ (k n : Nat) (w : Writer), w.half = false → w.maxInFlight = none → w.pending ≠ [] →
    w.chunks.length + w.pending.length ≤ N → k < n →
    (writeRounds true n w ((List.replicate k [Answer.write false, .finish (some .unavailable)]).flatten ++ List.replicate N (.write true))).2.1 = .ret none
  | 0, n + 1, w, hh, hm, hp, hN, hn => by
    obtain ⟨w1, as1, he⟩ := writePending_true hh hm hN
    unfold writeRounds
    rw [List.replicate_zero, List.flatten_nil, List.nil_append, he]
  | k + 1, n + 1, w, hh, hm, hp, hN, hn => by
    rw [List.replicate_succ, List.flatten_cons, List.append_assoc, List.cons_append]
    obtain ⟨w1, he, hpe⟩ := writePending_false ([.finish (some .unavailable)] ++ ((List.replicate k [Answer.write false, .finish (some .unavailable)]).flatten ++
      List.replicate N (.write true))) hh hm hp
    have hc := writePending_core w (.write false :: ([.finish (some .unavailable)] ++ ((List.replicate k [Answer.write false, .finish (some .unavailable)]).flatten ++
      List.replicate N (.write true))))
    rw [he] at hc
    have hc : w1.core = w.core := hc
    have hm1 : w1.maxInFlight = none := (core_maxInFlight hc).trans hm
    have hst : ∀ as1, stopWorker { w1 with half := true } as1 = ({ w1 with half := true }, .ret none, as1) := by
      intro as1
      unfold stopWorker
      rw [if_pos hm1]
    unfold writeRounds
    rw [he]
    dsimp only
    rw [hst]
    dsimp only [List.singleton_append]
    rw [if_pos ⟨rfl, rfl⟩]
    refine writeRounds_again k n _ rfl hm1 (by show w1.pending ≠ []; rw [hpe]; exact hp) ?_ (by omega)
    show w1.chunks.length + w1.pending.length ≤ N
    rw [hpe, core_chunks hc]
    exact hN

theorem finish_limit (w : Writer) (retry : Bool) (as : List Answer) (r : Option Code) (h : (w.finish retry as).2.1 = .ret r) :
    (w.finish retry as).1.maxInFlight = w.maxInFlight := by
  have hf := finish_core w retry as
  cases r with
  | none =>
    obtain ⟨ch, _, h2⟩ := hf.1 h
    exact core_maxInFlight (w := ({ w with chunks := w.chunks ++ [ch] } : Writer).finished) h2
  | some e => exact core_maxInFlight (hf.2 e h)

theorem closeStream_limit (w : Writer) (as : List Answer) : (w.closeStream as).1.maxInFlight = w.maxInFlight := by
  unfold closeStream
  split
  · rfl
  · have hq := (confirmItems_quiet 0 as { w with half := true }).maxInFlight
    obtain ⟨⟨w1, r1, as1⟩, he⟩ : ∃ x, confirmItems 0 as { w with half := true } = x := ⟨_, rfl⟩
    rw [he] at hq ⊢
    have hq : w1.maxInFlight = w.maxInFlight := hq
    cases r1 with
    | blocked => exact hq
    | died => exact hq
    | ret b =>
      dsimp only
      have hq2 := ((stopWorker_quiet w1 as1).maxInFlight).trans hq
      obtain ⟨⟨w2, r2, as2⟩, he2⟩ : ∃ x, w1.stopWorker as1 = x := ⟨_, rfl⟩
      rw [he2] at hq2 ⊢
      have hq2 : w2.maxInFlight = w.maxInFlight := hq2
      cases r2 with
      | blocked => exact hq2
      | died => exact hq2
      | ret b => rcases as2 with _ | ⟨_ | ⟨n, dead⟩ | st, as3⟩ <;> exact hq2

theorem call_limit {w : Writer} (hr : w.closed = false → w.Ring) (c : Call) (as : List Answer) (r : Option Code) (h : (w.call c as).2.1 = .ret r) :
    (w.call c as).1.maxInFlight = w.maxInFlight := by
  cases c with
  | append data =>
    by_cases hc : w.closed = true
    · simp [call, Writer.append, hc]
    have ha := append_core (hr (by simpa using hc)) data as
    cases r with
    | some e => exact core_maxInFlight (ha.1 e h)
    | none =>
      obtain ⟨_, _, h3⟩ := ha.2 h
      split at h3
      · exact core_maxInFlight (w := w.push data) h3
      · obtain ⟨ch, _, h5⟩ := h3
        exact core_maxInFlight (w := ({ (w.push data) with chunks := w.chunks ++ [ch] } : Writer).finished) h5
  | createItem table n p =>
    rcases createItem_core w table n p as r h with hx | hx
    · exact core_maxInFlight hx
    · exact core_maxInFlight (w := { w with drawn := w.drawn + 1 }) hx
  | flush =>
    rcases flush_core w as r h with hx | ⟨ch, _, hx⟩
    · exact core_maxInFlight hx
    · exact core_maxInFlight (w := ({ w with chunks := w.chunks ++ [ch] } : Writer).finished) hx
  | close retry =>
    have h : (w.close retry as).2.1 = .ret r := h
    show (w.close retry as).1.maxInFlight = w.maxInFlight
    revert h
    unfold close
    split
    · exact fun _ => rfl
    split
    · exact fun _ => closeStream_limit w as
    · have hf := finish_limit w retry as
      obtain ⟨⟨w1, r1, as1⟩, he⟩ : ∃ x, w.finish retry as = x := ⟨_, rfl⟩
      rw [he] at hf ⊢
      rcases r1 with (_ | e) | _ | _
      · exact fun _ => (closeStream_limit w1 as1).trans (hf _ rfl)
      · dsimp only
        split
        · exact fun _ => (closeStream_limit w1 as1).trans (hf _ rfl)
        · exact fun _ => hf _ rfl
      · simp
      · simp

theorem half_of_run : ∀ {evs : List Event} {H : List Timestep} {w w1 : Writer}, w.run evs = some w1 → (w.closed = false → RingInv H w) →
    w.maxInFlight = none → w.half = false → w1.maxInFlight = none ∧ w1.half = false
  | [], H, w, w1, h, _, hm, hh => by
    simp only [run, Option.some.injEq] at h
    subst h
    exact ⟨hm, hh⟩
  | (c, as) :: evs, H, w, w1, h, hri, hm, hh => by
    obtain ⟨⟨r, hr⟩, h1, _⟩ := run_cons h
    exact half_of_run h1 (call_ring hri c as r hr) ((call_limit (fun hc => (hri hc).ring) c as r hr).trans hm) (call_half c as hm hh r hr)

/-- The call that completes a chunk. -/
theorem append_retried {w : Writer} {data : Timestep} {ch : ChunkData} (hc : w.closed = false)
    (hb : w.buffer.head?.any (fun b => b.length != data.length) = false) (ht : w.maxTimesteps ≠ 0) (h : w.half = false) (hm : w.maxInFlight = none)
    (hp : w.pending ≠ []) (hch : (w.push data).makeChunk = .ok ch) (k : Nat) :
    (w.append data ((List.replicate k [Answer.write false, .finish (some .unavailable)]).flatten ++
      List.replicate (w.chunks.length + 1 + w.pending.length) (.write true))).2.1 = .ret none := by
  unfold append
  rw [if_neg (by simp [hc]), if_neg (by simp [hb]), if_neg ht]
  split
  · rfl
  · unfold finish
    rw [hch]
    dsimp only
    have hw : ∀ as, (writeRounds true (as.length + 1) { (w.push data) with chunks := (w.push data).chunks ++ [ch] } as).2.1 = .ret none →
        (writeWithRetries { (w.push data) with chunks := (w.push data).chunks ++ [ch] } true as).2.1 = .ret none := fun _ h => h
    have := hw _ (writeRounds_again (N := w.chunks.length + 1 + w.pending.length) k (((List.replicate k [Answer.write false, .finish (some .unavailable)]).flatten ++
      List.replicate (w.chunks.length + 1 + w.pending.length) (Answer.write true)).length + 1) _ (by exact h) (by exact hm) (by exact hp)
      (by simp [push]) (by simp; omega))
    obtain ⟨⟨w1, r1, as1⟩, he⟩ : ∃ x, writeWithRetries { (w.push data) with chunks := (w.push data).chunks ++ [ch] } true
      ((List.replicate k [Answer.write false, .finish (some .unavailable)]).flatten ++ List.replicate (w.chunks.length + 1 + w.pending.length) (.write true)) = x := ⟨_, rfl⟩
    rw [he] at this ⊢
    have this : r1 = .ret none := this
    subst this
    rfl

end Writer
end Verif
