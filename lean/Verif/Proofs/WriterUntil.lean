import Verif.Proofs.WriterAgain
import Verif.Proofs.WriterRetry
/-
The old writer goes on while streams end with Unavailable. Without a limit on the items in flight none is ever counted as in flight.
-/
namespace Verif
namespace Writer

/-! ### Why writing fails -/

theorem writeRounds_code : ∀ (n : Nat) (w : Writer) (as : List Answer) (e : Code), (writeRounds true n w as).2.1 = .ret (some e) →
    (e = .dataLoss ∧ w.maxInFlight ≠ none) ∨ .finish (some e) ∈ as ∧ e ≠ .unavailable
  | 0, w, as, e, h => by simp [writeRounds] at h
  | n + 1, w, as, e, h => by
    have hne : e ≠ .unavailable := by
      rintro rfl
      exact writeRounds_err (n + 1) w as h
    revert h
    unfold writeRounds
    have hm := core_maxInFlight (writePending_core w as)
    have hs := (writePending_kept w as).2.1
    obtain ⟨⟨w1, r1, as1⟩, he⟩ : ∃ x, w.writePending as = x := ⟨_, rfl⟩
    rw [he] at hm hs ⊢
    have hm : w1.maxInFlight = w.maxInFlight := hm
    have hs : as1 <:+ as := hs
    rcases r1 with (_ | _) | _ | _
    · dsimp only
      have hsome := fun e => stopWorker_some (w := { w1 with half := true }) (as := as1) (e := e)
      have hs2 := (stopWorker_suffix { w1 with half := true } as1).trans hs
      have hm2 := (stopWorker_quiet { w1 with half := true } as1).maxInFlight
      obtain ⟨⟨w2, r2, as2⟩, he2⟩ : ∃ x, stopWorker { w1 with half := true } as1 = x := ⟨_, rfl⟩
      rw [he2] at hsome hs2 hm2 ⊢
      have hm2 : w2.maxInFlight = w1.maxInFlight := hm2
      have hs2 : as2 <:+ as := hs2
      rcases r2 with (_ | e2) | _ | _
      · dsimp only
        rcases as2 with _ | ⟨_ | ⟨k, dead⟩ | st, as3⟩
        · simp
        · simp
        · simp
        · dsimp only
          have hs3 : as3 <:+ as := (List.suffix_cons _ _).trans hs2
          split
          · intro h
            rcases writeRounds_code n _ _ e h with ⟨g1, g2⟩ | ⟨g1, g2⟩
            · refine .inl ⟨g1, ?_⟩
              rw [← hm, ← hm2]
              exact g2
            · exact .inr ⟨hs3.subset g1, g2⟩
          · intro h
            simp only [Ret.ret.injEq] at h
            subst h
            exact .inr ⟨hs2.subset List.mem_cons_self, hne⟩
      · intro h
        simp only [Ret.ret.injEq, Option.some.injEq] at h
        subst h
        obtain ⟨g1, g2, _⟩ := hsome e2 rfl
        exact .inl ⟨g1, by rw [← hm]; exact g2⟩
      · simp
      · simp
    · simp
    · simp
    · simp

theorem finish_code (w : Writer) (as : List Answer) (e : Code) (h : (w.finish true as).2.1 = .ret (some e)) :
    (w.makeChunk = .err e ∧ w.finish true as = (w, .ret (some e), as)) ∨ (e = .dataLoss ∧ w.maxInFlight ≠ none) ∨
      .finish (some e) ∈ as ∧ e ≠ .unavailable := by
  revert h
  unfold finish
  cases hc : w.makeChunk with
  | died => simp
  | err e' =>
    intro h
    simp only [Ret.ret.injEq, Option.some.injEq] at h
    subst h
    exact .inl ⟨rfl, rfl⟩
  | ok ch =>
    dsimp only
    have hw := writeRounds_code (as.length + 1) { w with chunks := w.chunks ++ [ch] } as
    have hw : ∀ e, (writeWithRetries { w with chunks := w.chunks ++ [ch] } true as).2.1 = .ret (some e) → _ := hw
    obtain ⟨⟨w1, r1, as1⟩, he⟩ : ∃ x, writeWithRetries { w with chunks := w.chunks ++ [ch] } true as = x := ⟨_, rfl⟩
    rw [he] at hw ⊢
    rcases r1 with (_ | e1) | _ | _
    · simp
    · intro h
      simp only [Ret.ret.injEq, Option.some.injEq] at h
      subst h
      exact .inr (hw e1 rfl)
    · simp
    · simp

/-! ### No limit, no items in flight -/

theorem write_inFlight (w : Writer) (m : Msg) (as : List Answer) : (w.write m as).1.inFlight = w.inFlight ∧ (w.write m as).1.maxInFlight = w.maxInFlight := by
  unfold write
  split
  · exact ⟨rfl, rfl⟩
  · split <;> exact ⟨rfl, rfl⟩

theorem sendChunks_inFlight (need : List Key) : ∀ (cs req : List ChunkData) (keep : List Key) (w : Writer) (as : List Answer),
    (sendChunks need cs req keep w as).1.inFlight = w.inFlight
  | [], _, _, _, _ => rfl
  | c :: cs, req, keep, w, as => by
    unfold sendChunks
    split
    · split
      · have hw := (write_inFlight w ⟨req ++ [c], none⟩ as).1
        obtain ⟨⟨w1, r1, as1⟩, he⟩ : ∃ x, w.write ⟨req ++ [c], none⟩ as = x := ⟨_, rfl⟩
        rw [he] at hw ⊢
        have hw : w1.inFlight = w.inFlight := hw
        rcases r1 with (_ | _) | _ | _
        · exact hw
        · exact (sendChunks_inFlight need cs _ _ _ _).trans hw
        · exact hw
        · exact hw
      · exact sendChunks_inFlight need cs _ _ _ _
    · split
      · exact sendChunks_inFlight need cs _ _ _ _
      · exact sendChunks_inFlight need cs _ _ _ _

theorem sendItems_inFlight (req : List ChunkData) (keep : List Key) : ∀ (items : List WItem) (w : Writer) (as : List Answer), w.maxInFlight = none →
    (sendItems req keep items w as).1.inFlight = w.inFlight
  | [], _, _, _ => rfl
  | it :: rest, w, as, hm => by
    unfold sendItems
    have ha : w.awaitRoom as = (w, .ret true, as) := by unfold awaitRoom; rw [hm]
    rw [ha]
    dsimp only
    have hw := write_inFlight w ⟨req, some (it, keep)⟩ as
    obtain ⟨⟨w2, r2, as2⟩, he⟩ : ∃ x, w.write ⟨req, some (it, keep)⟩ as = x := ⟨_, rfl⟩
    rw [he] at hw ⊢
    have h1 : w2.inFlight = w.inFlight := hw.1
    have h2 : w2.maxInFlight = none := Eq.trans hw.2 hm
    rcases r2 with (_ | _) | _ | _
    · exact h1
    · refine (sendItems_inFlight req keep rest (w2.itemSent req rest) as2 h2).trans ?_
      show (if w2.maxInFlight = none then w2.inFlight else _) = _
      rw [if_pos h2]
      exact h1
    · exact h1
    · exact h1

theorem writePending_inFlight (w : Writer) (as : List Answer) (hm : w.maxInFlight = none) : (w.writePending as).1.inFlight = w.inFlight := by
  unfold writePending
  cases ho : w.openStream with
  | none => rfl
  | some w1 =>
    dsimp only
    have h0 : w1.inFlight = w.inFlight ∧ w1.maxInFlight = none := by
      unfold openStream at ho
      split at ho
      · cases ho; exact ⟨rfl, hm⟩
      · cases ho
        exact ⟨rfl, hm⟩
    have h1 := (sendChunks_inFlight (w1.pending.flatMap fun it => getChunkKeys it.traj) w1.chunks [] [] w1 as).trans h0.1
    have hmm := (core_maxInFlight (sendChunks_core (w1.pending.flatMap fun it => getChunkKeys it.traj) w1.chunks [] [] w1 as)).trans h0.2
    obtain ⟨⟨w2, r2, as2⟩, he⟩ : ∃ x, sendChunks (w1.pending.flatMap fun it => getChunkKeys it.traj) w1.chunks [] [] w1 as = x := ⟨_, rfl⟩
    rw [he] at h1 hmm ⊢
    rcases r2 with (_ | p) | _ | _
    · exact h1
    · exact (sendItems_inFlight _ _ _ w2 _ hmm).trans h1
    · exact h1
    · exact h1

theorem writeRounds_inFlight (retry : Bool) : ∀ (n : Nat) (w : Writer) (as : List Answer), w.maxInFlight = none →
    (writeRounds retry n w as).1.inFlight = w.inFlight
  | 0, w, as, _ => rfl
  | n + 1, w, as, hm => by
    unfold writeRounds
    have h1 := writePending_inFlight w as hm
    have hm1 := (core_maxInFlight (writePending_core w as)).trans hm
    obtain ⟨⟨w1, r1, as1⟩, he⟩ : ∃ x, w.writePending as = x := ⟨_, rfl⟩
    rw [he] at h1 hm1 ⊢
    have h1 : w1.inFlight = w.inFlight := h1
    have hm1 : w1.maxInFlight = none := hm1
    rcases r1 with (_ | _) | _ | _
    · dsimp only
      have hst : stopWorker { w1 with half := true } as1 = ({ w1 with half := true }, .ret none, as1) := by
        unfold stopWorker
        rw [if_pos hm1]
      rw [hst]
      dsimp only
      rcases as1 with _ | ⟨_ | ⟨k, dead⟩ | st, as3⟩
      · exact h1
      · exact h1
      · exact h1
      · dsimp only
        split
        · exact (writeRounds_inFlight retry n _ _ (by exact hm1)).trans h1
        · exact h1
    · exact h1
    · exact h1
    · exact h1

theorem finish_inFlight (w : Writer) (retry : Bool) (as : List Answer) (hm : w.maxInFlight = none) : (w.finish retry as).1.inFlight = w.inFlight := by
  unfold finish
  cases w.makeChunk with
  | died => rfl
  | err e => rfl
  | ok ch =>
    dsimp only
    have h1 : (writeWithRetries { w with chunks := w.chunks ++ [ch] } retry as).1.inFlight = w.inFlight :=
      writeRounds_inFlight retry _ { w with chunks := w.chunks ++ [ch] } as hm
    obtain ⟨⟨w1, r1, as1⟩, he⟩ : ∃ x, writeWithRetries { w with chunks := w.chunks ++ [ch] } retry as = x := ⟨_, rfl⟩
    rw [he] at h1 ⊢
    rcases r1 with (_ | e) | _ | _ <;> exact h1

theorem confirmItems_none (as : List Answer) {w : Writer} (h : w.inFlight = 0) : confirmItems 0 as w = (w, .ret true, as) := by
  cases as <;> simp [confirmItems, h]

theorem closeStream_inFlight {w : Writer} (as : List Answer) (hm : w.maxInFlight = none) (h : w.inFlight = 0) : (w.closeStream as).1.inFlight = 0 := by
  unfold closeStream
  split
  · exact h
  · rw [confirmItems_none as (w := { w with half := true }) h]
    dsimp only
    have hst : stopWorker { w with half := true } as = ({ w with half := true }, .ret none, as) := by
      unfold stopWorker
      rw [if_pos hm]
    rw [hst]
    rcases as with _ | ⟨_ | ⟨k, dead⟩ | st, as3⟩ <;> exact h

theorem call_inFlight {w : Writer} (c : Call) (as : List Answer) (hm : w.maxInFlight = none) (h0 : w.inFlight = 0) : (w.call c as).1.inFlight = 0 := by
  cases c with
  | append data =>
    show (w.append data as).1.inFlight = 0
    unfold append
    split
    · exact h0
    split
    · exact h0
    split
    · exact h0
    split
    · exact h0
    have h1 := (finish_inFlight (w.push data) true as hm).trans h0
    obtain ⟨⟨w1, r1, as1⟩, he⟩ : ∃ x, (w.push data).finish true as = x := ⟨_, rfl⟩
    rw [he] at h1 ⊢
    rcases r1 with (_ | e) | _ | _ <;> exact h1
  | createItem table n p =>
    show (w.createItem table n p as).1.inFlight = 0
    unfold createItem
    split
    · exact h0
    split
    · exact h0
    split
    · exact h0
    cases w.checkSignature table n.toNat with
    | err e => exact h0
    | died => exact h0
    | ok u =>
      dsimp only
      cases w.trajectory n with
      | none => exact h0
      | some traj =>
        dsimp only
        split
        · have h1 : ((w.pushItem table p traj).writeWithRetries true as).1.inFlight = 0 :=
            (writeRounds_inFlight true _ (w.pushItem table p traj) as hm).trans h0
          obtain ⟨⟨w1, r1, as1⟩, he⟩ : ∃ x, (w.pushItem table p traj).writeWithRetries true as = x := ⟨_, rfl⟩
          rw [he] at h1 ⊢
          rcases r1 with (_ | e) | _ | _ <;> exact h1
        · exact h0
  | flush =>
    show (w.flush as).1.inFlight = 0
    unfold flush
    split
    · exact h0
    split
    · exact (finish_inFlight w true as hm).trans h0
    · rw [confirmItems_none as h0]
      exact h0
  | close retry =>
    show (w.close retry as).1.inFlight = 0
    unfold close
    split
    · exact h0
    split
    · exact closeStream_inFlight as hm h0
    · have h1 := (finish_inFlight w retry as hm).trans h0
      have hm1 := finish_limit w retry as
      obtain ⟨⟨w1, r1, as1⟩, he⟩ : ∃ x, w.finish retry as = x := ⟨_, rfl⟩
      rw [he] at h1 hm1 ⊢
      rcases r1 with (_ | e) | _ | _
      · exact closeStream_inFlight as1 (Eq.trans (hm1 _ rfl) hm) h1
      · dsimp only
        split
        · exact closeStream_inFlight as1 (Eq.trans (hm1 _ rfl) hm) h1
        · exact h1
      · exact h1
      · exact h1

theorem inFlight_of_run : ∀ {evs : List Event} {H : List Timestep} {w w1 : Writer}, w.run evs = some w1 → (w.closed = false → RingInv H w) →
    w.maxInFlight = none → w.inFlight = 0 → w1.maxInFlight = none ∧ w1.inFlight = 0
  | [], H, w, w1, h, _, hm, hh => by
    simp only [run, Option.some.injEq] at h
    subst h
    exact ⟨hm, hh⟩
  | (c, as) :: evs, H, w, w1, h, hri, hm, hh => by
    obtain ⟨⟨r, hr⟩, h1, _⟩ := run_cons h
    exact inFlight_of_run h1 (call_ring hri c as r hr) ((call_limit (fun hc => (hri hc).ring) c as r hr).trans hm) (call_inFlight c as hm hh)

/-! ### Other calls that try again -/

theorem finish_again {w : Writer} {ch : ChunkData} (h : w.half = false) (hm : w.maxInFlight = none) (hp : w.pending ≠ [])
    (hch : w.makeChunk = .ok ch) (k : Nat) :
    (w.finish true ((List.replicate k [Answer.write false, .finish (some .unavailable)]).flatten ++
      List.replicate (w.chunks.length + 1 + w.pending.length) (.write true))).2.1 = .ret none := by
  unfold finish
  rw [hch]
  dsimp only
  have hw : ∀ as, (writeRounds true (as.length + 1) { w with chunks := w.chunks ++ [ch] } as).2.1 = .ret none →
      (writeWithRetries { w with chunks := w.chunks ++ [ch] } true as).2.1 = .ret none := fun _ h => h
  have := hw _ (writeRounds_again (N := w.chunks.length + 1 + w.pending.length) k (((List.replicate k [Answer.write false, .finish (some .unavailable)]).flatten ++
    List.replicate (w.chunks.length + 1 + w.pending.length) (Answer.write true)).length + 1) _ (by exact h) (by exact hm) (by exact hp)
    (by simp) (by simp; omega))
  obtain ⟨⟨w1, r1, as1⟩, he⟩ : ∃ x, writeWithRetries { w with chunks := w.chunks ++ [ch] } true
    ((List.replicate k [Answer.write false, .finish (some .unavailable)]).flatten ++ List.replicate (w.chunks.length + 1 + w.pending.length) (.write true)) = x := ⟨_, rfl⟩
  rw [he] at this ⊢
  have this : r1 = .ret none := this
  subst this
  rfl

theorem createItem_again {w : Writer} {table : String} {n : Int} {p : Pri} {traj : FlatTraj} (hc : w.closed = false) (h : w.half = false)
    (hm : w.maxInFlight = none) (hn : 0 ≤ n ∧ n ≤ ((w.chunks.length * w.chunkLength + w.buffer.length : Nat) : Int) ∧ n ≤ (w.maxTimesteps : Int))
    (hsig : w.checkSignature table n.toNat = .ok ()) (ht : w.trajectory n = some traj) (k : Nat) :
    (w.createItem table n p ((List.replicate k [Answer.write false, .finish (some .unavailable)]).flatten ++
      List.replicate (w.chunks.length + (w.pending.length + 1)) (.write true))).2.1 = .ret none := by
  unfold createItem
  rw [if_neg (by simp [hc]), if_neg (by omega), if_neg (by omega), hsig]
  dsimp only
  rw [ht]
  dsimp only
  split
  · have hw : ∀ as, (writeRounds true (as.length + 1) (w.pushItem table p traj) as).2.1 = .ret none →
        ((w.pushItem table p traj).writeWithRetries true as).2.1 = .ret none := fun _ h => h
    have := hw _ (writeRounds_again (N := w.chunks.length + (w.pending.length + 1)) k (((List.replicate k [Answer.write false, .finish (some .unavailable)]).flatten ++
      List.replicate (w.chunks.length + (w.pending.length + 1)) (Answer.write true)).length + 1) _ (by exact h) (by exact hm) (by simp [pushItem])
      (by simp [pushItem]) (by simp; omega))
    obtain ⟨⟨w1, r1, as1⟩, he⟩ : ∃ x, (w.pushItem table p traj).writeWithRetries true
      ((List.replicate k [Answer.write false, .finish (some .unavailable)]).flatten ++ List.replicate (w.chunks.length + (w.pending.length + 1)) (.write true)) = x := ⟨_, rfl⟩
    rw [he] at this ⊢
    have this : r1 = .ret none := this
    subst this
    rfl
  · rfl

end Writer
end Verif
