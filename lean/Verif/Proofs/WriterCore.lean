import Verif.Proofs.WriterRun
/-
What the calls do to the part of the old writer that does not depend on the streams.
-/
namespace Verif
namespace Writer

theorem write_core (w : Writer) (m : Msg) (as : List Answer) : (w.write m as).1.core = w.core := by
  by_cases hh : w.half = true
  · rw [write_half hh]
  · have hh : w.half = false := by simpa using hh
    cases as with
    | nil => rw [write_nil hh]; rfl
    | cons a as =>
      cases a with
      | write ok => rw [write_ok hh]; rfl
      | confirms n dead => rw [write_confirms hh]; rfl
      | finish st => rw [write_finish hh]; rfl

theorem sendChunks_core (need : List Key) : ∀ (cs req : List ChunkData) (keep : List Key) (w : Writer) (as : List Answer),
    (sendChunks need cs req keep w as).1.core = w.core
  | [], _, _, _, _ => rfl
  | c :: cs, req, keep, w, as => by
    unfold sendChunks
    split
    · split
      · have hw := write_core w ⟨req ++ [c], none⟩ as
        obtain ⟨⟨w1, r1, as1⟩, he⟩ : ∃ x, w.write ⟨req ++ [c], none⟩ as = x := ⟨_, rfl⟩
        rw [he] at hw ⊢
        have hw : w1.core = w.core := hw
        cases r1 with
        | blocked => exact hw
        | died => exact hw
        | ret b =>
          cases b with
          | false => exact hw
          | true => exact (sendChunks_core need cs _ _ _ _).trans hw
      · exact sendChunks_core need cs _ _ _ _
    · split
      · exact sendChunks_core need cs _ _ _ _
      · exact sendChunks_core need cs _ _ _ _

theorem sendItems_core (req : List ChunkData) (keep : List Key) : ∀ (items : List WItem) (w : Writer) (as : List Answer),
    (sendItems req keep items w as).1.core = w.core
  | [], _, _ => rfl
  | it :: rest, w, as => by
    unfold sendItems
    have hq := (awaitRoom_quiet w as).core
    obtain ⟨⟨w1, r1, as1⟩, he1⟩ : ∃ x, w.awaitRoom as = x := ⟨_, rfl⟩
    rw [he1] at hq ⊢
    have hq : w1.core = w.core := hq
    cases r1 with
    | blocked => exact hq
    | died => exact hq
    | ret b =>
      cases b with
      | false => exact hq
      | true =>
        dsimp only
        have hw := write_core w1 ⟨req, some (it, keep)⟩ as1
        obtain ⟨⟨w2, r2, as2⟩, he⟩ : ∃ x, w1.write ⟨req, some (it, keep)⟩ as1 = x := ⟨_, rfl⟩
        rw [he] at hw ⊢
        have hw2 : w2.core = w.core := Eq.trans hw hq
        cases r2 with
        | blocked => exact hw2
        | died => exact hw2
        | ret b =>
          cases b with
          | false => exact hw2
          | true => exact (sendItems_core req keep rest _ _).trans hw2

theorem openStream_core {w w1 : Writer} (h : w.openStream = some w1) : w1.core = w.core := by
  unfold openStream at h
  split at h
  · cases h; rfl
  · split at h
    · cases h; rfl
    · split at h
      · cases h
      · cases h; rfl

theorem writePending_core (w : Writer) (as : List Answer) : (w.writePending as).1.core = w.core := by
  unfold writePending
  cases ho : w.openStream with
  | none => rfl
  | some w1 =>
    dsimp only
    have h0 := openStream_core ho
    have h1 := sendChunks_core (w1.pending.flatMap fun it => getChunkKeys it.traj) w1.chunks [] [] w1 as
    obtain ⟨⟨w2, r2, as2⟩, he⟩ : ∃ x, sendChunks (w1.pending.flatMap fun it => getChunkKeys it.traj) w1.chunks [] [] w1 as = x := ⟨_, rfl⟩
    rw [he] at h1 ⊢
    have k1 : w2.core = w.core := Eq.trans h1 h0
    cases r2 with
    | blocked => exact k1
    | died => exact k1
    | ret o =>
      cases o with
      | none => exact k1
      | some p => exact (sendItems_core _ _ _ _ _).trans k1

theorem writeRounds_core (retry : Bool) : ∀ (n : Nat) (w : Writer) (as : List Answer), (writeRounds retry n w as).1.core = w.core
  | 0, _, _ => rfl
  | n + 1, w, as => by
    unfold writeRounds
    have h1 := writePending_core w as
    obtain ⟨⟨w1, r1, as1⟩, he⟩ : ∃ x, w.writePending as = x := ⟨_, rfl⟩
    rw [he] at h1 ⊢
    have k1 : w1.core = w.core := h1
    cases r1 with
    | blocked => exact k1
    | died => exact k1
    | ret b =>
      cases b with
      | true => exact k1
      | false =>
        dsimp only
        have h2 := (stopWorker_quiet { w1 with half := true } as1).core
        obtain ⟨⟨w2, r2, as2⟩, he2⟩ : ∃ x, stopWorker { w1 with half := true } as1 = x := ⟨_, rfl⟩
        rw [he2] at h2 ⊢
        have k2 : w2.core = w.core := Eq.trans h2 k1
        cases r2 with
        | blocked => exact k2
        | died => exact k2
        | ret o =>
          cases o with
          | some e => exact k2
          | none =>
            cases as2 with
            | nil => exact k2
            | cons a as3 =>
              cases a with
              | write ok => exact k2
              | confirms n dead => exact k2
              | finish st =>
                dsimp only
                split
                · exact (writeRounds_core retry n _ _).trans k2
                · exact k2

theorem writeWithRetries_core (w : Writer) (retry : Bool) (as : List Answer) : (w.writeWithRetries retry as).1.core = w.core :=
  writeRounds_core retry _ w as

theorem evict_fst (cl mt : Nat) : ∀ (cs : List ChunkData) (s s' : List Key), (evict cl mt cs s).1 = (evict cl mt cs s').1
  | [], _, _ => rfl
  | c :: cs, s, s' => by
    unfold evict
    split
    · exact evict_fst cl mt cs _ _
    · rfl

theorem finished_core {w w' : Writer} (h : w'.core = w.core) : w'.finished.core = w.finished.core := by
  have e : ∀ v : Writer, v.finished.core = v.core.finished.core := by
    intro v
    simp only [finished, core]
    rw [evict_fst _ _ _ [] v.streamed]
  rw [e, e w, h]

theorem makeChunk_core {w w' : Writer} (h : w'.core = w.core) : w'.makeChunk = w.makeChunk := by
  have e : ∀ v : Writer, v.makeChunk = v.core.makeChunk := fun _ => rfl
  rw [e, e w, h]

/-- What `Finish` does. -/
theorem finish_core (w : Writer) (retry : Bool) (as : List Answer) :
    ((w.finish retry as).2.1 = .ret none → ∃ ch, w.makeChunk = .ok ch ∧
      (w.finish retry as).1.core = ({ w with chunks := w.chunks ++ [ch] } : Writer).finished.core) ∧
    (∀ e, (w.finish retry as).2.1 = .ret (some e) → (w.finish retry as).1.core = w.core) := by
  unfold finish
  cases hm : w.makeChunk with
  | died => exact ⟨by simp, by simp⟩
  | err e => exact ⟨by simp, fun _ _ => rfl⟩
  | ok ch =>
    dsimp only
    have h1 := writeWithRetries_core { w with chunks := w.chunks ++ [ch] } retry as
    obtain ⟨⟨w1, r1, as1⟩, he⟩ : ∃ x, writeWithRetries { w with chunks := w.chunks ++ [ch] } retry as = x := ⟨_, rfl⟩
    rw [he] at h1 ⊢
    have k1 : w1.core = ({ w with chunks := w.chunks ++ [ch] } : Writer).core := h1
    cases r1 with
    | blocked => exact ⟨by simp, by simp⟩
    | died => exact ⟨by simp, by simp⟩
    | ret r =>
      cases r with
      | none => exact ⟨fun _ => ⟨ch, rfl, finished_core k1⟩, by simp⟩
      | some e =>
        refine ⟨by simp, fun e' _ => ?_⟩
        show ({ w1.core with chunks := w1.chunks.dropLast } : Writer) = w.core
        rw [core_chunks k1, k1]
        simp [core]

/-- The invariant of the ring. -/
structure Ring (w : Writer) : Prop where
  len : w.ring.length = w.maxTimesteps
  loc : w.maxTimesteps ≠ 0 → w.loc < w.maxTimesteps

theorem positiveModulo_back {loc max : Nat} (h : loc < max) : positiveModulo (((loc + 1) % max : Nat) - 1) max = loc := by
  unfold positiveModulo
  rw [if_neg (by omega)]
  by_cases hl : loc + 1 = max
  · rw [hl, Nat.mod_self]
    have h1 : decide ((0 : Int) < ((0 : Nat) : Int) - 1) = false := by decide
    have h2 : decide ((0 : Int) < (max : Int)) = true := by rw [decide_eq_true_iff]; omega
    rw [h1, h2, if_neg (by simp)]
    by_cases h3 : max = 1
    · subst h3
      have : loc = 0 := by omega
      subst this
      rfl
    · have h4 : (((0 : Nat) : Int) - 1).tmod max = -1 := by
        have : (((0 : Nat) : Int) - 1) = -1 := by simp
        rw [this, Int.neg_tmod, Int.tmod_eq_of_lt (by omega) (by omega)]
      rw [h4, Int.tmod_eq_of_lt (by omega) (by omega)]
      omega
  · rw [Nat.mod_eq_of_lt (by omega)]
    have h0 : (((loc + 1 : Nat) : Int) - 1) = (loc : Int) := by omega
    rw [h0]
    split
    · exact Int.tmod_eq_of_lt (by omega) (by omega)
    · have h5 : (loc : Int).tmod max = loc := Int.tmod_eq_of_lt (by omega) (by omega)
      rename_i hne
      have h2 : decide ((0 : Int) < (max : Int)) = true := by rw [decide_eq_true_iff]; omega
      rw [h2] at hne
      have : loc = 0 := by
        have hne : ¬ decide ((0 : Int) < (loc : Int)) = true := hne
        rw [decide_eq_true_iff] at hne
        omega
      rw [h5, this]
      simp

theorem unpush_core {w w1 : Writer} (hr : w.Ring) (hm : w.maxTimesteps ≠ 0) {data : Timestep} (h : w1.core = (w.push data).core) :
    (w1.unpush (w.ring.getD w.loc none)).core = w.core := by
  have e : ∀ (v : Writer) o, (v.unpush o).core = (v.core.unpush o).core := fun _ _ => rfl
  rw [e, h, ← e]
  have hloc := hr.loc hm
  have hl : w.loc < w.ring.length := by rw [hr.len]; exact hloc
  have hp : (positiveModulo (((w.push data).loc : Int) - 1) (w.push data).maxTimesteps).toNat = w.loc := by
    show (positiveModulo (((w.loc + 1) % w.maxTimesteps : Nat) - 1) w.maxTimesteps).toNat = w.loc
    rw [positiveModulo_back hloc]
    rfl
  have hring : ((w.push data).ring.set w.loc (w.ring.getD w.loc none)) = w.ring := by
    show (w.ring.set w.loc _).set w.loc _ = w.ring
    rw [List.set_set, List.getD_eq_getElem?_getD, List.getElem?_eq_getElem hl, Option.getD_some, List.set_getElem_self]
  have hbuf : (w.push data).buffer.dropLast = w.buffer := by simp [push]
  unfold unpush
  rw [hp, hring, hbuf]
  rfl

theorem append_core {w : Writer} (hr : w.Ring) (data : Timestep) (as : List Answer) :
    (∀ e, (w.append data as).2.1 = .ret (some e) → (w.append data as).1.core = w.core) ∧
    ((w.append data as).2.1 = .ret none → w.closed = false ∧ w.maxTimesteps ≠ 0 ∧
      if w.buffer.length + 1 < w.chunkLength then (w.append data as).1.core = (w.push data).core
      else ∃ ch, (w.push data).makeChunk = .ok ch ∧
        (w.append data as).1.core = ({ (w.push data) with chunks := w.chunks ++ [ch] } : Writer).finished.core) := by
  unfold append
  by_cases hc : w.closed = true
  · rw [if_pos hc]; exact ⟨fun _ _ => rfl, by simp⟩
  have hc' : w.closed = false := by simpa using hc
  rw [if_neg hc]
  split
  · exact ⟨fun _ _ => rfl, by simp⟩
  split
  · exact ⟨by simp, by simp⟩
  rename_i hm
  have hbl : (w.push data).buffer.length = w.buffer.length + 1 := by simp [push]
  by_cases hb : (w.push data).buffer.length < w.chunkLength
  · rw [if_pos hb, if_pos (by omega)]
    exact ⟨by simp, fun _ => ⟨hc', hm, rfl⟩⟩
  · rw [if_neg hb, if_neg (by omega)]
    have hf := finish_core (w.push data) true as
    obtain ⟨⟨w1, r1, as1⟩, he⟩ : ∃ x, (w.push data).finish true as = x := ⟨_, rfl⟩
    rw [he] at hf ⊢
    cases r1 with
    | blocked => exact ⟨by simp, by simp⟩
    | died => exact ⟨by simp, by simp⟩
    | ret r =>
      cases r with
      | none => exact ⟨by simp, fun _ => ⟨hc', hm, hf.1 rfl⟩⟩
      | some e => exact ⟨fun _ _ => unpush_core hr hm (hf.2 e rfl), by simp⟩

end Writer
end Verif
