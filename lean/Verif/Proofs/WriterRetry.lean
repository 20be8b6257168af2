import Verif.Proofs.WriterSig
/-
Which streams a call of the old writer uses, and which errors it returns.
-/
namespace Verif
namespace Writer

/-! ### Errors -/

theorem _root_.Verif.Tensor.concat_err {ts : List Tensor} {e : Code} (h : Tensor.concat ts = .err e) : e = .invalidArgument := by
  unfold Tensor.concat at h
  split at h
  · cases h; rfl
  · split at h
    · cases h; rfl
    · split at h
      · cases h; rfl
      · split at h <;> cases h

theorem _root_.Verif.batchColumn_err {buffer : List (List Tensor)} {i : Nat} {e : Code} (h : batchColumn buffer i = .err e) : e = .invalidArgument := by
  unfold batchColumn at h
  split at h
  · cases h
  · split at h
    · cases h; rfl
    · exact Tensor.concat_err h

theorem _root_.Verif.batchColumns_err {buffer : List (List Tensor)} {e : Code} : ∀ {is : List Nat}, batchColumns buffer is = .err e → e = .invalidArgument
  | [], h => by cases h
  | i :: is, h => by
    unfold batchColumns at h
    split at h
    · rename_i e' he
      cases h
      exact batchColumn_err he
    · cases h
    · split at h
      · rename_i e' he
        cases h
        exact batchColumns_err he
      · cases h
      · cases h

theorem _root_.Verif.Tensor.deltaEncode_err {t : Tensor} {b : Bool} {e : Code} : Tensor.deltaEncode t b ≠ .err e := by
  unfold Tensor.deltaEncode
  split
  · split
    · simp
    · dsimp only
      split <;> simp
  · simp

theorem _root_.Verif.Tensor.deltaEncodeList_err {b : Bool} {e : Code} : ∀ {ts : List Tensor}, Tensor.deltaEncodeList ts b ≠ .err e
  | [], h => by cases h
  | t :: ts, h => by
    unfold Tensor.deltaEncodeList at h
    split at h
    · split at h
      · cases h
      · rename_i he
        exact Tensor.deltaEncodeList_err he
      · cases h
    · rename_i he
      exact Tensor.deltaEncode_err he
    · cases h

theorem makeChunk_err {w : Writer} {e : Code} (h : w.makeChunk = .err e) : e = .invalidArgument := by
  unfold makeChunk at h
  split at h
  · cases h
  · split at h
    · rename_i he
      cases h
      exact batchColumns_err he
    · cases h
    · split at h
      · rename_i he
        split at he
        · exact absurd he Tensor.deltaEncodeList_err
        · cases he
      · cases h
      · cases h

theorem checkSteps_code {w : Writer} {want : List TensorSpec} {e : Code} : ∀ {n t : Nat}, w.checkSteps want t n = .err e →
    e = .internal ∨ e = .invalidArgument
  | 0, t, h => by cases h
  | n + 1, t, h => by
    unfold checkSteps at h
    split at h
    · cases h; exact .inl rfl
    · split at h
      · exact checkSteps_code h
      · cases h; exact .inr rfl

theorem checkSignature_code {w : Writer} {table : String} {n : Nat} {e : Code} (h : w.checkSignature table n = .err e) :
    e = .internal ∨ e = .invalidArgument := by
  unfold checkSignature at h
  split at h
  · rename_i he
    cases h
    unfold signature at he
    split at he
    · cases he
    · split at he
      · cases he; exact .inr rfl
      · cases he
  · cases h
  · cases h
  · exact checkSteps_code h

theorem writeRounds_err : ∀ (n : Nat) (w : Writer) (as : List Answer), (writeRounds true n w as).2.1 ≠ .ret (some .unavailable)
  | 0, _, _ => by simp [writeRounds]
  | n + 1, w, as => by
    unfold writeRounds
    obtain ⟨⟨w1, r1, as1⟩, he⟩ : ∃ x, w.writePending as = x := ⟨_, rfl⟩
    rw [he]
    cases r1 with
    | blocked => simp
    | died => simp
    | ret b =>
      cases b with
      | true => simp
      | false =>
        dsimp only
        have hsome := fun e => stopWorker_some (w := { w1 with half := true }) (as := as1) (e := e)
        obtain ⟨⟨w2, r2, as2⟩, he2⟩ : ∃ x, stopWorker { w1 with half := true } as1 = x := ⟨_, rfl⟩
        rw [he2] at hsome ⊢
        cases r2 with
        | blocked => simp
        | died => simp
        | ret o =>
          cases o with
          | some e =>
            have := hsome e rfl
            simp [this]
          | none =>
            cases as2 with
            | nil => simp
            | cons a as3 =>
              cases a with
              | write ok => simp
              | confirms n dead => simp
              | finish st =>
                dsimp only
                split
                · exact writeRounds_err n _ _
                · rename_i hne
                  intro h
                  simp only [Ret.ret.injEq] at h
                  exact hne ⟨h, rfl⟩

theorem finish_err (w : Writer) (as : List Answer) : (w.finish true as).2.1 ≠ .ret (some .unavailable) := by
  unfold finish
  cases hm : w.makeChunk with
  | died => simp
  | err e => simp [makeChunk_err hm]
  | ok ch =>
    dsimp only
    have h := writeRounds_err (as.length + 1) { w with chunks := w.chunks ++ [ch] } as
    obtain ⟨⟨w1, r1, as1⟩, he⟩ : ∃ x, writeWithRetries { w with chunks := w.chunks ++ [ch] } true as = x := ⟨_, rfl⟩
    have he' := he
    unfold writeWithRetries at he'
    rw [he'] at h
    rw [he]
    cases r1 with
    | blocked => simp
    | died => simp
    | ret r =>
      cases r with
      | none => simp
      | some e => exact h

theorem closeStream_ret (w : Writer) (as : List Answer) : (w.closeStream as).2.1 = .ret none ∨ (w.closeStream as).2.1 = .blocked ∨
    (w.closeStream as).2.1 = .died := by
  unfold closeStream
  split
  · exact .inl rfl
  · obtain ⟨⟨w1, r1, as1⟩, he⟩ : ∃ x, confirmItems 0 as { w with half := true } = x := ⟨_, rfl⟩
    rw [he]
    cases r1 with
    | blocked => exact .inr (.inl rfl)
    | died => exact .inr (.inr rfl)
    | ret b =>
      dsimp only
      obtain ⟨⟨w2, r2, as2⟩, he2⟩ : ∃ x, w1.stopWorker as1 = x := ⟨_, rfl⟩
      rw [he2]
      cases r2 with
      | blocked => exact .inr (.inl rfl)
      | died => exact .inr (.inr rfl)
      | ret b =>
        cases as2 with
        | nil => exact .inr (.inl rfl)
        | cons a as3 =>
          cases a with
          | write ok => exact .inr (.inl rfl)
          | confirms n dead => exact .inr (.inl rfl)
          | finish st => exact .inl rfl

theorem closeStream_err (w : Writer) (as : List Answer) (e : Code) : (w.closeStream as).2.1 ≠ .ret (some e) := by
  rcases closeStream_ret w as with h | h | h <;> simp [h]

theorem call_err (w : Writer) (c : Call) (as : List Answer) : (w.call c as).2.1 ≠ .ret (some .unavailable) := by
  cases c with
  | append data =>
    show (w.append data as).2.1 ≠ _
    unfold append
    split
    · simp
    split
    · simp
    split
    · simp
    split
    · simp
    have h := finish_err (w.push data) as
    obtain ⟨⟨w1, r1, as1⟩, he⟩ : ∃ x, (w.push data).finish true as = x := ⟨_, rfl⟩
    rw [he] at h ⊢
    rcases r1 with (_ | e) | _ | _
    · simp
    · exact h
    · simp
    · simp
  | createItem table n p =>
    show (w.createItem table n p as).2.1 ≠ _
    unfold createItem
    split
    · simp
    split
    · simp
    split
    · simp
    cases hc : w.checkSignature table n.toNat with
    | err e => rcases checkSignature_code hc with rfl | rfl <;> simp
    | died => simp
    | ok u =>
      dsimp only
      cases w.trajectory n with
      | none => simp
      | some traj =>
        dsimp only
        split
        · have h := writeRounds_err (as.length + 1) (w.pushItem table p traj) as
          obtain ⟨⟨w1, r1, as1⟩, he⟩ : ∃ x, (w.pushItem table p traj).writeWithRetries true as = x := ⟨_, rfl⟩
          have he' := he
          unfold writeWithRetries at he'
          rw [he'] at h
          rw [he]
          rcases r1 with (_ | e) | _ | _
          · simp
          · exact h
          · simp
          · simp
        · simp
  | flush =>
    show (w.flush as).2.1 ≠ _
    unfold flush
    split
    · simp
    split
    · exact finish_err w as
    · obtain ⟨⟨w1, r1, as1⟩, he⟩ : ∃ x, confirmItems 0 as w = x := ⟨_, rfl⟩
      rw [he]
      rcases r1 with (_ | _) | _ | _ <;> simp
  | close retry =>
    show (w.close retry as).2.1 ≠ _
    unfold close
    split
    · simp
    split
    · exact closeStream_err _ _ _
    · have h := finish_err w as
      obtain ⟨⟨w1, r1, as1⟩, he⟩ : ∃ x, w.finish retry as = x := ⟨_, rfl⟩
      rw [he]
      rcases r1 with (_ | e) | _ | _
      · exact closeStream_err _ _ _
      · dsimp only
        split
        · exact closeStream_err _ _ _
        · rename_i hne
          intro hu
          simp only [Ret.ret.injEq, Option.some.injEq] at hu
          cases retry with
          | false => exact hne ⟨hu, rfl⟩
          | true =>
            rw [he] at h
            exact h (by rw [hu])
      · simp
      · simp

/-! ### Streams -/

/-- Requests were written to the current stream only. -/
def Grew (w w' : Writer) : Prop := w'.past = w.past ∧ ∃ more, w'.msgs = w.msgs ++ more

theorem Grew.refl (w : Writer) : w.Grew w := ⟨rfl, [], by simp⟩

theorem Grew.trans {a b c : Writer} (h : a.Grew b) (h' : b.Grew c) : a.Grew c := by
  obtain ⟨h1, m1, h2⟩ := h
  obtain ⟨h3, m2, h4⟩ := h'
  exact ⟨h3.trans h1, m1 ++ m2, by rw [h4, h2, List.append_assoc]⟩

theorem Quiet.grew {w w' : Writer} (q : w.Quiet w') : w.Grew w' := ⟨q.past, [], by rw [q.msgs, List.append_nil]⟩

theorem write_grew (w : Writer) (m : Msg) (as : List Answer) : w.Grew (w.write m as).1 := by
  by_cases hh : w.half = true
  · rw [write_half hh]; exact .refl w
  · have hh : w.half = false := by simpa using hh
    cases as with
    | nil => rw [write_nil hh]; exact ⟨rfl, _, rfl⟩
    | cons a as =>
      cases a with
      | write ok => rw [write_ok hh]; exact ⟨rfl, _, rfl⟩
      | confirms n dead => rw [write_confirms hh]; exact ⟨rfl, _, rfl⟩
      | finish st => rw [write_finish hh]; exact ⟨rfl, _, rfl⟩

theorem sendChunks_grew (need : List Key) : ∀ (cs req : List ChunkData) (keep : List Key) (w : Writer) (as : List Answer),
    w.Grew (sendChunks need cs req keep w as).1
  | [], _, _, w, _ => .refl w
  | c :: cs, req, keep, w, as => by
    unfold sendChunks
    split
    · split
      · have hw := write_grew w ⟨req ++ [c], none⟩ as
        obtain ⟨⟨w1, r1, as1⟩, he⟩ : ∃ x, w.write ⟨req ++ [c], none⟩ as = x := ⟨_, rfl⟩
        rw [he] at hw ⊢
        have hw : w.Grew w1 := hw
        rcases r1 with (_ | _) | _ | _
        · exact hw
        · exact Grew.trans (b := { w1 with streamed := w1.streamed ++ (req ++ [c]).map ChunkData.key }) hw (sendChunks_grew need cs _ _ _ _)
        · exact hw
        · exact hw
      · exact sendChunks_grew need cs _ _ _ _
    · split
      · exact sendChunks_grew need cs _ _ _ _
      · exact sendChunks_grew need cs _ _ _ _

theorem sendItems_grew (req : List ChunkData) (keep : List Key) : ∀ (items : List WItem) (w : Writer) (as : List Answer),
    w.Grew (sendItems req keep items w as).1
  | [], w, _ => .refl w
  | it :: rest, w, as => by
    unfold sendItems
    have hq := (awaitRoom_quiet w as).grew
    obtain ⟨⟨w1, r1, as1⟩, he1⟩ : ∃ x, w.awaitRoom as = x := ⟨_, rfl⟩
    rw [he1] at hq ⊢
    have hq : w.Grew w1 := hq
    rcases r1 with (_ | _) | _ | _
    · exact hq
    · dsimp only
      have hw := hq.trans (write_grew w1 ⟨req, some (it, keep)⟩ as1)
      obtain ⟨⟨w2, r2, as2⟩, he⟩ : ∃ x, w1.write ⟨req, some (it, keep)⟩ as1 = x := ⟨_, rfl⟩
      rw [he] at hw ⊢
      have hw : w.Grew w2 := hw
      rcases r2 with (_ | _) | _ | _
      · exact hw
      · exact Grew.trans (b := w2.itemSent req rest) hw (sendItems_grew req keep rest _ _)
      · exact hw
      · exact hw
    · exact hq
    · exact hq

theorem writePending_grew (w : Writer) (as : List Answer) : w.Grew (w.writePending as).1 := by
  unfold writePending
  cases ho : w.openStream with
  | none => exact .refl w
  | some w1 =>
    dsimp only
    have h0 : w.Grew w1 := by
      unfold openStream at ho
      split at ho
      · cases ho; exact .refl w
      · split at ho
        · cases ho; exact ⟨rfl, [], (List.append_nil _).symm⟩
        · split at ho
          · cases ho
          · cases ho; exact ⟨rfl, [], (List.append_nil _).symm⟩
    have h1 := h0.trans (sendChunks_grew (w1.pending.flatMap fun it => getChunkKeys it.traj) w1.chunks [] [] w1 as)
    obtain ⟨⟨w2, r2, as2⟩, he⟩ : ∃ x, sendChunks (w1.pending.flatMap fun it => getChunkKeys it.traj) w1.chunks [] [] w1 as = x := ⟨_, rfl⟩
    rw [he] at h1 ⊢
    have h1 : w.Grew w2 := h1
    rcases r2 with (_ | p) | _ | _
    · exact h1
    · exact h1.trans (sendItems_grew _ _ _ _ _)
    · exact h1
    · exact h1

/-- Requests were written to the current stream, and then it was given up. -/
def Dropped (w w' : Writer) : Prop := ∃ more, w'.past = w.past ++ [w.msgs ++ more] ∧ w'.msgs = []

theorem Grew.drop {w w' : Writer} (h : w.Grew w') : w.Dropped w'.dropStream := by
  obtain ⟨h1, more, h2⟩ := h
  exact ⟨more, by show w'.past ++ [w'.msgs] = _; rw [h1, h2], rfl⟩

theorem writeRounds_one (n : Nat) (w : Writer) (as : List Answer) : w.Grew (writeRounds false n w as).1 ∨
    (w.Dropped (writeRounds false n w as).1 ∧ (writeRounds false n w as).1.stream = false) := by
  cases n with
  | zero => exact .inl (.refl w)
  | succ n =>
    unfold writeRounds
    have h1 := writePending_grew w as
    obtain ⟨⟨w1, r1, as1⟩, he⟩ : ∃ x, w.writePending as = x := ⟨_, rfl⟩
    rw [he] at h1 ⊢
    have h1 : w.Grew w1 := h1
    rcases r1 with (_ | _) | _ | _
    · dsimp only
      have hq := Quiet.grew (stopWorker_quiet { w1 with half := true } as1)
      obtain ⟨⟨w2, r2, as2⟩, he2⟩ : ∃ x, stopWorker { w1 with half := true } as1 = x := ⟨_, rfl⟩
      rw [he2] at hq ⊢
      have h2 : w.Grew w2 := Grew.trans (b := { w1 with half := true }) h1 hq
      rcases r2 with (_ | _) | _ | _
      · rcases as2 with _ | ⟨_ | ⟨n, dead⟩ | st, as3⟩
        · exact .inl h2
        · exact .inl h2
        · exact .inl h2
        · dsimp only
          rw [if_neg (by simp)]
          exact .inr ⟨h2.drop, rfl⟩
      · exact .inl h2
      · exact .inl h2
      · exact .inl h2
    · exact .inl h1
    · exact .inl h1
    · exact .inl h1

theorem finish_one (w : Writer) (as : List Answer) : w.Grew (w.finish false as).1 ∨
    (w.Dropped (w.finish false as).1 ∧ (w.finish false as).1.stream = false) := by
  unfold finish
  cases hm : w.makeChunk with
  | died => exact .inl (.refl w)
  | err e => exact .inl (.refl w)
  | ok ch =>
    dsimp only
    have h := writeRounds_one (as.length + 1) { w with chunks := w.chunks ++ [ch] } as
    obtain ⟨⟨w1, r1, as1⟩, he⟩ : ∃ x, writeWithRetries { w with chunks := w.chunks ++ [ch] } false as = x := ⟨_, rfl⟩
    have he' := he
    unfold writeWithRetries at he'
    rw [he'] at h
    rw [he]
    rcases r1 with (_ | _) | _ | _ <;> exact h

theorem closeStream_one (w : Writer) (as : List Answer) : (w.Grew (w.closeStream as).1 ∨ w.Dropped (w.closeStream as).1) ∧
    (w.stream = false → (w.closeStream as).1 = w.closeEnd) := by
  unfold closeStream
  split
  · exact ⟨.inl ⟨rfl, [], (List.append_nil _).symm⟩, fun _ => rfl⟩
  · rename_i hs
    refine ⟨?_, fun h => absurd h hs⟩
    have hq : w.Grew (confirmItems 0 as { w with half := true }).1 :=
      Grew.trans (b := { w with half := true }) ⟨rfl, [], (List.append_nil _).symm⟩ (confirmItems_quiet 0 as { w with half := true }).grew
    obtain ⟨⟨w1, r1, as1⟩, he⟩ : ∃ x, confirmItems 0 as { w with half := true } = x := ⟨_, rfl⟩
    rw [he] at hq ⊢
    have hq : w.Grew w1 := hq
    cases r1 with
    | blocked => exact .inl hq
    | died => exact .inl hq
    | ret b =>
      dsimp only
      have hq2 := hq.trans (stopWorker_quiet w1 as1).grew
      obtain ⟨⟨w2, r2, as2⟩, he2⟩ : ∃ x, w1.stopWorker as1 = x := ⟨_, rfl⟩
      rw [he2] at hq2 ⊢
      have hq2 : w.Grew w2 := hq2
      cases r2 with
      | blocked => exact .inl hq2
      | died => exact .inl hq2
      | ret b =>
        rcases as2 with _ | ⟨_ | ⟨n, dead⟩ | st, as3⟩
        · exact .inl hq2
        · exact .inl hq2
        · exact .inl hq2
        · exact .inr hq2.drop

theorem close_one (w : Writer) (as : List Answer) : w.Grew (w.close false as).1 ∨ w.Dropped (w.close false as).1 := by
  unfold close
  split
  · exact .inl (.refl w)
  split
  · exact (closeStream_one w as).1
  · have hf := finish_one w as
    obtain ⟨⟨w1, r1, as1⟩, he⟩ : ∃ x, w.finish false as = x := ⟨_, rfl⟩
    rw [he] at hf ⊢
    have hf : w.Grew w1 ∨ (w.Dropped w1 ∧ w1.stream = false) := hf
    have hcl : w.Grew (w1.closeStream as1).1 ∨ w.Dropped (w1.closeStream as1).1 := by
      obtain ⟨c1, c2⟩ := closeStream_one w1 as1
      rcases hf with hf | ⟨⟨more, h1, h2⟩, h3⟩
      · rcases c1 with c1 | ⟨more, c3, c4⟩
        · exact .inl (hf.trans c1)
        · obtain ⟨f1, more', f2⟩ := hf
          exact .inr ⟨more' ++ more, by rw [c3, f1, f2, List.append_assoc], c4⟩
      · rw [c2 h3]
        exact .inr ⟨more, h1, h2⟩
    have hf' : w.Grew w1 ∨ w.Dropped w1 := hf.imp id And.left
    rcases r1 with (_ | e) | _ | _
    · exact hcl
    · dsimp only
      split
      · exact hcl
      · exact hf'
    · exact hf'
    · exact hf'

end Writer
end Verif
