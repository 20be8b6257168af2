import Verif.Proofs.WriterSig
/-
The chunks that the old writer writes to its streams, and the ranges that they have.
-/
namespace Verif
namespace Writer

/-! ### Where the chunks of the requests come from -/

/-- All chunks that were written to a stream are so. -/
def Sent (P : ChunkData → Prop) (w : Writer) : Prop := ∀ s ∈ w.streams, ∀ m ∈ s, ∀ c ∈ m.chunks, P c

theorem Sent.mono {P Q : ChunkData → Prop} {w : Writer} (h : Sent P w) (hpq : ∀ c, P c → Q c) : Sent Q w :=
  fun s hs m hm c hc => hpq c (h s hs m hm c hc)

theorem Sent.same {P : ChunkData → Prop} {w w' : Writer} (h : Sent P w) (h1 : w'.past = w.past) (h2 : w'.msgs = w.msgs) : Sent P w' := by
  unfold Sent streams
  rw [h1, h2]
  exact h

theorem Sent.quiet {P : ChunkData → Prop} {w w' : Writer} (h : Sent P w) (q : w.Quiet w') : Sent P w' := h.same q.past q.msgs

theorem Sent.drop {P : ChunkData → Prop} {w : Writer} (h : Sent P w) : Sent P w.dropStream := by
  intro s hs m hm c hc
  have hs : s ∈ (w.past ++ [w.msgs]) ++ [[]] := hs
  rcases List.mem_append.mp hs with hs | hs
  · exact h s hs m hm c hc
  · rw [List.mem_singleton] at hs
    subst hs
    cases hm

theorem Sent.add {P : ChunkData → Prop} {w w' : Writer} (h : Sent P w) {m : Msg} (hm : ∀ c ∈ m.chunks, P c) (h1 : w'.past = w.past)
    (h2 : w'.msgs = w.msgs ++ [m]) : Sent P w' := by
  intro s hs m' hm' c hc
  unfold streams at hs
  rw [h1, h2] at hs
  rcases List.mem_append.mp hs with hs | hs
  · exact h s (List.mem_append_left _ hs) m' hm' c hc
  · rw [List.mem_singleton] at hs
    subst hs
    rcases List.mem_append.mp hm' with hm' | hm'
    · exact h w.msgs (List.mem_append_right _ (List.mem_singleton.mpr rfl)) m' hm' c hc
    · rw [List.mem_singleton] at hm'
      subst hm'
      exact hm c hc

theorem write_sent {P : ChunkData → Prop} {w : Writer} (h : Sent P w) {m : Msg} (hm : ∀ c ∈ m.chunks, P c) (as : List Answer) :
    Sent P (w.write m as).1 := by
  by_cases hh : w.half = true
  · rw [write_half hh]; exact h
  · have hh : w.half = false := by simpa using hh
    have hadd : Sent P ({ w with msgs := w.msgs ++ [m] } : Writer) := h.add hm rfl rfl
    cases as with
    | nil => rw [write_nil hh]; exact hadd
    | cons a as =>
      cases a with
      | write ok => rw [write_ok hh]; exact hadd
      | confirms n dead => rw [write_confirms hh]; exact hadd
      | finish st => rw [write_finish hh]; exact hadd

theorem sendChunks_sent {P : ChunkData → Prop} (need : List Key) : ∀ (cs req : List ChunkData) (keep : List Key) (w : Writer) (as : List Answer),
    (∀ c ∈ cs, P c) → (∀ c ∈ req, P c) → Sent P w → Sent P (sendChunks need cs req keep w as).1 ∧
      ∀ req' keep', (sendChunks need cs req keep w as).2.1 = .ret (some (req', keep')) → ∀ c ∈ req', P c
  | [], req, keep, w, as, _, hr, h => by
    refine ⟨h, fun req' keep' he => ?_⟩
    simp only [sendChunks, Ret.ret.injEq, Option.some.injEq, Prod.mk.injEq] at he
    obtain ⟨rfl, _⟩ := he
    exact hr
  | c :: cs, req, keep, w, as, hcs, hr, h => by
    have hcs' : ∀ x ∈ cs, P x := fun x hx => hcs x (List.mem_cons_of_mem _ hx)
    have hr' : ∀ x ∈ req ++ [c], P x := by
      intro x hx
      rcases List.mem_append.mp hx with hx | hx
      · exact hr x hx
      · rw [List.mem_singleton] at hx
        subst hx
        exact hcs x List.mem_cons_self
    unfold sendChunks
    split
    · split
      · have hw := write_sent h (m := ⟨req ++ [c], none⟩) hr' as
        obtain ⟨⟨w1, r1, as1⟩, he⟩ : ∃ x, w.write ⟨req ++ [c], none⟩ as = x := ⟨_, rfl⟩
        rw [he] at hw ⊢
        have hw : Sent P w1 := hw
        cases r1 with
        | blocked => exact ⟨hw, by simp⟩
        | died => exact ⟨hw, by simp⟩
        | ret b =>
          cases b with
          | false => exact ⟨hw, by simp⟩
          | true => exact sendChunks_sent need cs [] _ _ _ hcs' (by simp) (hw.same rfl rfl)
      · exact sendChunks_sent need cs _ _ _ _ hcs' hr' h
    · split
      · exact sendChunks_sent need cs _ _ _ _ hcs' hr h
      · exact sendChunks_sent need cs _ _ _ _ hcs' hr h

theorem sendItems_sent {P : ChunkData → Prop} (req : List ChunkData) (keep : List Key) (hr : ∀ c ∈ req, P c) :
    ∀ (items : List WItem) (w : Writer) (as : List Answer), Sent P w → Sent P (sendItems req keep items w as).1
  | [], _, _, h => h
  | it :: rest, w, as, h => by
    unfold sendItems
    have hq := h.quiet (awaitRoom_quiet w as)
    obtain ⟨⟨w1, r1, as1⟩, he1⟩ : ∃ x, w.awaitRoom as = x := ⟨_, rfl⟩
    rw [he1] at hq ⊢
    have hq : Sent P w1 := hq
    cases r1 with
    | blocked => exact hq
    | died => exact hq
    | ret b =>
      cases b with
      | false => exact hq
      | true =>
        dsimp only
        have hw := write_sent hq (m := ⟨req, some (it, keep)⟩) hr as1
        obtain ⟨⟨w2, r2, as2⟩, he⟩ : ∃ x, w1.write ⟨req, some (it, keep)⟩ as1 = x := ⟨_, rfl⟩
        rw [he] at hw ⊢
        have hw : Sent P w2 := hw
        cases r2 with
        | blocked => exact hw
        | died => exact hw
        | ret b =>
          cases b with
          | false => exact hw
          | true => exact sendItems_sent req keep hr rest _ _ (hw.same rfl rfl)

theorem openStream_sent {P : ChunkData → Prop} {w w1 : Writer} (h : w.openStream = some w1) (hs : Sent P w) : Sent P w1 := by
  unfold openStream at h
  split at h
  · cases h; exact hs
  · split at h
    · cases h; exact hs.same rfl rfl
    · split at h
      · cases h
      · cases h; exact hs.same rfl rfl

theorem writePending_sent {P : ChunkData → Prop} {w : Writer} (hc : ∀ c ∈ w.chunks, P c) (h : Sent P w) (as : List Answer) :
    Sent P (w.writePending as).1 := by
  unfold writePending
  cases ho : w.openStream with
  | none => exact h
  | some w1 =>
    dsimp only
    have h0 := openStream_sent ho h
    have hc1 : ∀ c ∈ w1.chunks, P c := by rw [core_chunks (openStream_core ho)]; exact hc
    obtain ⟨g1, g2⟩ := sendChunks_sent (P := P) (w1.pending.flatMap fun it => getChunkKeys it.traj) w1.chunks [] [] w1 as hc1 (by simp) h0
    obtain ⟨⟨w2, r2, as2⟩, he⟩ : ∃ x, sendChunks (w1.pending.flatMap fun it => getChunkKeys it.traj) w1.chunks [] [] w1 as = x := ⟨_, rfl⟩
    rw [he] at g1 g2 ⊢
    have k1 : Sent P w2 := g1
    cases r2 with
    | blocked => exact k1
    | died => exact k1
    | ret o =>
      cases o with
      | none => exact k1
      | some p => exact sendItems_sent _ _ (g2 p.1 p.2 rfl) _ _ _ k1

theorem writeRounds_sent {P : ChunkData → Prop} (retry : Bool) : ∀ (n : Nat) (w : Writer) (as : List Answer), (∀ c ∈ w.chunks, P c) →
    Sent P w → Sent P (writeRounds retry n w as).1
  | 0, _, _, _, h => h
  | n + 1, w, as, hc, h => by
    unfold writeRounds
    have h1 := writePending_sent hc h as
    have hk := writePending_core w as
    obtain ⟨⟨w1, r1, as1⟩, he⟩ : ∃ x, w.writePending as = x := ⟨_, rfl⟩
    rw [he] at h1 hk ⊢
    have k1 : Sent P w1 := h1
    have hk : w1.core = w.core := hk
    cases r1 with
    | blocked => exact k1
    | died => exact k1
    | ret b =>
      cases b with
      | true => exact k1
      | false =>
        dsimp only
        have hq := stopWorker_quiet { w1 with half := true } as1
        obtain ⟨⟨w2, r2, as2⟩, he2⟩ : ∃ x, stopWorker { w1 with half := true } as1 = x := ⟨_, rfl⟩
        rw [he2] at hq ⊢
        have k2 : Sent P w2 := Sent.quiet (w := { w1 with half := true }) (k1.same rfl rfl) hq
        have c2 : w2.chunks = w.chunks := (Quiet.chunks hq).trans (core_chunks hk)
        cases r2 with
        | blocked => exact k2
        | died => exact k2
        | ret o =>
          cases o with
          | some e => exact k2
          | none =>
            cases as2 with
            | nil => exact k2
            | cons a as3 =>
              cases a with
              | write ok => exact k2
              | confirms n dead => exact k2
              | finish st =>
                dsimp only
                split
                · refine writeRounds_sent retry n _ _ ?_ k2.drop
                  show ∀ c ∈ w2.chunks, P c
                  rw [c2]
                  exact hc
                · exact k2.drop

theorem finish_sent {P : ChunkData → Prop} {w : Writer} (hc : ∀ c ∈ w.chunks, P c) (hm : ∀ ch, w.makeChunk = .ok ch → P ch) (h : Sent P w)
    (retry : Bool) (as : List Answer) : Sent P (w.finish retry as).1 := by
  unfold finish
  cases hmk : w.makeChunk with
  | died => exact h
  | err e => exact h
  | ok ch =>
    dsimp only
    have h1 := writeRounds_sent (P := P) retry (as.length + 1) { w with chunks := w.chunks ++ [ch] } as (by
      intro c hcm
      rcases List.mem_append.mp hcm with hcm | hcm
      · exact hc c hcm
      · rw [List.mem_singleton] at hcm
        subst hcm
        exact hm _ hmk) (h.same rfl rfl)
    obtain ⟨⟨w1, r1, as1⟩, he⟩ : ∃ x, writeWithRetries { w with chunks := w.chunks ++ [ch] } retry as = x := ⟨_, rfl⟩
    have he' := he
    unfold writeWithRetries at he'
    rw [he'] at h1
    rw [he]
    have h1 : Sent P w1 := h1
    cases r1 with
    | blocked => exact h1
    | died => exact h1
    | ret r => cases r <;> exact h1.same rfl rfl

theorem append_sent {P : ChunkData → Prop} {w : Writer} (data : Timestep) (hc : ∀ c ∈ w.chunks, P c)
    (hm : ∀ ch, (w.push data).makeChunk = .ok ch → P ch) (h : Sent P w) (as : List Answer) : Sent P (w.append data as).1 := by
  unfold append
  split
  · exact h
  split
  · exact h
  split
  · exact h
  split
  · exact h.same rfl rfl
  · have hf := finish_sent (w := w.push data) hc hm (h.same rfl rfl) true as
    obtain ⟨⟨w1, r1, as1⟩, he⟩ : ∃ x, (w.push data).finish true as = x := ⟨_, rfl⟩
    rw [he] at hf ⊢
    have hf : Sent P w1 := hf
    cases r1 with
    | blocked => exact hf
    | died => exact hf
    | ret r => cases r <;> exact hf.same rfl rfl

theorem createItem_sent {P : ChunkData → Prop} {w : Writer} (hc : ∀ c ∈ w.chunks, P c) (h : Sent P w) (table : String) (n : Int)
    (priority : Pri) (as : List Answer) : Sent P (w.createItem table n priority as).1 := by
  unfold createItem
  split
  · exact h
  split
  · exact h
  split
  · exact h
  cases w.checkSignature table n.toNat with
  | err e => exact h
  | died => exact h
  | ok u =>
    dsimp only
    cases w.trajectory n with
    | none => exact h
    | some traj =>
      dsimp only
      split
      · have h1 := writeRounds_sent (P := P) true (as.length + 1) (w.pushItem table priority traj) as hc (h.same rfl rfl)
        obtain ⟨⟨w1, r1, as1⟩, he⟩ : ∃ x, (w.pushItem table priority traj).writeWithRetries true as = x := ⟨_, rfl⟩
        have he' := he
        unfold writeWithRetries at he'
        rw [he'] at h1
        rw [he]
        have h1 : Sent P w1 := h1
        cases r1 with
        | blocked => exact h1
        | died => exact h1
        | ret r =>
          cases r with
          | none => exact h1
          | some e => exact h1.same rfl rfl
      · exact h.same rfl rfl

theorem flush_sent {P : ChunkData → Prop} {w : Writer} (hc : ∀ c ∈ w.chunks, P c) (hm : ∀ ch, w.makeChunk = .ok ch → P ch) (h : Sent P w)
    (as : List Answer) : Sent P (w.flush as).1 := by
  unfold flush
  split
  · exact h
  split
  · exact finish_sent hc hm h true as
  · have hq := h.quiet (confirmItems_quiet 0 as w)
    obtain ⟨⟨w1, r1, as1⟩, he⟩ : ∃ x, confirmItems 0 as w = x := ⟨_, rfl⟩
    rw [he] at hq ⊢
    have hq : Sent P w1 := hq
    cases r1 with
    | blocked => exact hq
    | died => exact hq
    | ret b => cases b <;> exact hq

theorem closeStream_sent {P : ChunkData → Prop} {w : Writer} (h : Sent P w) (as : List Answer) : Sent P (w.closeStream as).1 := by
  unfold closeStream
  split
  · exact h.same rfl rfl
  · have hq := Sent.quiet (P := P) (w := { w with half := true }) (h.same rfl rfl) (confirmItems_quiet 0 as { w with half := true })
    obtain ⟨⟨w1, r1, as1⟩, he⟩ : ∃ x, confirmItems 0 as { w with half := true } = x := ⟨_, rfl⟩
    rw [he] at hq ⊢
    have hq : Sent P w1 := hq
    cases r1 with
    | blocked => exact hq
    | died => exact hq
    | ret b =>
      dsimp only
      have hq2 := hq.quiet (stopWorker_quiet w1 as1)
      obtain ⟨⟨w2, r2, as2⟩, he2⟩ : ∃ x, w1.stopWorker as1 = x := ⟨_, rfl⟩
      rw [he2] at hq2 ⊢
      have hq2 : Sent P w2 := hq2
      cases r2 with
      | blocked => exact hq2
      | died => exact hq2
      | ret b =>
        cases as2 with
        | nil => exact hq2
        | cons a as3 =>
          cases a with
          | write ok => exact hq2
          | confirms n dead => exact hq2
          | finish st => exact hq2.drop.same rfl rfl

theorem close_sent {P : ChunkData → Prop} {w : Writer} (hc : ∀ c ∈ w.chunks, P c) (hm : ∀ ch, w.makeChunk = .ok ch → P ch) (h : Sent P w)
    (retry : Bool) (as : List Answer) : Sent P (w.close retry as).1 := by
  unfold close
  split
  · exact h
  split
  · exact closeStream_sent h as
  · have hf := finish_sent hc hm h retry as
    obtain ⟨⟨w1, r1, as1⟩, he⟩ : ∃ x, w.finish retry as = x := ⟨_, rfl⟩
    rw [he] at hf ⊢
    have hf : Sent P w1 := hf
    cases r1 with
    | blocked => exact hf
    | died => exact hf
    | ret r =>
      cases r with
      | none => exact closeStream_sent hf as1
      | some e =>
        dsimp only
        split
        · exact closeStream_sent hf as1
        · exact hf

/-! ### The positions of the steps -/

theorem makeChunk_place {w : Writer} {ch : ChunkData} (h : w.makeChunk = .ok ch) :
    ch.range = some ⟨w.episode, w.index, w.index + w.buffer.length - 1, false⟩ := by
  unfold makeChunk at h
  split at h
  · cases h
  · split at h
    · cases h
    · cases h
    · split at h
      · cases h
      · cases h
      · cases h; rfl

/-- The buffer has the steps from `index` on, and the chunks say where their steps are. -/
structure Placed (ep : Key) (m : Nat) (H : List Timestep) (w : Writer) : Prop where
  steps : ∀ step ∈ H, step.length = m ∧ ∀ t ∈ step, t.WF
  episode : w.episode = ep
  index : ∃ i : Nat, w.index = i ∧ i ≤ H.length ∧ w.buffer = H.drop i
  chunks : ∀ c ∈ w.chunks, c.InPlace ep m H

theorem _root_.Verif.ChunkData.InPlace.mono {c : ChunkData} {ep : Key} {m : Nat} {H : List Timestep} (h : c.InPlace ep m H) (H' : List Timestep) :
    c.InPlace ep m (H ++ H') := by
  obtain ⟨r, s, e, h1, h2, h3, h4, h5, h6, h7⟩ := h
  refine ⟨r, s, e, h1, h2, h3, h4, h5, by rw [List.length_append]; omega, ?_⟩
  rw [List.take_append_of_le_length (by omega)]
  exact h7

theorem Placed.core {ep : Key} {m : Nat} {H : List Timestep} {w w' : Writer} (h : Placed ep m H w) (hc : w'.core = w.core) : Placed ep m H w' := by
  have e1 : w'.episode = w.episode := by show w'.core.episode = w.core.episode; rw [hc]
  have e2 : w'.index = w.index := by show w'.core.index = w.core.index; rw [hc]
  exact ⟨h.steps, e1 ▸ h.episode, by rw [e2, core_buffer hc]; exact h.index, by rw [core_chunks hc]; exact h.chunks⟩

theorem Placed.push {ep : Key} {m : Nat} {H : List Timestep} {w : Writer} (h : Placed ep m H w) {data : Timestep}
    (hd : data.length = m ∧ ∀ t ∈ data, t.WF) : Placed ep m (H ++ [data]) (w.push data) := by
  obtain ⟨i, h1, h2, h3⟩ := h.index
  refine ⟨?_, h.episode, ⟨i, h1, by simp; omega, ?_⟩, fun c hc => (h.chunks c hc).mono _⟩
  · intro step hs
    rcases List.mem_append.mp hs with hs | hs
    · exact h.steps step hs
    · rw [List.mem_singleton] at hs
      subst hs
      exact hd
  · show w.buffer ++ [data] = _
    rw [h3, List.drop_append_of_le_length h2]

theorem Placed.makeChunk {ep : Key} {m : Nat} {H : List Timestep} {w : Writer} (h : Placed ep m H w) {ch : ChunkData} (hm : w.makeChunk = .ok ch) :
    ch.InPlace ep m H := by
  obtain ⟨i, h1, h2, h3⟩ := h.index
  obtain ⟨_, g⟩ := makeChunk_ok (m := m) (fun step hs => h.steps step (by rw [h3] at hs; exact List.mem_of_mem_drop hs)) hm
  have hl : w.buffer.length = H.length - i := by rw [h3, List.length_drop]
  have hpos : 0 < w.buffer.length := by
    have := g.ne
    cases hb : w.buffer with
    | nil => exact absurd hb this
    | cons a l => simp
  refine ⟨_, i, H.length - 1, makeChunk_place hm, h.episode, h1, ?_, by omega, by omega, g.cols, ?_⟩
  · show w.index + w.buffer.length - 1 = _
    omega
  · rw [List.take_of_length_le (by omega), ← h3]
    intro j hj
    obtain ⟨d, s, ts, k1, _, k2⟩ := g.col j hj
    exact ⟨d, s, ts, k1, k2⟩

theorem Placed.finished {ep : Key} {m : Nat} {H : List Timestep} {w : Writer} (h : Placed ep m H w) {ch : ChunkData} (hm : w.makeChunk = .ok ch) :
    Placed ep m H ({ w with chunks := w.chunks ++ [ch] } : Writer).finished := by
  obtain ⟨i, h1, h2, h3⟩ := h.index
  have hl : w.buffer.length = H.length - i := by rw [h3, List.length_drop]
  refine ⟨h.steps, h.episode, ⟨H.length, ?_, Nat.le_refl _, ?_⟩, ?_⟩
  · show w.index + w.buffer.length = _
    omega
  · rw [List.drop_length]; rfl
  · intro c hc
    obtain ⟨pre, hp, _⟩ := evict_spec w.chunkLength w.maxTimesteps (w.chunks ++ [ch]) w.streamed
    have hc : c ∈ (evict w.chunkLength w.maxTimesteps (w.chunks ++ [ch]) w.streamed).1 := hc
    have : c ∈ w.chunks ++ [ch] := by rw [hp]; exact List.mem_append_right _ hc
    rcases List.mem_append.mp this with hc | hc
    · exact h.chunks c hc
    · rw [List.mem_singleton] at hc
      subst hc
      exact h.makeChunk hm

theorem closed_call {w : Writer} (hc : w.closed = true) (c : Call) (as : List Answer) :
    (w.call c as).1 = w ∧ w.appended (c, as) = [] := by
  cases c with
  | append data => simp [call, Writer.append, appended, hc]
  | createItem table n p => simp [call, Writer.createItem, appended, hc]
  | flush => simp [call, Writer.flush, appended, hc]
  | close retry => simp [call, Writer.close, appended, hc]

/-- The steps that a call offers are of the right form. -/
def Regular (m : Nat) (c : Call) : Prop := ∀ step ∈ c.offered, step.length = m ∧ ∀ t ∈ step, t.WF

theorem Placed.call {ep : Key} {m : Nat} {H : List Timestep} {w : Writer} (hr : w.Ring) (h : Placed ep m H w) {c : Call} (hreg : Regular m c)
    (as : List Answer) {r : Option Code} (he : (w.call c as).2.1 = .ret r) (hcl : (w.call c as).1.closed = false) :
    Placed ep m (H ++ w.appended (c, as)) (w.call c as).1 := by
  cases c with
  | append data =>
    have hd := hreg data (by simp [Call.offered])
    have ha := append_core hr data as
    have he : (w.append data as).2.1 = .ret r := he
    rw [appended]
    cases r with
    | some e =>
      rw [he, if_neg (by simp), List.append_nil]
      exact h.core (ha.1 e he)
    | none =>
      rw [he, if_pos rfl]
      obtain ⟨_, _, h3⟩ := ha.2 he
      split at h3
      · exact (h.push hd).core h3
      · obtain ⟨ch, h4, h5⟩ := h3
        exact ((h.push hd).finished h4).core h5
  | createItem table n p =>
    simp only [appended, List.append_nil]
    rcases createItem_core w table n p as r he with hx | hx
    · exact h.core hx
    · exact Placed.core (w := { w with drawn := w.drawn + 1 }) ⟨h.steps, h.episode, h.index, h.chunks⟩ hx
  | flush =>
    simp only [appended, List.append_nil]
    rcases flush_core w as r he with hx | ⟨ch, hm, hx⟩
    · exact h.core hx
    · exact (h.finished hm).core hx
  | close retry =>
    simp only [appended, List.append_nil]
    rcases close_core w retry as r he with hx | hx
    · exact h.core hx
    · exact absurd (hcl.symm.trans hx) (by simp)

/-- What a call writes to the streams. -/
theorem call_sent {ep : Key} {m : Nat} {H : List Timestep} {w : Writer} (h : w.closed = false → Placed ep m H w) {c : Call} (hreg : Regular m c)
    (as : List Answer) {P : ChunkData → Prop} (hs : Sent P w) (hP : ∀ ch, ch.InPlace ep m (H ++ c.offered) → P ch) : Sent P (w.call c as).1 := by
  by_cases hc : w.closed = true
  · rw [(closed_call hc c as).1]; exact hs
  have h := h (by simpa using hc)
  have hch : ∀ ch ∈ w.chunks, P ch := fun ch hch => hP ch ((h.chunks ch hch).mono _)
  cases c with
  | append data => exact append_sent data hch (fun ch hm => hP ch ((h.push (hreg data (by simp [Call.offered]))).makeChunk hm)) hs as
  | createItem table n p => exact createItem_sent hch hs table n p as
  | flush => exact flush_sent hch (fun ch hm => hP ch ((h.makeChunk hm).mono _)) hs as
  | close retry => exact close_sent hch (fun ch hm => hP ch ((h.makeChunk hm).mono _)) hs retry as

theorem Placed.new {w : Writer} (hn : w.New) (m : Nat) : Placed w.episode m [] w := by
  refine ⟨by simp, rfl, ⟨0, ?_, Nat.le_refl _, ?_⟩, ?_⟩
  · rw [hn.new]; rfl
  · rw [hn.new]; rfl
  · rw [hn.new]; simp [Writer.new]

theorem placed_of_run {w : Writer} (hn : w.New) {m : Nat} : ∀ {evs pre : List Event} {w1 w2 : Writer}, (∀ e ∈ evs, Regular m e.1) →
    w.run pre = some w1 → (w1.closed = false → Placed w.episode m (w.history pre) w1) → w1.run evs = some w2 →
    (w2.closed = false → Placed w.episode m (w.history (pre ++ evs)) w2)
  | [], pre, w1, w2, _, _, h, hr => by
    simp only [run, Option.some.injEq] at hr
    subst hr
    rw [List.append_nil]
    exact h
  | (c, as) :: evs, pre, w1, w2, hreg, hrun, h, hr => by
    obtain ⟨⟨r, he⟩, g1, g2⟩ := run_cons hr
    have hrun' : w.run (pre ++ [(c, as)]) = some (w1.call c as).1 := by rw [run_append hrun, g2]; rfl
    have := placed_of_run hn (evs := evs) (pre := pre ++ [(c, as)]) (fun e he => hreg e (List.mem_cons_of_mem _ he)) hrun' (fun hcl => by
      have hh : w.history (pre ++ [(c, as)]) = w.history pre ++ w1.appended (c, as) := by
        rw [history_append hrun]; simp [history]
      rw [hh]
      by_cases hc : w1.closed = true
      · rw [(closed_call hc c as).1] at hcl
        exact absurd (hcl.symm.trans hc) (by simp)
      have hc : w1.closed = false := by simpa using hc
      exact (h hc).call (ring_of_run hn hrun hc).ring (hreg (c, as) List.mem_cons_self) as he hcl) g1
    rwa [List.append_assoc] at this

end Writer
end Verif
