import Verif.Proofs.WriterCore
/-
The lengths of the chunks of the old writer and its ring of types and shapes.
-/
namespace Verif
namespace Writer

theorem createItem_core (w : Writer) (table : String) (n : Int) (priority : Pri) (as : List Answer) (r : Option Code)
    (h : (w.createItem table n priority as).2.1 = .ret r) :
    (w.createItem table n priority as).1.core = w.core ∨ (w.createItem table n priority as).1.core = { w.core with drawn := w.drawn + 1 } := by
  revert h
  unfold createItem
  split
  · exact fun _ => .inl rfl
  split
  · exact fun _ => .inl rfl
  split
  · exact fun _ => .inl rfl
  cases w.checkSignature table n.toNat with
  | err e => exact fun _ => .inl rfl
  | died => exact fun _ => .inl rfl
  | ok u =>
    dsimp only
    cases w.trajectory n with
    | none => exact fun _ => .inl rfl
    | some traj =>
      dsimp only
      split
      · have h1 := writeWithRetries_core (w.pushItem table priority traj) true as
        obtain ⟨⟨w1, r1, as1⟩, he⟩ : ∃ x, (w.pushItem table priority traj).writeWithRetries true as = x := ⟨_, rfl⟩
        rw [he] at h1 ⊢
        have k1 : w1.core = { w.core with drawn := w.drawn + 1 } := h1
        cases r1 with
        | blocked => exact fun _ => .inr k1
        | died => exact fun _ => .inr k1
        | ret r => cases r <;> exact fun _ => .inr k1
      · exact fun _ => .inr rfl

theorem flush_core (w : Writer) (as : List Answer) (r : Option Code) (h : (w.flush as).2.1 = .ret r) :
    (w.flush as).1.core = w.core ∨ ∃ ch, w.makeChunk = .ok ch ∧ (w.flush as).1.core = ({ w with chunks := w.chunks ++ [ch] } : Writer).finished.core := by
  revert h
  unfold flush
  split
  · exact fun _ => .inl rfl
  split
  · intro h
    cases r with
    | none => exact .inr ((finish_core w true as).1 h)
    | some e => exact .inl ((finish_core w true as).2 e h)
  · have hq := (confirmItems_quiet 0 as w).core
    obtain ⟨⟨w1, r1, as1⟩, he⟩ : ∃ x, confirmItems 0 as w = x := ⟨_, rfl⟩
    rw [he] at hq ⊢
    have k1 : w1.core = w.core := hq
    cases r1 with
    | blocked => exact fun _ => .inl k1
    | died => exact fun _ => .inl k1
    | ret b => cases b <;> exact fun _ => .inl k1

theorem closeStream_closed (w : Writer) (as : List Answer) (r : Option Code) (h : (w.closeStream as).2.1 = .ret r) :
    (w.closeStream as).1.closed = true := by
  revert h
  unfold closeStream
  split
  · exact fun _ => rfl
  · obtain ⟨⟨w1, r1, as1⟩, he⟩ : ∃ x, confirmItems 0 as { w with half := true } = x := ⟨_, rfl⟩
    rw [he]
    cases r1 with
    | blocked => simp
    | died => simp
    | ret b =>
      dsimp only
      obtain ⟨⟨w2, r2, as2⟩, he2⟩ : ∃ x, w1.stopWorker as1 = x := ⟨_, rfl⟩
      rw [he2]
      cases r2 with
      | blocked => simp
      | died => simp
      | ret b =>
        cases as2 with
        | nil => simp
        | cons a as3 =>
          cases a with
          | write ok => simp
          | confirms n dead => simp
          | finish st => exact fun _ => rfl

theorem close_core (w : Writer) (retry : Bool) (as : List Answer) (r : Option Code) (h : (w.close retry as).2.1 = .ret r) :
    (w.close retry as).1.core = w.core ∨ (w.close retry as).1.closed = true := by
  revert h
  unfold close
  split
  · exact fun _ => .inl rfl
  split
  · exact fun h => .inr (closeStream_closed _ _ _ h)
  · have hf := (finish_core w retry as).2
    obtain ⟨⟨w1, r1, as1⟩, he⟩ : ∃ x, w.finish retry as = x := ⟨_, rfl⟩
    rw [he] at hf ⊢
    cases r1 with
    | blocked => simp
    | died => simp
    | ret r =>
      cases r with
      | none => exact fun h => .inr (closeStream_closed _ _ _ h)
      | some e =>
        dsimp only
        split
        · exact fun h => .inr (closeStream_closed _ _ _ h)
        · exact fun _ => .inl (hf e rfl)

/-! ### The ring -/

/-- The ring has the types and shapes of the last steps. -/
structure RingInv (H : List Timestep) (w : Writer) : Prop where
  len : w.ring.length = w.maxTimesteps
  loc : w.maxTimesteps ≠ 0 → w.loc < w.maxTimesteps
  spec : ∀ t < w.maxTimesteps, w.specAt t = H.reverse[t]?.map (List.map Tensor.spec)

theorem RingInv.ring {H : List Timestep} {w : Writer} (h : RingInv H w) : w.Ring := ⟨h.len, h.loc⟩

theorem RingInv.core {H : List Timestep} {w w' : Writer} (h : RingInv H w) (hc : w'.core = w.core) : RingInv H w' := by
  have e1 : w'.ring = w.ring := by show w'.core.ring = w.core.ring; rw [hc]
  have e2 : w'.maxTimesteps = w.maxTimesteps := by show w'.core.maxTimesteps = w.core.maxTimesteps; rw [hc]
  have e3 : w'.loc = w.loc := by show w'.core.loc = w.core.loc; rw [hc]
  refine ⟨by rw [e1, e2]; exact h.len, by rw [e2, e3]; exact h.loc, ?_⟩
  unfold specAt
  rw [e1, e2, e3]
  exact h.spec

theorem positiveModulo_eq {loc max t : Nat} (h : loc < max) (ht : t < max) :
    positiveModulo ((loc : Int) - 1 - t) max = (((loc + max - 1 - t) % max : Nat) : Int) := by
  have h0 : ∀ x : Int, 0 ≤ x → x < max → x.tmod max = x := fun x h1 h2 => Int.tmod_eq_of_lt h1 h2
  have hm : decide ((0 : Int) < (max : Int)) = true := by rw [decide_eq_true_iff]; omega
  unfold positiveModulo
  rw [if_neg (by omega), hm]
  by_cases hl : t < loc
  · have e : (loc + max - 1 - t) % max = loc - 1 - t := by
      have : loc + max - 1 - t = (loc - 1 - t) + max := by omega
      rw [this, Nat.add_mod_right, Nat.mod_eq_of_lt (by omega)]
    rw [e]
    have e2 : (loc : Int) - 1 - t = ((loc - 1 - t : Nat) : Int) := by omega
    rw [e2]
    have e3 := h0 ((loc - 1 - t : Nat) : Int) (by omega) (by omega)
    split
    · exact e3
    · rename_i hne
      rw [decide_eq_true_iff] at hne
      have : loc - 1 - t = 0 := by omega
      rw [this]
      simp
  · have e : (loc + max - 1 - t) % max = loc + max - 1 - t := Nat.mod_eq_of_lt (by omega)
    rw [e]
    have hn : decide ((0 : Int) < (loc : Int) - 1 - t) = false := by rw [decide_eq_false_iff_not]; omega
    rw [hn, if_neg (by simp)]
    have e4 : ((loc : Int) - 1 - t) = -((t + 1 - loc : Nat) : Int) := by omega
    rw [e4, Int.neg_tmod]
    by_cases hx : t + 1 - loc = max
    · rw [hx, Int.tmod_self]
      have : loc + max - 1 - t = 0 := by omega
      rw [this]
      simp
    · rw [h0 ((t + 1 - loc : Nat) : Int) (by omega) (by omega), h0 _ (by omega) (by omega)]
      omega

theorem specAt_eq {w : Writer} {t : Nat} (h : w.loc < w.maxTimesteps) (ht : t < w.maxTimesteps) :
    w.specAt t = w.ring.getD ((w.loc + w.maxTimesteps - 1 - t) % w.maxTimesteps) none := by
  unfold specAt
  rw [positiveModulo_eq h ht, Int.toNat_natCast]

theorem RingInv.push {H : List Timestep} {w : Writer} (h : RingInv H w) (hm : w.maxTimesteps ≠ 0) (data : Timestep) :
    RingInv (H ++ [data]) (w.push data) := by
  have hloc := h.loc hm
  have hlt : (w.loc + 1) % w.maxTimesteps < w.maxTimesteps := Nat.mod_lt _ (by omega)
  refine ⟨?_, fun _ => hlt, ?_⟩
  · show (w.ring.set _ _).length = _
    rw [List.length_set]
    exact h.len
  · intro t ht
    have ht : t < w.maxTimesteps := ht
    rw [specAt_eq (w := w.push data) hlt ht]
    show (w.ring.set w.loc _).getD (((w.loc + 1) % w.maxTimesteps + w.maxTimesteps - 1 - t) % w.maxTimesteps) none = _
    rw [List.reverse_append]
    have hmod : ((w.loc + 1) % w.maxTimesteps + w.maxTimesteps - 1 - t) % w.maxTimesteps = (w.loc + w.maxTimesteps - t) % w.maxTimesteps := by
      by_cases hl : w.loc + 1 = w.maxTimesteps
      · rw [hl, Nat.mod_self]
        have : w.loc + w.maxTimesteps - t = (0 + w.maxTimesteps - 1 - t) + w.maxTimesteps := by omega
        rw [this, Nat.add_mod_right]
      · rw [Nat.mod_eq_of_lt (by omega : w.loc + 1 < w.maxTimesteps)]
        congr 1
        omega
    rw [hmod]
    cases t with
    | zero =>
      rw [Nat.sub_zero, Nat.add_mod_right, Nat.mod_eq_of_lt hloc]
      simp [h.len, hloc]
    | succ t =>
      have hne : w.loc ≠ (w.loc + w.maxTimesteps - (t + 1)) % w.maxTimesteps := by
        by_cases hl : t + 1 ≤ w.loc
        · have : w.loc + w.maxTimesteps - (t + 1) = (w.loc - (t + 1)) + w.maxTimesteps := by omega
          rw [this, Nat.add_mod_right, Nat.mod_eq_of_lt (by omega)]
          omega
        · rw [Nat.mod_eq_of_lt (by omega)]
          omega
      rw [List.getD_eq_getElem?_getD, List.getElem?_set_ne hne]
      have := h.spec t (by omega)
      rw [specAt_eq hloc (by omega), List.getD_eq_getElem?_getD] at this
      have e : w.loc + w.maxTimesteps - (t + 1) = w.loc + w.maxTimesteps - 1 - t := by omega
      rw [e, this]
      simp

theorem finished_ring {H : List Timestep} {w : Writer} (h : RingInv H w) (cs : List ChunkData) :
    RingInv H ({ w with chunks := cs } : Writer).finished := ⟨h.len, h.loc, h.spec⟩

theorem core_symm {w : Writer} : w.core.core = w.core := rfl

theorem append_ring {H : List Timestep} {w : Writer} (h : RingInv H w) (data : Timestep) (as : List Answer) (r : Option Code)
    (hr : (w.append data as).2.1 = .ret r) : RingInv (H ++ w.appended (.append data, as)) (w.append data as).1 := by
  have ha := append_core h.ring data as
  rw [appended]
  cases r with
  | some e =>
    rw [hr, if_neg (by simp), List.append_nil]
    exact h.core (ha.1 e hr)
  | none =>
    rw [hr, if_pos rfl]
    obtain ⟨_, hm, hx⟩ := ha.2 hr
    split at hx
    · exact (h.push hm data).core hx
    · obtain ⟨ch, _, hx⟩ := hx
      exact (finished_ring (h.push hm data) _).core hx

theorem call_ring {H : List Timestep} {w : Writer} (h : w.closed = false → RingInv H w) (c : Call) (as : List Answer) (r : Option Code)
    (hr : (w.call c as).2.1 = .ret r) : (w.call c as).1.closed = false → RingInv (H ++ w.appended (c, as)) (w.call c as).1 := by
  by_cases hc : w.closed = true
  · have : (w.call c as).1 = w ∧ w.appended (c, as) = [] := by
      cases c with
      | append data => simp [call, append, appended, hc]
      | createItem table n p => simp [call, createItem, appended, hc]
      | flush => simp [call, flush, appended, hc]
      | close retry => simp [call, close, appended, hc]
    rw [this.1, this.2, List.append_nil]
    exact h
  have hc : w.closed = false := by simpa using hc
  have h := h hc
  cases c with
  | append data => exact fun _ => append_ring h data as r hr
  | createItem table n p =>
    intro _
    simp only [appended, List.append_nil]
    rcases createItem_core w table n p as r hr with hx | hx
    · exact h.core hx
    · exact RingInv.core (w := { w with drawn := w.drawn + 1 }) ⟨h.len, h.loc, h.spec⟩ hx
  | flush =>
    intro _
    simp only [appended, List.append_nil]
    rcases flush_core w as r hr with hx | ⟨ch, _, hx⟩
    · exact h.core hx
    · exact (finished_ring h _).core hx
  | close retry =>
    intro hcl
    simp only [appended, List.append_nil]
    rcases close_core w retry as r hr with hx | hx
    · exact h.core hx
    · exact absurd (hcl.symm.trans hx) (by simp)

theorem run_ring : ∀ {evs : List Event} {H : List Timestep} {w w1 : Writer}, (w.closed = false → RingInv H w) → w.run evs = some w1 →
    (w1.closed = false → RingInv (H ++ w.history evs) w1)
  | [], H, w, w1, h, hrun => by
    simp only [run, Option.some.injEq] at hrun
    subst hrun
    simpa [history] using h
  | (c, as) :: evs, H, w, w1, h, hrun => by
    obtain ⟨⟨r, hr⟩, h1, _⟩ := run_cons hrun
    have := run_ring (call_ring h c as r hr) h1
    rw [history, ← List.append_assoc]
    exact this

theorem RingInv.new {w : Writer} (hn : w.New) : RingInv [] w := by
  rw [hn.new]
  refine ⟨by simp [Writer.new], fun h => by simp only [Writer.new] at h ⊢; omega, fun t ht => ?_⟩
  unfold specAt
  simp only [Writer.new] at ht ⊢
  rw [List.getD_eq_getElem?_getD, List.getElem?_replicate]
  split <;> rfl

theorem ring_of_run {w w1 : Writer} (hn : w.New) {evs : List Event} (hrun : w.run evs = some w1) (hc : w1.closed = false) :
    RingInv (w.history evs) w1 := by
  have := run_ring (H := []) (fun _ => RingInv.new hn) hrun hc
  simpa using this

/-! ### Full chunks -/

/-- While there is no `Flush` all chunks have the same length. -/
structure Full (H : List Timestep) (w : Writer) : Prop where
  pos : 0 < w.chunkLength
  chunks : ∀ c ∈ w.chunks, c.rangeLength = w.chunkLength
  buffer : w.buffer.length < w.chunkLength
  held : w.chunks.length * w.chunkLength + w.buffer.length = H.length ∨ w.maxTimesteps ≤ w.chunks.length * w.chunkLength

theorem sum_const {l : List Int} {k : Int} (h : ∀ x ∈ l, x = k) : l.sum = l.length * k := by
  induction l with
  | nil => simp
  | cons a l ih =>
    rw [List.sum_cons, ih fun x hx => h x (List.mem_cons_of_mem _ hx), h a List.mem_cons_self, List.length_cons]
    rw [Int.natCast_add, Int.add_mul]
    omega

theorem Full.count {H : List Timestep} {w : Writer} (h : Full H w) :
    w.held = ((w.chunks.length * w.chunkLength + w.buffer.length : Nat) : Int) := by
  unfold Writer.held
  rw [sum_const (k := (w.chunkLength : Int)) (by
    intro x hx
    obtain ⟨c, hc, rfl⟩ := List.mem_map.mp hx
    exact h.chunks c hc)]
  simp

theorem Full.core {H : List Timestep} {w w' : Writer} (h : Full H w) (hc : w'.core = w.core) : Full H w' := by
  have e1 : w'.chunkLength = w.chunkLength := by show w'.core.chunkLength = w.core.chunkLength; rw [hc]
  have e2 : w'.maxTimesteps = w.maxTimesteps := by show w'.core.maxTimesteps = w.core.maxTimesteps; rw [hc]
  have e3 := core_chunks hc
  have e4 := core_buffer hc
  exact ⟨by rw [e1]; exact h.pos, by rw [e1, e3]; exact h.chunks, by rw [e1, e4]; exact h.buffer, by rw [e1, e2, e3, e4]; exact h.held⟩

theorem evict_length (cl mt : Nat) : ∀ (cs : List ChunkData) (s : List Key),
    (evict cl mt cs s).1 = cs ∨ mt ≤ (evict cl mt cs s).1.length * cl
  | [], _ => .inl rfl
  | c :: cs, s => by
    unfold evict
    split
    · rename_i hm
      rcases evict_length cl mt cs (s.filter (· ≠ c.key)) with h | h
      · right; rw [h]; exact hm
      · exact .inr h
    · exact .inl rfl

theorem makeChunk_range {w : Writer} {ch : ChunkData} (h : w.makeChunk = .ok ch) : ch.rangeLength = w.buffer.length := by
  unfold makeChunk at h
  cases hb : w.buffer with
  | nil => rw [hb] at h; cases h
  | cons first rest =>
    rw [hb] at h
    dsimp only at h
    split at h
    · cases h
    · cases h
    · split at h
      · cases h
      · cases h
      · cases h
        simp only [ChunkData.rangeLength]
        omega

theorem Full.append {H : List Timestep} {w : Writer} (hr : w.Ring) (h : Full H w) (data : Timestep) (as : List Answer) (r : Option Code)
    (he : (w.append data as).2.1 = .ret r) : Full (H ++ w.appended (.append data, as)) (w.append data as).1 := by
  have ha := append_core hr data as
  rw [appended]
  cases r with
  | some e =>
    rw [he, if_neg (by simp), List.append_nil]
    exact h.core (ha.1 e he)
  | none =>
    rw [he, if_pos rfl]
    obtain ⟨_, hm, hx⟩ := ha.2 he
    have hbl : (w.push data).buffer.length = w.buffer.length + 1 := by simp [push]
    split at hx
    · rename_i hlt
      refine Full.core (w := w.push data) ⟨h.pos, h.chunks, by rw [hbl]; exact hlt, ?_⟩ hx
      rw [hbl]
      rcases h.held with hh | hh
      · left
        show w.chunks.length * w.chunkLength + (w.buffer.length + 1) = _
        rw [List.length_append, ← hh]
        rfl
      · exact .inr hh
    · rename_i hge
      obtain ⟨ch, hch, hx⟩ := hx
      have hrl := makeChunk_range hch
      have hb := h.buffer
      refine Full.core ?_ hx
      obtain ⟨pre, e1, _⟩ := evict_spec w.chunkLength w.maxTimesteps (w.chunks ++ [ch]) w.streamed
      refine ⟨h.pos, ?_, h.pos, ?_⟩
      · intro c hc
        have hc : c ∈ (evict w.chunkLength w.maxTimesteps (w.chunks ++ [ch]) w.streamed).1 := hc
        have hc' : c ∈ w.chunks ++ [ch] := by rw [e1]; exact List.mem_append_right _ hc
        rcases List.mem_append.mp hc' with g | g
        · exact h.chunks c g
        · simp only [List.mem_singleton] at g
          subst g
          show c.rangeLength = w.chunkLength
          rw [hrl, hbl]
          omega
      · show (evict w.chunkLength w.maxTimesteps (w.chunks ++ [ch]) w.streamed).1.length * w.chunkLength + 0 = (H ++ [data]).length ∨
          w.maxTimesteps ≤ (evict w.chunkLength w.maxTimesteps (w.chunks ++ [ch]) w.streamed).1.length * w.chunkLength
        rcases evict_length w.chunkLength w.maxTimesteps (w.chunks ++ [ch]) w.streamed with g | g
        · rw [g]
          simp only [List.length_append, List.length_cons, List.length_nil, Nat.add_mul]
          rcases h.held with hh | hh
          · left; omega
          · right; omega
        · exact .inr g

theorem Full.createItem {H : List Timestep} {w : Writer} (h : Full H w) (table : String) (n : Int) (p : Pri) (as : List Answer) (r : Option Code)
    (he : (w.createItem table n p as).2.1 = .ret r) : Full H (w.createItem table n p as).1 := by
  rcases createItem_core w table n p as r he with hx | hx
  · exact h.core hx
  · exact Full.core (w := { w with drawn := w.drawn + 1 }) ⟨h.pos, h.chunks, h.buffer, h.held⟩ hx

/-- A call without `Flush` keeps chunks full. -/
theorem call_full {H : List Timestep} {w : Writer} {m : Nat} (hr : w.closed = false → w.Ring) (h : w.closed = false → Full H w) {c : Call} {as : List Answer}
    (hp : Plain m (c, as)) (r : Option Code) (he : (w.call c as).2.1 = .ret r) :
    (w.call c as).1.closed = false → Full (H ++ w.appended (c, as)) (w.call c as).1 := by
  by_cases hc : w.closed = true
  · have : (w.call c as).1 = w ∧ w.appended (c, as) = [] := by
      cases c with
      | append data => simp [call, Writer.append, appended, hc]
      | createItem table n p => simp [call, Writer.createItem, appended, hc]
      | flush => simp [call, flush, appended, hc]
      | close retry => simp [call, close, appended, hc]
    rw [this.1, this.2, List.append_nil]
    exact h
  have hc : w.closed = false := by simpa using hc
  have h := h hc
  cases c with
  | append data => exact fun _ => h.append (hr hc) data as r he
  | createItem table n p =>
    intro _
    simp only [appended, List.append_nil]
    exact h.createItem table n p as r he
  | flush => cases hp
  | close retry =>
    intro hcl
    simp only [appended, List.append_nil]
    rcases close_core w retry as r he with hx | hx
    · exact h.core hx
    · exact absurd (hcl.symm.trans hx) (by simp)

theorem Full.sound {H : List Timestep} {w : Writer} {m : Nat} (h : w.closed = false → Full H w) {c : Call} {as : List Answer}
    (hp : Plain m (c, as)) : w.Sound m (c, as) := by
  cases c with
  | append data => exact hp
  | flush => cases hp
  | close retry => trivial
  | createItem table n p =>
    obtain ⟨h1, h2⟩ := hp
    refine ⟨h1, ?_, h2⟩
    by_cases hc : w.closed = true
    · exact .inr ⟨_, by unfold Writer.createItem; rw [if_pos hc]⟩
    have hc' : w.closed = false := by simpa using hc
    have h := h hc'
    by_cases hn : n < 0 ∨ ((w.chunks.length * w.chunkLength + w.buffer.length : Nat) : Int) < n
    · exact .inr ⟨_, by unfold Writer.createItem; rw [if_neg hc, if_pos hn]⟩
    · left
      rw [h.count]
      omega

theorem run_full {m : Nat} : ∀ {evs : List Event} {H : List Timestep} {w w1 : Writer}, (w.closed = false → RingInv H w) →
    (w.closed = false → Full H w) → (∀ e ∈ evs, Plain m e) → w.run evs = some w1 →
    w.AllSound m evs ∧ (w1.closed = false → Full (H ++ w.history evs) w1)
  | [], H, w, w1, hr, h, hp, hrun => by
    simp only [run, Option.some.injEq] at hrun
    subst hrun
    exact ⟨trivial, by simpa [history] using h⟩
  | (c, as) :: evs, H, w, w1, hr, h, hp, hrun => by
    have hs := Full.sound h (hp _ List.mem_cons_self)
    obtain ⟨⟨r, hret⟩, h1, _⟩ := run_cons hrun
    have ih := run_full (evs := evs) (call_ring hr c as r hret) (call_full (fun g => (hr g).ring) h (hp _ List.mem_cons_self) r hret)
      (fun e he => hp e (List.mem_cons_of_mem _ he)) h1
    refine ⟨⟨hs, ih.1⟩, ?_⟩
    rw [history, ← List.append_assoc]
    exact ih.2

theorem Full.new {w : Writer} (hn : w.New) (hc : 0 < w.chunkLength) : Full [] w := by
  have e := hn.new
  refine ⟨hc, ?_, ?_, ?_⟩
  · rw [e]; simp [Writer.new]
  · rw [e]; simpa [Writer.new] using hc
  · rw [e]; simp [Writer.new]

theorem full_of_run {w w1 : Writer} (hn : w.New) (hc : 0 < w.chunkLength) {m : Nat} {evs : List Event} (hp : ∀ e ∈ evs, Plain m e)
    (hrun : w.run evs = some w1) : w.AllSound m evs ∧ (w1.closed = false → Full (w.history evs) w1) := by
  have := run_full (H := []) (fun _ => RingInv.new hn) (fun _ => Full.new hn hc) hp hrun
  simpa using this

theorem checkSteps_ok {w : Writer} {want : List TensorSpec} : ∀ {n t : Nat},
    w.checkSteps want t n = .ok () ↔ ∀ i, t ≤ i → i < t + n → ∃ got, w.specAt i = some got ∧ stepFits want got = true
  | 0, t => by
    simp only [checkSteps, true_iff]
    omega
  | n + 1, t => by
    unfold checkSteps
    cases hs : w.specAt t with
    | none =>
      simp only [reduceCtorEq, false_iff]
      intro h
      obtain ⟨got, h1, _⟩ := h t (Nat.le_refl _) (by omega)
      rw [hs] at h1
      cases h1
    | some got =>
      dsimp only
      by_cases hf : stepFits want got = true
      · rw [if_pos hf, checkSteps_ok]
        constructor
        · intro h i h1 h2
          by_cases hi : i = t
          · exact ⟨got, by rw [hi, hs], hf⟩
          · exact h i (by omega) (by omega)
        · exact fun h i h1 h2 => h i (by omega) (by omega)
      · rw [if_neg hf]
        simp only [reduceCtorEq, false_iff]
        intro h
        obtain ⟨got', h1, h2⟩ := h t (Nat.le_refl _) (by omega)
        rw [hs] at h1
        cases h1
        exact hf h2

theorem checkSteps_not_died {w : Writer} {want : List TensorSpec} : ∀ {n t : Nat}, w.checkSteps want t n ≠ .died
  | 0, t => by simp [checkSteps]
  | n + 1, t => by
    unfold checkSteps
    cases w.specAt t with
    | none => simp
    | some got =>
      dsimp only
      split
      · exact checkSteps_not_died
      · simp

/-- If there are enough steps then what is wrong is the argument. -/
theorem checkSteps_err {w : Writer} {want : List TensorSpec} : ∀ {n t : Nat}, (∀ i, t ≤ i → i < t + n → w.specAt i ≠ none) →
    w.checkSteps want t n = .ok () ∨ w.checkSteps want t n = .err .invalidArgument
  | 0, t, _ => .inl rfl
  | n + 1, t, h => by
    unfold checkSteps
    cases hs : w.specAt t with
    | none => exact absurd hs (h t (Nat.le_refl _) (by omega))
    | some got =>
      dsimp only
      split
      · exact checkSteps_err fun i h1 h2 => h i (by omega) (by omega)
      · exact .inr rfl

end Writer
end Verif
