import Verif.Proofs.TrajCols
namespace Verif
namespace TrajWriter
open Chunker (Row Used Moves Held ident)

/-- A change of all chunkers. -/
theorem onAll_ok {g : Nat → Nat → Key} {rows : Nat → List Row} {f : Nat → Chunker → Chunker × Res Unit} {reset : Bool}
    (hf : ∀ i c, c.Used (rows i) → ∃ op : Chunker.Op, op.Valid ∧ (f i c).1 = (c.step op).1 ∧ (∀ out, op.accepted out = []) ∧
      (op.isReset = true → reset = true)) : ∀ {is : List Nat} {m : AMap Nat Chunker}, Cols g m rows →
    Cols g (onAll f is m).1 rows ∧ MMoves m (onAll f is m).1 reset
  | [], m, h => ⟨h, MMoves.refl _ _⟩
  | i :: is, m, h => by
    unfold onAll
    cases hi : m.get? i with
    | none => exact onAll_ok hf h
    | some c =>
      obtain ⟨op, h1, h2, h3, h4⟩ := hf i c (h.used i c hi).1
      obtain ⟨k1, k2, _⟩ := h.step hi h1
      rw [← h2] at k1 k2
      rw [h3] at k1
      have hrows : addRows rows i [] = rows := by funext j; simp [addRows]; intro h; rw [h]
      rw [hrows] at k1
      have k2' : MMoves m (m.insert i (f i c).1) reset := by
        cases hr : reset with
        | true =>
          intro j x hx
          obtain ⟨y, hy, hm⟩ := k2 j x hx
          exact ⟨y, hy, hm.weaken⟩
        | false =>
          have : op.isReset = false := by
            cases ho : op.isReset with
            | false => rfl
            | true => rw [h4 ho] at hr; cases hr
          rw [this] at k2
          exact k2
      rcases hx : f i c with ⟨c', _ | _ | _⟩ <;> simp only [hx]
      · rw [hx] at k1 k2'
        obtain ⟨l1, l2⟩ := onAll_ok hf (is := is) k1
        exact ⟨l1, k2'.trans' l2⟩
      · rw [hx] at k1 k2'
        exact ⟨k1, k2'⟩
      · rw [hx] at k1 k2'
        exact ⟨k1, k2'⟩

theorem onAll_res {f : Nat → Chunker → Chunker × Res Unit} : ∀ {is : List Nat} {m : AMap Nat Chunker}, is.Nodup →
    (∀ i ∈ is, ∀ c, m.get? i = some c → (f i c).2 = .ok ()) → (onAll f is m).2 = .ok ()
  | [], _, _, _ => rfl
  | i :: is, m, hn, h => by
    unfold onAll
    have hn' := List.nodup_cons.mp hn
    cases hi : m.get? i with
    | none => exact onAll_res hn'.2 fun j hj => h j (List.mem_cons_of_mem _ hj)
    | some c =>
      have hok := h i List.mem_cons_self c hi
      rcases hx : f i c with ⟨c', _ | _ | _⟩ <;> simp only [hx]
      · refine onAll_res hn'.2 fun j hj c2 hc2 => h j (List.mem_cons_of_mem _ hj) c2 ?_
        rw [AMap.get?_insert, if_neg (by intro he; subst he; exact hn'.1 hj)] at hc2
        exact hc2
      · rw [hx] at hok; simp at hok
      · rw [hx] at hok; simp at hok

theorem onAll_keys {f : Nat → Chunker → Chunker × Res Unit} (g : Chunker → Prop) : ∀ {is : List Nat} {m : AMap Nat Chunker},
    (∀ i c, m.get? i = some c → g c) → (∀ i c, g c → g (f i c).1) → ∀ i c, (onAll f is m).1.get? i = some c → g c
  | [], _, h, _ => h
  | i :: is, m, h, hf => by
    unfold onAll
    cases hi : m.get? i with
    | none => exact onAll_keys g h hf
    | some c =>
      have hins : ∀ j x, (m.insert i (f i c).1).get? j = some x → g x := by
        intro j x hx
        rw [AMap.get?_insert] at hx
        split at hx
        · cases hx; exact hf i c (h i c hi)
        · exact h j x hx
      rcases hx : f i c with ⟨c', _ | _ | _⟩ <;> simp only [hx]
      · rw [hx] at hins; exact onAll_keys g hins hf
      · rw [hx] at hins; exact hins
      · rw [hx] at hins; exact hins

/-- The reference exists and its data is not given up. -/
def HeldRef (m : AMap Nat Chunker) (r : Ref) : Prop := ∃ c, m.get? r.col = some c ∧ r.id < c.cells.length ∧ Held c r.id

theorem HeldRef.moves {m m' : AMap Nat Chunker} (h : MMoves m m' false) {r : Ref} (hr : HeldRef m r) : HeldRef m' r := by
  obtain ⟨c, h1, h2, h3⟩ := hr
  obtain ⟨c', g1, g2⟩ := h _ c h1
  exact ⟨c', g1, by have := g2.length; omega, g2.held rfl _ h2 h3⟩

theorem ready_iff (w : TrajWriter) (r : Ref) : w.ready r = true ↔ ∃ ch, w.chunkOf r = some ch := by
  unfold ready chunkOf
  cases w.cell? r with
  | none => simp
  | some cell => simp [Option.isSome_iff_exists]

theorem cell_moves {w w' : TrajWriter} {b : Bool} (h : MMoves w.chunkers w'.chunkers b) {r : Ref} {x : Cell} (hx : w.cell? r = some x) :
    ∃ x', w'.cell? r = some x' ∧ ident x' = ident x ∧ ∀ ch, x.chunk = some ch → x'.chunk = some ch := by
  unfold cell? at hx
  cases hc : w.chunkers.get? r.col with
  | none => simp [hc] at hx
  | some c =>
    obtain ⟨c', g1, g2⟩ := h _ c hc
    rw [hc] at hx
    obtain ⟨x', k1, k2, k3⟩ := g2.cells r.id x hx
    exact ⟨x', by simp [cell?, g1, k1], k2, k3⟩

theorem keyOf_moves {w w' : TrajWriter} {b : Bool} (h : MMoves w.chunkers w'.chunkers b) {r : Ref} (hx : (w.cell? r).isSome) :
    w'.keyOf r = w.keyOf r := by
  obtain ⟨x, hx⟩ := Option.isSome_iff_exists.mp hx
  obtain ⟨x', h1, h2, _⟩ := cell_moves h hx
  simp only [ident, Prod.mk.injEq] at h2
  simp [keyOf, h1, hx, h2.1]

theorem chunkOf_moves {w w' : TrajWriter} {b : Bool} (h : MMoves w.chunkers w'.chunkers b) {r : Ref} {ch : ChunkData}
    (hx : w.chunkOf r = some ch) : w'.chunkOf r = some ch := by
  unfold chunkOf at hx
  cases hc : w.cell? r with
  | none => simp [hc] at hx
  | some x =>
    rw [hc] at hx
    obtain ⟨x', h1, _, h3⟩ := cell_moves h hc
    simp [chunkOf, h1, h3 ch hx]

theorem cell_of_chunk {w : TrajWriter} {r : Ref} {ch : ChunkData} (h : w.chunkOf r = some ch) : (w.cell? r).isSome := by
  unfold chunkOf at h
  cases hc : w.cell? r with
  | none => simp [hc] at h
  | some x => rfl

theorem HeldRef.cell {w : TrajWriter} {r : Ref} (h : HeldRef w.chunkers r) : (w.cell? r).isSome := by
  obtain ⟨c, h1, h2, _⟩ := h
  simp [cell?, h1, h2]

/-- What holds of the columns at all times. -/
structure Base (w : TrajWriter) (rows : Nat → List Row) : Prop where
  inj : ∀ i j m n, w.colGen i m = w.colGen j n → i = j ∧ m = n
  opts : w.OptsOK
  cols : Cols w.colGen w.chunkers rows

theorem Base.chunk {w : TrajWriter} {rows : Nat → List Row} (h : w.Base rows) {r : Ref} {ch : ChunkData} (hr : w.chunkOf r = some ch) :
    ch.key = w.keyOf r := by
  unfold chunkOf at hr
  cases hc : w.cell? r with
  | none => simp [hc] at hr
  | some x =>
    rw [hc] at hr
    unfold cell? at hc
    cases hm : w.chunkers.get? r.col with
    | none => simp [hm] at hc
    | some c =>
      rw [hm] at hc
      obtain ⟨_, _, _, _, hk, _⟩ := (h.cols.used _ c hm).1.block (i := r.id) (x := x) hc hr
      rw [hk]
      have : w.cell? r = some x := by simp only [cell?, hm]; exact hc
      simp [keyOf, this]

/-- References with the same key have the same chunk. -/
theorem Base.same {w : TrajWriter} {rows : Nat → List Row} (h : w.Base rows) {r s : Ref} {ch : ChunkData} (hr : w.chunkOf r = some ch)
    (hs : (w.cell? s).isSome) (hk : w.keyOf s = w.keyOf r) : s.col = r.col ∧ w.chunkOf s = some ch := by
  obtain ⟨y, hy⟩ := Option.isSome_iff_exists.mp hs
  unfold chunkOf at hr
  cases hx : w.cell? r with
  | none => simp [hx] at hr
  | some x =>
    rw [hx] at hr
    have hx' := hx
    have hy' := hy
    unfold cell? at hx hy
    cases hm : w.chunkers.get? r.col with
    | none => simp [hm] at hx
    | some c =>
      cases hm' : w.chunkers.get? s.col with
      | none => simp [hm'] at hy
      | some c' =>
        rw [hm] at hx
        rw [hm'] at hy
        obtain ⟨hu, hg⟩ := h.cols.used _ c hm
        obtain ⟨hu', hg'⟩ := h.cols.used _ c' hm'
        obtain ⟨n, hn⟩ := hu.key hx
        obtain ⟨n', hn'⟩ := hu'.key hy
        have hk' : y.key = x.key := by simpa [keyOf, hx', hy'] using hk
        rw [hn, hn', hg, hg'] at hk'
        have hcol := (h.inj _ _ _ _ hk').1
        refine ⟨hcol, ?_⟩
        rw [hcol, hm] at hm'
        cases hm'
        obtain ⟨_, _, _, _, _, _, _, hall⟩ := hu.block (i := r.id) (x := x) hx hr
        have := (hall s.id y hy (by simpa [keyOf, hx', hy'] using hk)).2.2
        simp [chunkOf, hy', this]

theorem flush_step (c : Chunker) : (c.step .flush).1 = c.flush.1 := rfl

/-- Forcing references. -/
theorem forceRefs_ok : ∀ {refs : List Ref} {w : TrajWriter} {rows : Nat → List Row}, w.Base rows →
    ∃ m', (w.forceRefs refs).1 = { w with chunkers := m' } ∧ Base { w with chunkers := m' } rows ∧ MMoves w.chunkers m' false ∧
      ((∀ r ∈ refs, HeldRef w.chunkers r) → (w.forceRefs refs).2 = .ok () ∧ ∀ r ∈ refs, (w.forceRefs refs).1.ready r = true)
  | [], w, rows, h => ⟨w.chunkers, rfl, h, MMoves.refl _ _, fun _ => ⟨rfl, by simp⟩⟩
  | r :: refs, w, rows, h => by
    by_cases hrd : w.ready r = true
    · obtain ⟨m', h1, h2, h3, h4⟩ := forceRefs_ok (refs := refs) h
      have he : w.forceRefs (r :: refs) = w.forceRefs refs := by rw [forceRefs, if_pos hrd]
      rw [he]
      refine ⟨m', h1, h2, h3, fun hh => ?_⟩
      obtain ⟨k1, k2⟩ := h4 fun s hs => hh s (List.mem_cons_of_mem _ hs)
      refine ⟨k1, fun s hs => ?_⟩
      rcases List.mem_cons.mp hs with rfl | hs
      · obtain ⟨ch, hch⟩ := (ready_iff _ _).mp hrd
        exact (ready_iff _ _).mpr ⟨ch, chunkOf_moves (b := false) (by rw [h1]; exact h3) hch⟩
      · exact k2 s hs
    · cases hm : w.chunkers.get? r.col with
      | none =>
        have he : w.forceRefs (r :: refs) = (w, .died) := by rw [forceRefs, if_neg hrd]; simp [hm]
        rw [he]
        refine ⟨w.chunkers, rfl, h, MMoves.refl _ _, fun hh => ?_⟩
        obtain ⟨c, hc, _⟩ := hh r List.mem_cons_self
        rw [hm] at hc
        cases hc
      | some c =>
        obtain ⟨hu, hg⟩ := h.cols.used _ c hm
        obtain ⟨f1, f2⟩ := hu.flush
        obtain ⟨k1, k2, _⟩ := h.cols.step hm (op := .flush) trivial
        rw [flush_step] at k1 k2
        have hrows : ∀ out, addRows rows r.col (Chunker.Op.flush.accepted out) = rows := by
          intro out; funext j; simp [addRows, Chunker.Op.accepted]; intro h; rw [h]
        rw [hrows] at k1
        obtain ⟨m', h1, h2, h3, h4⟩ := forceRefs_ok (refs := refs) (w := { w with chunkers := w.chunkers.insert r.col c.flush.1 })
          ⟨h.inj, h.opts, k1⟩
        have he : w.forceRefs (r :: refs) = forceRefs { w with chunkers := w.chunkers.insert r.col c.flush.1 } refs := by
          rw [forceRefs, if_neg hrd]
          simp only [hm]
          rcases hx : c.flush with ⟨c', _ | _ | _⟩ <;> rw [hx] at f1 <;> simp at f1
        rw [he]
        refine ⟨m', h1, h2, MMoves.trans' k2 h3, fun hh => ?_⟩
        obtain ⟨l1, l2⟩ := h4 fun s hs => (hh s (List.mem_cons_of_mem _ hs)).moves k2
        refine ⟨l1, fun s hs => ?_⟩
        rcases List.mem_cons.mp hs with rfl | hs
        · obtain ⟨c2, hc2, hlt, hheld⟩ := hh s List.mem_cons_self
          rw [hm] at hc2
          cases hc2
          have hne := f2 s.id hlt hheld
          obtain ⟨ch, hch⟩ := Option.ne_none_iff_exists'.mp hne
          refine (ready_iff _ _).mpr ⟨ch, chunkOf_moves (b := false) (w := { w with chunkers := w.chunkers.insert s.col c.flush.1 })
            (by rw [h1]; exact h3) ?_⟩
          have hlt' : s.id < c.flush.1.cells.length := by
            have := (hu.step (op := .flush) trivial).2.1.length
            simp only [flush_step] at this
            omega
          have hcell : c.flush.1.cells[s.id]? = some c.flush.1.cells[s.id] := List.getElem?_eq_getElem hlt'
          rw [Chunker.cellAt_of hcell] at hch
          simp [chunkOf, cell?, hcell, hch]
        · exact l2 s hs

/-- Does the event reset the chunkers? -/
def Event.resets : Event → Bool
  | .episodeEnd clear => clear
  | _ => false

theorem pending_zero {w : TrajWriter} (h : w.numPending ≤ 0) : w.queue = [] ∧ w.inFlight = [] := by
  unfold numPending at h
  cases hq : w.queue with
  | nil =>
    rw [hq] at h
    simp only [List.length_nil] at h
    exact ⟨rfl, List.eq_nil_of_length_eq_zero (by omega)⟩
  | cons it q =>
    rw [hq] at h
    simp only [List.length_cons] at h
    split at h
    · rename_i hm
      have := List.length_pos_of_mem hm
      omega
    · omega

theorem finalizeOne_op (bytes : ChunkData → Nat) (it : WItem) (i : Nat) (c : Chunker) :
    ∃ op : Chunker.Op, op.Valid ∧ (finalizeOne bytes it i c).1 = (c.step op).1 ∧ (∀ out, op.accepted out = []) ∧ op.isReset = false := by
  unfold finalizeOne
  cases obsOf bytes c ((it.refs.filter fun r => r.col = i).map Ref.id) with
  | none => exact ⟨.finalized [], trivial, by simp [Chunker.step, Chunker.itemFinalized], fun _ => rfl, rfl⟩
  | some obs => exact ⟨.finalized obs, trivial, rfl, fun _ => rfl, rfl⟩

theorem workerStep_frame (w : TrajWriter) (inp : Input) : (w.workerStep inp).1.opts = w.opts ∧ (w.workerStep inp).1.overrides = w.overrides ∧
    (w.workerStep inp).1.colGen = w.colGen ∧ (w.workerStep inp).1.gen = w.gen ∧ (w.workerStep inp).1.sig = w.sig ∧
    (w.workerStep inp).1.drawn = w.drawn ∧
    (((w.workerStep inp).1.chunkers = w.chunkers ∧ (w.workerStep inp).2 = .ok ()) ∨ ∃ it, w.phase = .finalize it ∧
      (w.workerStep inp).1.chunkers = (onAll (finalizeOne inp.bytes it) w.chunkers.keys w.chunkers).1) := by
  unfold workerStep
  cases hp : w.phase with
  | start =>
    simp only
    cases w.unrecoverable with
    | some e => simp
    | none => simp only; split <;> simp
  | fetch =>
    simp only
    split
    · simp
    · cases w.queue <;> simp
  | chunks it rest =>
    cases rest with
    | nil => simp
    | cons r rest =>
      simp only [sendChunk]
      cases w.chunkOf r with
      | none => simp
      | some ch => simp only; split <;> simp
  | check it =>
    simp only [checkItem]
    split
    · simp
    · split <;> simp
  | waiting => simp
  | finalize it => simp
  | send it => simp
  | sent => simp
  | sendFailed it => simp
  | finish => simp
  | ended status =>
    simp only [endStream]
    split
    · simp
    · cases status with
      | none => simp
      | some e => cases e <;> simp
  | stopped => simp

theorem createItem_cases (w : TrajWriter) (t : String) (p : Pri) (cols : List TrajCol) :
    (∃ r, w.createItem t p cols = (w, r) ∧ ∀ k, r ≠ .ok k) ∨
    (∃ r, w.createItem t p cols = ({ w with drawn := w.drawn + 1 }, r) ∧ ∀ k, r ≠ .ok k) ∨
    (w.validateColumns cols = .ok () ∧ w.unrecoverable = none ∧ TrajWriter.validateItem { w with drawn := w.drawn + 1 } (w.makeItem t p cols) = .ok () ∧
      w.createItem t p cols = ({ w with
        drawn := w.drawn + 1
        queue := w.queue ++ [w.makeItem t p cols] }, .ok (w.gen w.drawn))) := by
  unfold createItem
  split
  · exact .inl ⟨_, rfl, by simp⟩
  · cases hu : w.unrecoverable with
    | some e => exact .inl ⟨.err e, rfl, by simp⟩
    | none =>
      simp only
      cases hv : w.validateColumns cols with
      | err e => exact .inl ⟨.err e, rfl, by simp⟩
      | died => exact .inl ⟨.died, rfl, by simp⟩
      | ok _ =>
        simp only
        obtain ⟨o, ho⟩ : ∃ o, TrajWriter.validateItem { w with drawn := w.drawn + 1 } (w.makeItem t p cols) = o := ⟨_, rfl⟩
        rw [← hu]
        simp only [ho]
        cases o with
        | err e => exact .inr (.inl ⟨.err e, rfl, by simp⟩)
        | died => exact .inr (.inl ⟨.died, rfl, by simp⟩)
        | ok _ => exact .inr (.inr ⟨trivial, trivial, rfl, rfl⟩)

/-- Every event keeps the columns in order. -/
theorem handle_base {w : TrajWriter} {rows : Nat → List Row} (h : w.Base rows) {e : Event} (hv : e.Valid) :
    ∃ rows', (w.handle e).1.Base rows' ∧ Grows rows rows' ∧
      MMoves w.chunkers (w.handle e).1.chunkers (e.resets && decide (w.queue = []) && decide (w.inFlight = [])) ∧
      (w.handle e).1.gen = w.gen ∧ (w.handle e).1.colGen = w.colGen ∧ w.drawn ≤ (w.handle e).1.drawn ∧
      ∀ data inc refs, e = .append data inc → (w.handle e).2 = .ok (.refs refs) →
        ∀ (j : Nat) (r : Ref), refs[j]? = some (some r) → ∃ t, data[j]? = some (some t) ∧ r.col = j ∧
          (rows' j)[r.id]? = some ⟨t, w.episode, w.step⟩ := by
  cases e with
  | append data inc =>
    simp only [handle, Event.resets, Bool.false_and]
    cases hu : w.unrecoverable with
    | some c => 
      have : w.append data inc = (w, .err c) := by simp [append, hu]
      rw [this]
      exact ⟨rows, h, Grows.refl _, MMoves.refl _ _, rfl, rfl, Nat.le_refl _, by simp [Reply.of]⟩
    | none =>
      obtain ⟨m1, a1, a2, a3, a4⟩ := addChunkers_ok (data := data) (i := 0) h.inj rfl h.opts h.cols
      obtain ⟨m2, rows', b1, b2, b3, b4, b5, b6⟩ := appendAll_ok (data := data) (w := { w with chunkers := m1 }) (i := 0) a2 hv a4
      rcases hx : appendAll { w with chunkers := m1 } 0 data with ⟨w2, refs | ec | _⟩
      · rw [hx] at b1 b6
        simp only at b1
        subst b1
        have : w.append data inc = ({ w with
            chunkers := m2
            step := if inc then w.step + 1 else w.step }, .ok refs) := by
          unfold append
          split
          · rename_i hu'; rw [hu] at hu'; cases hu'
          · simp only [a1, hx]
        rw [this]
        refine ⟨rows', ⟨h.inj, h.opts, b2⟩, b4, a3.trans' b3, rfl, rfl, Nat.le_refl _, ?_⟩
        intro data' inc' refs' he hr j r hj
        cases he
        simp only [Reply.of, Res.ok.injEq, Reply.refs.injEq] at hr
        subst hr
        obtain ⟨_, hb⟩ := b6 refs rfl
        obtain ⟨t, c1, c2, c3⟩ := hb j r hj
        rw [Nat.zero_add] at c2 c3
        exact ⟨t, c1, c2, c3⟩
      · rw [hx] at b1
        simp only at b1
        subst b1
        have : w.append data inc = ({ w with chunkers := m2 }, .err ec) := by
          unfold append
          split
          · rename_i hu'; rw [hu] at hu'; cases hu'
          · simp only [a1, hx]
        rw [this]
        exact ⟨rows', ⟨h.inj, h.opts, b2⟩, b4, a3.trans' b3, rfl, rfl, Nat.le_refl _, by simp [Reply.of]⟩
      · rw [hx] at b5
        exact absurd rfl b5
  | createItem t p cols =>
    simp only [handle, Event.resets, Bool.false_and]
    rcases createItem_cases w t p cols with ⟨r, he, _⟩ | ⟨r, he, _⟩ | ⟨_, _, _, he⟩ <;> rw [he]
    · exact ⟨rows, ⟨h.inj, h.opts, h.cols⟩, Grows.refl _, MMoves.refl _ _, rfl, rfl, Nat.le_refl _, by simp⟩
    · exact ⟨rows, ⟨h.inj, h.opts, h.cols⟩, Grows.refl _, MMoves.refl _ _, rfl, rfl, Nat.le_succ _, by simp⟩
    · exact ⟨rows, ⟨h.inj, h.opts, h.cols⟩, Grows.refl _, MMoves.refl _ _, rfl, rfl, Nat.le_succ _, by simp⟩
  | flushBegin k =>
    obtain ⟨m', h1, h2, h3, _⟩ := forceRefs_ok (refs := (w.queue.take ((w.queue.length : Int) - k).toNat).flatMap WItem.refs) h
    simp only [handle, Event.resets, Bool.false_and, force, h1]
    exact ⟨rows, h2, Grows.refl _, h3, trivial, trivial, Nat.le_refl _, by simp⟩
  | flushEnd k =>
    have : (w.handle (.flushEnd k)).1 = w := by simp only [handle]; cases w.flushResult k <;> rfl
    rw [this]
    exact ⟨rows, h, Grows.refl _, MMoves.refl _ _, rfl, rfl, Nat.le_refl _, by simp⟩
  | episodeBegin =>
    simp only [handle, Event.resets, Bool.false_and]
    cases w.unrecoverable with
    | some e => exact ⟨rows, h, Grows.refl _, MMoves.refl _ _, rfl, rfl, Nat.le_refl _, by simp⟩
    | none =>
      obtain ⟨m', h1, h2, h3, _⟩ := forceRefs_ok (refs := (w.queue.take ((w.queue.length : Int) - 0).toNat).flatMap WItem.refs) h
      simp only [force, h1]
      exact ⟨rows, h2, Grows.refl _, h3, trivial, trivial, Nat.le_refl _, by simp⟩
  | episodeEnd clear =>
    simp only [handle, Event.resets]
    rcases hx : w.flushResult 0 with _ | ⟨_ | _ | _⟩
    · exact ⟨rows, h, Grows.refl _, MMoves.refl _ _, rfl, rfl, Nat.le_refl _, by simp⟩
    · have hp : w.numPending ≤ 0 := by
        unfold flushResult at hx
        cases hu : w.unrecoverable with
        | some e => simp [hu] at hx
        | none =>
          rw [hu] at hx
          simp only at hx
          split at hx
          · assumption
          · simp at hx
      obtain ⟨p1, p2⟩ := pending_zero hp
      obtain ⟨k1, k2⟩ := onAll_ok (f := fun _ c => if clear then (c.reset, .ok ()) else c.flush) (reset := clear) (g := w.colGen) (rows := rows)
        (fun i c _ => by
          cases clear with
          | true => exact ⟨.reset, trivial, rfl, fun _ => rfl, fun _ => rfl⟩
          | false => exact ⟨.flush, trivial, rfl, fun _ => rfl, fun h => by simp [Chunker.Op.isReset] at h⟩)
        (is := w.chunkers.keys) h.cols
      simp only [p1, p2, decide_true, Bool.and_true]
      unfold endEpisode
      rcases hy : onAll (fun _ c => if clear then (c.reset, .ok ()) else c.flush) w.chunkers.keys w.chunkers with ⟨m', _ | _ | _⟩
      · rw [hy] at k1 k2
        exact ⟨rows, ⟨h.inj, h.opts, k1⟩, Grows.refl _, k2, rfl, rfl, Nat.le_succ _, by simp⟩
      · rw [hy] at k1 k2
        exact ⟨rows, ⟨h.inj, h.opts, k1⟩, Grows.refl _, k2, rfl, rfl, Nat.le_refl _, by simp⟩
      · rw [hy] at k1 k2
        exact ⟨rows, ⟨h.inj, h.opts, k1⟩, Grows.refl _, k2, rfl, rfl, Nat.le_refl _, by simp⟩
    · exact ⟨rows, h, Grows.refl _, MMoves.refl _ _, rfl, rfl, Nat.le_refl _, by simp⟩
    · exact ⟨rows, h, Grows.refl _, MMoves.refl _ _, rfl, rfl, Nat.le_refl _, by simp⟩
  | configure col o =>
    simp only [handle, Event.resets, Bool.false_and, configure]
    cases ho : o.validate with
    | err e => exact ⟨rows, h, Grows.refl _, MMoves.refl _ _, rfl, rfl, Nat.le_refl _, by simp⟩
    | died => exact ⟨rows, h, Grows.refl _, MMoves.refl _ _, rfl, rfl, Nat.le_refl _, by simp⟩
    | ok _ =>
      obtain ⟨v1, v2⟩ := clone_valid ho
      simp only
      cases hm : w.chunkers.get? col with
      | none =>
        refine ⟨rows, ⟨h.inj, ⟨h.opts.1, fun i o' hi => ?_⟩, h.cols⟩, Grows.refl _, MMoves.refl _ _, rfl, rfl, Nat.le_refl _, by simp⟩
        rw [AMap.get?_insert] at hi
        split at hi
        · cases hi; exact v1
        · exact h.opts.2 i o' hi
      | some c =>
        obtain ⟨k1, k2, _⟩ := h.cols.step hm (op := .configure o.clone) v2
        have hrows : ∀ out, addRows rows col ((Chunker.Op.configure o.clone).accepted out) = rows := by
          intro out; funext j; simp [addRows, Chunker.Op.accepted]; intro h; rw [h]
        rw [hrows] at k1
        exact ⟨rows, ⟨h.inj, h.opts, k1⟩, Grows.refl _, k2, rfl, rfl, Nat.le_refl _, by simp⟩
  | close => exact ⟨rows, ⟨h.inj, h.opts, h.cols⟩, Grows.refl _, MMoves.refl _ _, rfl, rfl, Nat.le_refl _, by simp⟩
  | confirm keys => exact ⟨rows, ⟨h.inj, h.opts, h.cols⟩, Grows.refl _, MMoves.refl _ _, rfl, rfl, Nat.le_refl _, by simp⟩
  | worker inp =>
    simp only [handle, Event.resets, Bool.false_and]
    obtain ⟨f1, f2, f3, f4, _, f5, f6⟩ := workerStep_frame w inp
    rcases f6 with ⟨f6, _⟩ | ⟨it, hp, f6⟩
    · exact ⟨rows, ⟨by rw [f3]; exact h.inj, by unfold OptsOK; rw [f1, f2]; exact h.opts, by rw [f3, f6]; exact h.cols⟩, Grows.refl _,
        by rw [f6]; exact MMoves.refl _ _, f4, f3, by rw [f5]; exact Nat.le_refl _, by simp⟩
    · obtain ⟨k1, k2⟩ := onAll_ok (f := finalizeOne inp.bytes it) (reset := false) (g := w.colGen) (rows := rows) (fun i c _ => by
        obtain ⟨op, o1, o2, o3, o4⟩ := finalizeOne_op inp.bytes it i c
        exact ⟨op, o1, o2, o3, fun h => by rw [o4] at h; cases h⟩) (is := w.chunkers.keys) h.cols
      exact ⟨rows, ⟨by rw [f3]; exact h.inj, by unfold OptsOK; rw [f1, f2]; exact h.opts, by rw [f3, f6]; exact k1⟩, Grows.refl _,
        by rw [f6]; exact k2, f4, f3, by rw [f5]; exact Nat.le_refl _, by simp⟩

end TrajWriter
end Verif
