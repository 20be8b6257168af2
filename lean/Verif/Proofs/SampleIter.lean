import Verif.Spec.Sample
import Verif.Proofs.Rows
/-
Lemmas for C46: walking through the rows of a sample.
-/
namespace Verif
namespace RowColumn

/-- The chunks of a column of which `off` rows of the first one have been taken. -/
def at' (p : RowColumn × Nat) : List ColChunk :=
  match p.1.chunks with
  | [] => []
  | ch :: rest => ⟨Tensor.stack p.1.dtype p.1.shape ch, p.2⟩ :: rest.map fun c => ⟨Tensor.stack p.1.dtype p.1.shape c, 0⟩

/-- The state after one row. -/
def next (p : RowColumn × Nat) : RowColumn × Nat :=
  match p.1.chunks with
  | [] => p
  | ch :: rest => if ch.length = p.2 + 1 then ({ p.1 with chunks := rest }, 0) else (p.1, p.2 + 1)

/-- There is a next row. -/
def Ready (p : RowColumn × Nat) : Prop := p.1.Valid ∧ ∃ ch rest, p.1.chunks = ch :: rest ∧ p.2 < ch.length

/-- The rows that are left. -/
def left (p : RowColumn × Nat) : List Tensor := p.1.rows.drop p.2

theorem columnLength_stack (d : DType) (s : List Nat) : ∀ chs : List (List Tensor),
    columnLength (chs.map fun c => ⟨Tensor.stack d s c, 0⟩) = some chs.flatten.length
  | [] => rfl
  | ch :: chs => by
    have h : (Tensor.stack d s ch).dim0 = some ch.length := rfl
    simp only [List.map_cons, columnLength, columnLength_stack d s chs, h, List.flatten_cons, List.length_append]

theorem columnLength_at (p : RowColumn × Nat) : columnLength (at' p) = some p.1.rows.length := by
  unfold at' rows
  cases p.1.chunks with
  | nil => rfl
  | cons ch rest =>
    have h : (Tensor.stack p.1.dtype p.1.shape ch).dim0 = some ch.length := rfl
    simp only [columnLength, columnLength_stack, h, List.flatten_cons, List.length_append]

theorem composed_iff : ∀ (cols : List (List ColChunk)) (ns : List Nat), cols.map columnLength = ns.map some → ∀ prev : Int,
    composedLoop prev cols = some (decide (prev = -1 ∧ (∀ n ∈ ns, ∀ m ∈ ns, n = m) ∨ ∀ n ∈ ns, prev = (n : Int)))
  | [], ns, h, prev => by
    have : ns = [] := by simpa using h.symm
    subst this
    simp [composedLoop]
  | col :: cols, [], h, _ => by simp at h
  | col :: cols, n :: ns, h, prev => by
    simp only [List.map_cons, List.cons.injEq] at h
    simp only [composedLoop, h.1]
    have ih := composed_iff cols ns h.2 n
    split
    · rename_i hc
      symm
      simp only [Option.some.injEq, decide_eq_false_iff_not]
      rintro (⟨h1, -⟩ | h1)
      · exact hc.1 h1
      · exact hc.2 (h1 n List.mem_cons_self)
    · rename_i hc
      rw [ih]
      simp only [Option.some.injEq, decide_eq_decide]
      constructor
      · rintro (⟨h1, -⟩ | h1)
        · omega
        · have hall : ∀ m ∈ n :: ns, m = n := by
            intro m hm
            rcases List.mem_cons.mp hm with rfl | hm
            · rfl
            · have := h1 m hm; omega
          by_cases hp : prev = -1
          · exact .inl ⟨hp, fun a ha b hb => by rw [hall a ha, hall b hb]⟩
          · right
            intro m hm
            rw [hall m hm]
            simp only [ne_eq, hp, not_false_eq_true, true_and, Classical.not_not] at hc
            exact hc
      · rintro (⟨-, h1⟩ | h1)
        · right
          intro m hm
          rw [h1 n List.mem_cons_self m (List.mem_cons_of_mem _ hm)]
        · right
          intro m hm
          rw [← h1 n List.mem_cons_self, h1 m (List.mem_cons_of_mem _ hm)]

theorem composed_at (ps : List (RowColumn × Nat)) :
    composedLoop (-1) (ps.map at') = some (decide (∀ p ∈ ps, ∀ q ∈ ps, p.1.rows.length = q.1.rows.length)) := by
  rw [composed_iff (ps.map at') (ps.map fun p => p.1.rows.length) (by
    rw [List.map_map, List.map_map]
    exact List.map_congr_left fun p _ => columnLength_at p)]
  simp only [Option.some.injEq, decide_eq_decide]
  constructor
  · rintro (⟨-, h⟩ | h)
    · exact fun p hp q hq => h _ (List.mem_map.mpr ⟨p, hp, rfl⟩) _ (List.mem_map.mpr ⟨q, hq, rfl⟩)
    · intro p hp
      have := h _ (List.mem_map.mpr ⟨p, hp, rfl⟩)
      omega
  · intro h
    refine .inl ⟨trivial, ?_⟩
    intro n hn m hm
    obtain ⟨p, hp, rfl⟩ := List.mem_map.mp hn
    obtain ⟨q, hq, rfl⟩ := List.mem_map.mp hm
    exact h p hp q hq

/-- The next row. -/
theorem takeRow_at {p : RowColumn × Nat} (h : Ready p) :
    ∃ row, (left p).head? = some row ∧ Sample.takeRow (at' p) = .ok (row, at' (next p)) ∧ left (next p) = (left p).tail := by
  obtain ⟨hv, ch, rest, hch, hoff⟩ := h
  have hrows : p.1.rows = ch ++ rest.flatten := by rw [rows, hch, List.flatten_cons]
  have his : ∀ t ∈ ch, Tensor.Is p.1.dtype p.1.shape t := fun t ht => hv.rows t (by rw [hrows]; exact List.mem_append_left _ ht)
  refine ⟨ch[p.2], ?_, ?_, ?_⟩
  · rw [left, hrows, List.head?_drop, List.getElem?_append_left hoff, List.getElem?_eq_getElem hoff]
  · simp only [at', hch, Sample.takeRow, Tensor.subSlice_stack his hoff, next]
    simp only [Tensor.dim0, Tensor.stack, List.head?_cons, Option.some.injEq]
    by_cases hl : ch.length = p.2 + 1
    · simp only [hl, if_true]
      cases rest <;> rfl
    · simp only [hl, if_false, hch]
  · simp only [left, next, hch]
    split
    · rename_i hl
      simp only [rows, List.drop_zero, hch, List.flatten_cons, List.tail_drop]
      rw [← hl, List.drop_left]
    · simp only [hrows, List.tail_drop]

theorem next_ready {p : RowColumn × Nat} (h : Ready p) (hne : left (next p) ≠ []) : Ready (next p) := by
  obtain ⟨hv, ch, rest, hch, hoff⟩ := h
  simp only [next, hch] at hne ⊢
  split
  · rename_i hl
    rw [if_pos hl] at hne
    cases rest with
    | nil => simp [left, rows] at hne
    | cons ch' rest =>
      have hv' : Valid { p.1 with chunks := ch' :: rest } := by
        refine ⟨fun t ht => hv.rows t ?_, fun c hc => hv.chunks c (by rw [hch]; exact List.mem_cons_of_mem _ hc)⟩
        simp only [rows, hch] at ht ⊢
        rw [List.flatten_cons]
        exact List.mem_append_right _ ht
      exact ⟨hv', ch', rest, rfl, List.length_pos_iff.mpr (hv'.chunks ch' List.mem_cons_self)⟩
  · exact ⟨hv, ch, rest, hch, by simp only; omega⟩

theorem takeRows_at : ∀ {ps : List (RowColumn × Nat)}, (∀ p ∈ ps, Ready p) →
    ∃ rows, rows.map some = ps.map (fun p => (left p).head?) ∧
      Sample.takeRows (ps.map at') = .ok (rows, (ps.map next).map at')
  | [], _ => ⟨[], rfl, rfl⟩
  | p :: ps, h => by
    obtain ⟨row, h1, h2, -⟩ := takeRow_at (h p List.mem_cons_self)
    obtain ⟨rows, g1, g2⟩ := takeRows_at fun q hq => h q (List.mem_cons_of_mem _ hq)
    exact ⟨row :: rows, by simp [h1, g1], by simp only [List.map_cons, Sample.takeRows, h2, g2]⟩

theorem at_isEmpty {p : RowColumn × Nat} : (at' p).isEmpty = p.1.chunks.isEmpty := by
  unfold at'
  cases p.1.chunks <;> rfl

/-- A sample somewhere in the middle. -/
def sampleAt (info : SampleInfo) (n : Int) (squeeze : List Bool) (called : Bool) (ps : List (RowColumn × Nat)) : Sample :=
  ⟨info, ps.map at', n, squeeze, called⟩

theorem deliver_at {info : SampleInfo} {n : Int} {squeeze : List Bool} {called : Bool} {ps : List (RowColumn × Nat)} (hne : ps ≠ [])
    (h : ∀ p ∈ ps, Ready p) :
    (¬ (∀ p ∈ ps, ∀ q ∈ ps, p.1.rows.length = q.1.rows.length) → (sampleAt info n squeeze called ps).deliver = .err .invalidArgument) ∧
    ((∀ p ∈ ps, ∀ q ∈ ps, p.1.rows.length = q.1.rows.length) →
      ∃ rows, rows.map some = ps.map (fun p => (left p).head?) ∧ (sampleAt info n squeeze called ps).deliver =
        .ok (rows, (sampleAt info n squeeze true (ps.map next)).isEndOfSample, sampleAt info n squeeze true (ps.map next))) := by
  obtain ⟨rows, h1, h2⟩ := takeRows_at h
  have hend : (sampleAt info n squeeze called ps).isEndOfSample = false := by
    cases ps with
    | nil => exact absurd rfl hne
    | cons p ps =>
      obtain ⟨-, ch, rest, hch, -⟩ := h p List.mem_cons_self
      simp only [sampleAt, Sample.isEndOfSample, List.map_cons, List.all_cons, at_isEmpty, hch, List.isEmpty_cons, Bool.false_and]
  constructor
  · intro hn
    have : (sampleAt info n squeeze called ps).isComposedOfTimesteps = some false := by
      rw [Sample.isComposedOfTimesteps, sampleAt, composed_at]
      simpa using hn
    simp only [Sample.deliver, this]
  · intro hn
    have : (sampleAt info n squeeze called ps).isComposedOfTimesteps = some true := by
      rw [Sample.isComposedOfTimesteps, sampleAt, composed_at]
      simpa using hn
    refine ⟨rows, h1, ?_⟩
    simp only [Sample.deliver, Sample.nextTimestep, this, hend, Bool.false_eq_true, if_false]
    simp only [sampleAt, h2]

/-- Columns that are cut in the same way are cut in the same way after a row. -/
theorem next_lengths {p q : RowColumn × Nat} (h : p.1.lengths = q.1.lengths) (ho : p.2 = q.2) :
    (next p).1.lengths = (next q).1.lengths ∧ (next p).2 = (next q).2 := by
  unfold next
  cases hp : p.1.chunks with
  | nil =>
    have hq : q.1.chunks = [] := by simpa [lengths, hp] using h.symm
    simp only [hq]
    exact ⟨h, ho⟩
  | cons ch rest =>
    cases hq : q.1.chunks with
    | nil => simp [lengths, hp, hq] at h
    | cons ch' rest' =>
      have h' := h
      simp only [lengths, hp, hq, List.map_cons, List.cons.injEq] at h'
      simp only [h'.1, ho]
      split
      · exact ⟨by simpa [lengths] using h'.2, rfl⟩
      · exact ⟨h, rfl⟩

theorem rows_length (c : RowColumn) : c.rows.length = c.lengths.sum := by
  rw [rows, List.length_flatten, lengths]

/-- Walking through columns that are cut in the same way. -/
theorem walk {info : SampleInfo} {num : Int} {squeeze : List Bool} : ∀ (n : Nat) {called : Bool} {ps : List (RowColumn × Nat)}, ps ≠ [] →
    (∀ p ∈ ps, Ready p) → (∀ p ∈ ps, ∀ q ∈ ps, p.1.lengths = q.1.lengths ∧ p.2 = q.2) → (∀ p ∈ ps, (left p).length = n) →
    ∃ out s', (sampleAt info num squeeze called ps).deliverN n = .ok (out, s') ∧ s'.isEndOfSample = true ∧ out.length = n ∧
      ∀ k data last, out[k]? = some (data, last) → data.map some = ps.map (fun p => (left p)[k]?) ∧ last = decide (k + 1 = n)
  | 0, _, ps, hne, hr, _, hlen => by
    obtain ⟨p, rest, rfl⟩ := List.exists_cons_of_ne_nil hne
    obtain ⟨row, h1, -⟩ := takeRow_at (hr p List.mem_cons_self)
    have := hlen p List.mem_cons_self
    rw [List.length_eq_zero_iff.mp this] at h1
    simp at h1
  | n + 1, called, ps, hne, hr, hcut, hlen => by
    have htot : ∀ p ∈ ps, ∀ q ∈ ps, p.1.rows.length = q.1.rows.length := by
      intro p hp q hq
      rw [rows_length, rows_length, (hcut p hp q hq).1]
    obtain ⟨rows, h1, h2⟩ := (deliver_at (info := info) (n := num) (squeeze := squeeze) (called := called) hne hr).2 htot
    have hleft : ∀ p ∈ ps, left (next p) = (left p).tail := fun p hp => by
      obtain ⟨_, _, _, h⟩ := takeRow_at (hr p hp)
      exact h
    have hlen' : ∀ p ∈ ps.map next, (left p).length = n := by
      intro p hp
      obtain ⟨q, hq, rfl⟩ := List.mem_map.mp hp
      rw [hleft q hq, List.length_tail, hlen q hq, Nat.add_sub_cancel]
    cases n with
    | zero =>
      have hend : (sampleAt info num squeeze true (ps.map next)).isEndOfSample = true := by
        rw [sampleAt, Sample.isEndOfSample, List.all_eq_true]
        intro col hcol
        obtain ⟨p, hp, rfl⟩ := List.mem_map.mp hcol
        obtain ⟨q, hq, rfl⟩ := List.mem_map.mp hp
        have h0 := hlen' (next q) hp
        obtain ⟨hv, ch, rest, hch, hoff⟩ := hr q hq
        have hl := hlen q hq
        rw [at_isEmpty]
        simp only [left, RowColumn.rows, hch, List.flatten_cons, List.length_drop, List.length_append] at hl
        have hrest : rest = [] := by
          cases rest with
          | nil => rfl
          | cons c cs =>
            have := List.length_pos_iff.mpr (hv.chunks c (by rw [hch]; simp))
            simp only [List.flatten_cons, List.length_append] at hl
            omega
        subst hrest
        simp only [List.flatten_nil, List.length_nil] at hl
        simp only [next, hch]
        rw [if_pos (by omega)]
        rfl
      refine ⟨[(rows, true)], _, by simp only [Sample.deliverN, h2, hend], hend, rfl, ?_⟩
      intro k data last hk
      cases k with
      | succ k => simp at hk
      | zero =>
        simp only [List.getElem?_cons_zero, Option.some.injEq, Prod.mk.injEq] at hk
        obtain ⟨rfl, rfl⟩ := hk
        refine ⟨?_, by simp⟩
        rw [h1]
        exact List.map_congr_left fun p _ => by rw [List.head?_eq_getElem?]
    | succ n =>
      have hne' : ∀ p ∈ ps, left (next p) ≠ [] := fun p hp h => by
        have := hlen' (next p) (List.mem_map.mpr ⟨p, hp, rfl⟩)
        rw [h] at this
        simp at this
      have hr' : ∀ p ∈ ps.map next, Ready p := by
        intro p hp
        obtain ⟨q, hq, rfl⟩ := List.mem_map.mp hp
        exact next_ready (hr q hq) (hne' q hq)
      have hcut' : ∀ p ∈ ps.map next, ∀ q ∈ ps.map next, p.1.lengths = q.1.lengths ∧ p.2 = q.2 := by
        intro p hp q hq
        obtain ⟨p, hp', rfl⟩ := List.mem_map.mp hp
        obtain ⟨q, hq', rfl⟩ := List.mem_map.mp hq
        exact next_lengths (hcut p hp' q hq').1 (hcut p hp' q hq').2
      obtain ⟨out, s', g1, g2, g3, g4⟩ := walk (info := info) (num := num) (squeeze := squeeze) (n + 1) (called := true)
        (ps := ps.map next) (by simpa using hne) hr' hcut' hlen'
      have hend : (sampleAt info num squeeze true (ps.map next)).isEndOfSample = false := by
        obtain ⟨p, rest, rfl⟩ := List.exists_cons_of_ne_nil hne
        obtain ⟨-, ch, rest', hch, -⟩ := hr' (next p) (by simp)
        simp only [sampleAt, Sample.isEndOfSample, List.map_cons, List.all_cons, at_isEmpty, hch, List.isEmpty_cons, Bool.false_and]
      refine ⟨(rows, false) :: out, s', ?_, g2, by simp [g3], ?_⟩
      · rw [Sample.deliverN, h2]
        simp only [g1, hend]
      · intro k data last hk
        cases k with
        | zero =>
          simp only [List.getElem?_cons_zero, Option.some.injEq, Prod.mk.injEq] at hk
          obtain ⟨rfl, rfl⟩ := hk
          refine ⟨?_, by simp⟩
          rw [h1]
          exact List.map_congr_left fun p _ => by rw [List.head?_eq_getElem?]
        | succ k =>
          obtain ⟨e1, e2⟩ := g4 k data last (by simpa using hk)
          refine ⟨?_, by rw [e2]; simp⟩
          rw [e1, List.map_map]
          refine List.map_congr_left fun p hp => ?_
          simp only [Function.comp_apply, hleft p hp, List.getElem?_tail]

/-- If walking succeeds the columns are cut in the same way. -/
theorem walk_cut {info : SampleInfo} {num : Int} {squeeze : List Bool} : ∀ (n : Nat) {called : Bool} {ps : List (RowColumn × Nat)}, ps ≠ [] →
    (∀ p ∈ ps, Ready p) → (∀ p ∈ ps, ∀ q ∈ ps, p.2 = q.2) → (∀ p ∈ ps, (left p).length = n) →
    ∀ r, (sampleAt info num squeeze called ps).deliverN n = .ok r → ∀ p ∈ ps, ∀ q ∈ ps, p.1.lengths = q.1.lengths
  | 0, _, ps, hne, hr, _, hlen, _, _ => by
    obtain ⟨p, rest, rfl⟩ := List.exists_cons_of_ne_nil hne
    obtain ⟨row, h1, -⟩ := takeRow_at (hr p List.mem_cons_self)
    have := hlen p List.mem_cons_self
    rw [List.length_eq_zero_iff.mp this] at h1
    simp at h1
  | n + 1, called, ps, hne, hr, hoff, hlen, r, hok => by
    have htot : ∀ p ∈ ps, ∀ q ∈ ps, p.1.rows.length = q.1.rows.length := by
      intro p hp q hq
      have h1 := hlen p hp
      have h2 := hlen q hq
      have := hoff p hp q hq
      simp only [left, List.length_drop] at h1 h2
      omega
    obtain ⟨rows, h1, h2⟩ := (deliver_at (info := info) (n := num) (squeeze := squeeze) (called := called) hne hr).2 htot
    have hleft : ∀ p ∈ ps, left (next p) = (left p).tail := fun p hp => by
      obtain ⟨_, _, _, h⟩ := takeRow_at (hr p hp)
      exact h
    have hlen' : ∀ p ∈ ps.map next, (left p).length = n := by
      intro p hp
      obtain ⟨q, hq, rfl⟩ := List.mem_map.mp hp
      rw [hleft q hq, List.length_tail, hlen q hq, Nat.add_sub_cancel]
    cases n with
    | zero =>
      have hone : ∀ p ∈ ps, p.1.lengths = [p.2 + 1] := by
        intro q hq
        obtain ⟨hv, ch, rest, hch, hoff⟩ := hr q hq
        have hl := hlen q hq
        simp only [left, RowColumn.rows, hch, List.flatten_cons, List.length_drop, List.length_append] at hl
        have hrest : rest = [] := by
          cases rest with
          | nil => rfl
          | cons c cs =>
            have := List.length_pos_iff.mpr (hv.chunks c (by rw [hch]; simp))
            simp only [List.flatten_cons, List.length_append] at hl
            omega
        subst hrest
        simp only [List.flatten_nil, List.length_nil] at hl
        simp only [lengths, hch, List.map_cons, List.map_nil, List.cons.injEq, and_true]
        omega
      intro p hp q hq
      rw [hone p hp, hone q hq, hoff p hp q hq]
    | succ n =>
      have hr' : ∀ p ∈ ps.map next, Ready p := by
        intro p hp
        obtain ⟨q, hq, rfl⟩ := List.mem_map.mp hp
        refine next_ready (hr q hq) fun h => ?_
        have := hlen' (next q) hp
        rw [h] at this
        simp at this
      rw [Sample.deliverN, h2] at hok
      simp only at hok
      have hsub : ∃ r', (sampleAt info num squeeze true (ps.map next)).deliverN (n + 1) = .ok r' := by
        obtain ⟨o, ho⟩ : ∃ o, (sampleAt info num squeeze true (ps.map next)).deliverN (n + 1) = o := ⟨_, rfl⟩
        rw [ho] at hok
        cases o with
        | ok r' => exact ⟨r', ho⟩
        | err e => simp at hok
        | died => simp at hok
      obtain ⟨r', hok'⟩ := hsub
      have hne1 : ps.map next ≠ [] := by simpa using hne
      -- the next call was accepted, hence the totals agree, hence the same columns have finished a chunk
      have htot' : ∀ p ∈ ps.map next, ∀ q ∈ ps.map next, p.1.rows.length = q.1.rows.length := by
        apply Classical.byContradiction
        intro hcon
        have := (deliver_at (info := info) (n := num) (squeeze := squeeze) (called := true) hne1 hr').1 hcon
        rw [Sample.deliverN, this] at hok'
        simp at hok'
      have hsame : ∀ p ∈ ps, ∀ q ∈ ps, (next p).2 = (next q).2 := by
        intro p hp q hq
        have t1 := htot p hp q hq
        have t2 := htot' (next p) (List.mem_map.mpr ⟨p, hp, rfl⟩) (next q) (List.mem_map.mpr ⟨q, hq, rfl⟩)
        have l1 := hlen' (next p) (List.mem_map.mpr ⟨p, hp, rfl⟩)
        have l2 := hlen' (next q) (List.mem_map.mpr ⟨q, hq, rfl⟩)
        simp only [left, List.length_drop] at l1 l2
        omega
      have ih := walk_cut (info := info) (num := num) (squeeze := squeeze) (n + 1) (called := true) (ps := ps.map next) hne1 hr' (by
        intro p hp q hq
        obtain ⟨p, hp', rfl⟩ := List.mem_map.mp hp
        obtain ⟨q, hq', rfl⟩ := List.mem_map.mp hq
        exact hsame p hp' q hq') hlen' r' hok'
      intro p hp q hq
      have hlens := ih (next p) (List.mem_map.mpr ⟨p, hp, rfl⟩) (next q) (List.mem_map.mpr ⟨q, hq, rfl⟩)
      have ho := hoff p hp q hq
      have hs := hsame p hp q hq
      obtain ⟨-, ch, rest, hch, hlt⟩ := hr p hp
      obtain ⟨-, ch', rest', hch', hlt'⟩ := hr q hq
      simp only [next, hch, hch'] at hlens hs
      by_cases c1 : ch.length = p.2 + 1 <;> by_cases c2 : ch'.length = q.2 + 1
      · simp only [c1, c2, if_true] at hlens
        simp only [lengths, hch, hch', List.map_cons, List.cons.injEq]
        exact ⟨by omega, by simpa [lengths] using hlens⟩
      · simp [c1, c2] at hs
      · simp [c1, c2] at hs
      · simp only [c1, c2, if_false] at hlens
        exact hlens

end RowColumn
end Verif
