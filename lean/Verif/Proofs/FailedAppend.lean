import Verif.Proofs.TrajRun
import Verif.Proofs.TrajClock
import Verif.Spec.FailedAppend
/-
What `Append` does to each column, when it succeeds and when it fails.
-/
namespace Verif
namespace Chunker

/-- The chunker takes the tensor. -/
def Fine (c : Chunker) (t : Tensor) (e : Key) (s : Int) : Prop :=
  t.dtype = c.dtype ∧ t.shape = c.shape ∧
    ¬ (c.buffer ≠ [] ∧ ∃ x, c.active.getLast?.map c.cellAt = some x ∧ ¬ (x.episode = e ∧ x.step < s))

theorem flush_one {c c' : Chunker} {r : Res Unit} (h : c.flush = (c', r)) : c'.opts = c.opts ∧ (r = .ok () → c'.buffer = []) := by
  unfold flush at h
  split at h
  · rename_i hb
    cases h
    exact ⟨rfl, fun _ => hb⟩
  · split at h
    · cases h; exact ⟨rfl, nofun⟩
    · cases h; exact ⟨rfl, nofun⟩
    · split at h
      · cases h; exact ⟨rfl, nofun⟩
      · cases h; exact ⟨rfl, nofun⟩
      · split at h
        · cases h; exact ⟨rfl, nofun⟩
        · cases h; exact ⟨rfl, fun _ => rfl⟩

/-- With chunks of one row there is never an unfinished one. -/
theorem append_one {c c' : Chunker} {t : Tensor} {e : Key} {s : Int} {id : Nat} (h : c.append t e s = (c', .ok id)) :
    c'.opts = c.opts ∧ (c'.opts.maxLen ≤ 1 → c'.buffer = []) := by
  unfold append at h
  split at h
  · cases h
  split at h
  · cases h
  split at h
  · cases h
  · cases h
  · cases h
  rcases hx : (c.pushRow t e s).flushIfFull with ⟨c1, _ | _ | _⟩ <;> rw [hx] at h <;> cases h
  show c1.opts = c.opts ∧ (c1.opts.maxLen ≤ 1 → c1.buffer = [])
  unfold flushIfFull at hx
  split at hx
  · obtain ⟨h1, h2⟩ := flush_one hx
    exact ⟨h1, fun _ => h2 rfl⟩
  · rename_i hm
    cases hx
    refine ⟨rfl, fun hl => ?_⟩
    refine absurd ?_ hm
    refine Int.le_trans hl ?_
    simp only [pushRow, List.length_append, List.length_singleton]
    omega

/-- The statuses with which a chunker refuses a tensor. -/
def Refusal (code : Code) : Prop := code = .invalidArgument ∨ code = .failedPrecondition

theorem Used.fine {c : Chunker} {rows : List Row} (h : c.Used rows) {t : Tensor} (hwf : t.WF) {e : Key} {s : Int} :
    (c.Fine t e s → ∃ c', c.append t e s = (c', .ok c.cells.length) ∧ c'.cells.length = c.cells.length + 1 ∧ c'.dtype = c.dtype ∧
      c'.shape = c.shape ∧ (c'.buffer ≠ [] → ∃ x, c'.active.getLast?.map c'.cellAt = some x ∧ x.episode = e ∧ x.step = s) ∧
      (c'.opts.maxLen ≤ 1 → c'.buffer = [])) ∧
    (¬ c.Fine t e s → ∃ code, c.append t e s = (c, .err code) ∧ Refusal code ∧ (t.dtype = c.dtype → t.shape = c.shape → code = .failedPrecondition)) := by
  obtain ⟨bs, cur, d, hI, hroom, hrows⟩ := h
  constructor
  · rintro ⟨h1, h2, h3⟩
    have ho : Ordered (cur ++ [⟨t, e, s⟩]) := by
      rw [ordered_snoc hI.ordered]
      intro x hx
      obtain ⟨l, hl⟩ := List.getLast?_eq_some_iff.mp hx
      obtain ⟨a1, a2, a3⟩ := hI.last hl
      refine Classical.byContradiction fun hn => h3 ⟨?_, c.cellAt (c.cells.length - 1), by rw [a1]; rfl, ?_⟩
      · rw [hI.buffer, hl]; simp
      · rw [a2, a3]; exact hn
    obtain ⟨bs', cur', d', k1, k2⟩ := append_ok hI hroom hwf h1 h2 ho
    have hr := k2.rows
    refine ⟨(c.append t e s).1, Prod.ext rfl k1, ?_, k2.dtype, k2.shape, fun hb => ?_, (append_one (Prod.ext rfl k1)).2⟩
    · rw [k2.inv.len, hI.len, ← allRows_length, ← allRows_length, hr]
      simp [Op.accepted]
    · have hc : cur' ≠ [] := by rintro rfl; exact hb (by simp [k2.inv.buffer])
      have hcur := (List.dropLast_concat_getLast hc).symm
      obtain ⟨a1, a2, a3⟩ := k2.inv.last hcur
      have hlast : cur'.getLast hc = ⟨t, e, s⟩ := by
        have h5 : (allRows bs' cur').getLast? = some ⟨t, e, s⟩ := by rw [hr]; simp [Op.accepted]
        unfold allRows at h5
        rw [List.getLast?_append, List.getLast?_eq_some_getLast hc] at h5
        simpa using h5
      rw [hlast] at a2 a3
      exact ⟨_, by rw [a1]; rfl, a2, a3⟩
  · intro hn
    unfold append
    by_cases hd : t.dtype = c.dtype
    · by_cases hs : t.shape = c.shape
      · rw [if_neg (by simpa using hd), if_neg (by simpa using hs)]
        have : ¬ ¬ (c.buffer ≠ [] ∧ ∃ x, c.active.getLast?.map c.cellAt = some x ∧ ¬ (x.episode = e ∧ x.step < s)) := fun h => hn ⟨hd, hs, h⟩
        obtain ⟨hb, x, hx, hbad⟩ := Classical.not_not.mp this
        have href : c.refuses e s = .ok true := by
          unfold refuses
          rw [if_neg hb]
          cases ha : c.active.getLast? with
          | none => rw [ha] at hx; cases hx
          | some i =>
            rw [ha] at hx
            simp only [Option.map_some, Option.some.injEq] at hx
            subst hx
            simp only [Res.ok.injEq, Bool.or_eq_true, decide_eq_true_eq]
            by_cases he : (c.cellAt i).episode = e
            · exact .inr (Int.not_lt.mp fun hlt => hbad ⟨he, hlt⟩)
            · exact .inl he
        rw [href]
        exact ⟨_, rfl, .inr rfl, fun _ _ => rfl⟩
      · rw [if_neg (by simpa using hd), if_pos hs]
        exact ⟨_, rfl, .inl rfl, fun _ h => absurd h hs⟩
    · rw [if_pos hd]
      exact ⟨_, rfl, .inl rfl, fun h => absurd h hd⟩

end Chunker
namespace TrajWriter
open Chunker (Row Refusal)

/-- `addChunkers`: old columns stay, new ones are empty and have the type of the tensor. -/
theorem addChunkers_exact : ∀ (data : List (Option Tensor)) (w w' : TrajWriter) (i : Nat), w.addChunkers i data = (w', .ok ()) →
    (∀ j c, w.chunkers.get? j = some c → w'.chunkers.get? j = some c) ∧
    (∀ j c, w'.chunkers.get? j = some c → w.chunkers.get? j = some c ∨
      (w.chunkers.get? j = none ∧ ∃ k t, j = i + k ∧ data[k]? = some (some t) ∧ c.dtype = t.dtype ∧ c.shape = t.shape ∧ c.buffer = [] ∧ c.cells = []))
  | [], w, w', i, h => by cases h; exact ⟨fun _ _ h => h, fun _ _ h => .inl h⟩
  | none :: data, w, w', i, h => by
    rw [addChunkers] at h
    obtain ⟨h1, h2⟩ := addChunkers_exact data w w' (i + 1) h
    refine ⟨h1, fun j c hj => ?_⟩
    rcases h2 j c hj with h | ⟨h, k, t, rfl, h3⟩
    · exact .inl h
    · exact .inr ⟨h, k + 1, t, by omega, by simpa using h3⟩
  | some t :: data, w, w', i, h => by
    unfold addChunkers at h
    cases hi : w.chunkers.get? i with
    | some c =>
      rw [hi] at h
      obtain ⟨h1, h2⟩ := addChunkers_exact data w w' (i + 1) h
      refine ⟨h1, fun j c hj => ?_⟩
      rcases h2 j c hj with h | ⟨h, k, t, rfl, h3⟩
      · exact .inl h
      · exact .inr ⟨h, k + 1, t, by omega, by simpa using h3⟩
    | none =>
      rw [hi] at h
      simp only at h
      cases hn : Chunker.new t.dtype t.shape ((w.overrides.get? i).getD w.opts).clone (w.colGen i) with
      | err e => rw [hn] at h; cases h
      | died => rw [hn] at h; cases h
      | ok c =>
        rw [hn] at h
        have hc : c.dtype = t.dtype ∧ c.shape = t.shape ∧ c.buffer = [] ∧ c.cells = [] := by
          unfold Chunker.new at hn
          split at hn
          · cases hn
          · cases hn; exact ⟨rfl, rfl, rfl, rfl⟩
        obtain ⟨h1, h2⟩ := addChunkers_exact data { w with chunkers := w.chunkers.insert i c } w' (i + 1) h
        simp only [AMap.get?_insert] at h1 h2
        constructor
        · intro j c' hj
          refine h1 j c' ?_
          rw [if_neg (by rintro rfl; rw [hi] at hj; cases hj)]
          exact hj
        · intro j c' hj
          rcases h2 j c' hj with hq | ⟨hq, k, t', rfl, h3⟩
          · split at hq
            · rename_i he
              subst he
              cases hq
              exact .inr ⟨hi, 0, t, rfl, rfl, hc⟩
            · exact .inl hq
          · rw [if_neg (by omega)] at hq
            exact .inr ⟨hq, k + 1, t', by omega, by simpa using h3⟩

/-- `appendAll`: up to the first tensor that is refused, each column takes its tensor; the others stay as they are. -/
theorem appendAll_exact : ∀ (data : List (Option Tensor)) (w : TrajWriter) (i : Nat),
    (∀ j c, w.chunkers.get? j = some c → ∃ rows, c.Used rows) → (∀ t, some t ∈ data → t.WF) →
    (∀ (j : Nat) t, data[j]? = some (some t) → ∃ c, w.chunkers.get? (i + j) = some c) →
    ∃ m' n, (w.appendAll i data).1 = { w with chunkers := m' } ∧ n ≤ data.length ∧
      (∀ j, j < i ∨ i + n ≤ j → m'.get? j = w.chunkers.get? j) ∧
      (∀ k, k < n → data[k]? = some none → m'.get? (i + k) = w.chunkers.get? (i + k)) ∧
      (∀ k t c, k < n → data[k]? = some (some t) → w.chunkers.get? (i + k) = some c →
        c.Fine t w.episode w.step ∧ m'.get? (i + k) = some (c.append t w.episode w.step).1) ∧
      ((n = data.length ∧ ∃ refs, (w.appendAll i data).2 = .ok refs) ∨
        ∃ t c code, data[n]? = some (some t) ∧ w.chunkers.get? (i + n) = some c ∧ ¬ c.Fine t w.episode w.step ∧
          (w.appendAll i data).2 = .err code ∧ Refusal code ∧ (t.dtype = c.dtype → t.shape = c.shape → code = .failedPrecondition))
  | [], w, i, _, _, _ => ⟨w.chunkers, 0, rfl, Nat.le_refl _, fun _ _ => rfl, by simp, by simp, .inl ⟨rfl, [], rfl⟩⟩
  | none :: data, w, i, hu, hwf, hall => by
    obtain ⟨m', n, h1, h2, h3, h4, h5, h6⟩ := appendAll_exact data w (i + 1) hu (fun t ht => hwf t (List.mem_cons_of_mem _ ht)) (fun j t hj => by
        have := hall (j + 1) t (by simpa using hj); rwa [show i + (j + 1) = i + 1 + j by omega] at this)
    have he1 : (w.appendAll i (none :: data)).1 = (w.appendAll (i + 1) data).1 := by
      rw [appendAll]; rcases w.appendAll (i + 1) data with ⟨w', _ | _ | _⟩ <;> rfl
    refine ⟨m', n + 1, he1.trans h1, by simp only [List.length_cons]; omega, fun j hj => ?_, fun k hk hd => ?_, fun k t c hk hd hc => ?_, ?_⟩
    · by_cases hji : j = i
      · exact h3 j (.inl (by omega))
      · exact h3 j (by omega)
    · cases k with
      | zero => exact h3 _ (.inl (by omega))
      | succ k =>
        have := h4 k (by omega) (by simpa using hd)
        rwa [show i + 1 + k = i + (k + 1) by omega] at this
    · cases k with
      | zero => simp at hd
      | succ k =>
        have := h5 k t c (by omega) (by simpa using hd) (by rwa [show i + 1 + k = i + (k + 1) by omega])
        rwa [show i + 1 + k = i + (k + 1) by omega] at this
    · rcases h6 with ⟨h6, refs, h7⟩ | ⟨t, c, code, a1, a2, a3, a4, a5⟩
      · refine .inl ⟨by simp [h6], none :: refs, ?_⟩
        rw [appendAll]
        rcases hx : w.appendAll (i + 1) data with ⟨w', _ | _ | _⟩ <;> rw [hx] at h7 <;> cases h7
        rfl
      · refine .inr ⟨t, c, code, by simpa using a1, by rwa [show i + (n + 1) = i + 1 + n by omega], a3, ?_, a5⟩
        rw [appendAll]
        rcases hx : w.appendAll (i + 1) data with ⟨w', _ | _ | _⟩ <;> rw [hx] at a4 <;> cases a4
        rfl
  | some t :: data, w, i, hu, hwf, hall => by
    obtain ⟨c, hci⟩ := hall 0 t rfl
    rw [Nat.add_zero] at hci
    obtain ⟨rows, hused⟩ := hu i c hci
    have htwf := hwf t List.mem_cons_self
    obtain ⟨f1, f2⟩ := hused.fine htwf (e := w.episode) (s := w.step)
    by_cases hfine : c.Fine t w.episode w.step
    · obtain ⟨c', hx, -, -, -, -, -⟩ := f1 hfine
      have hused' : ∃ rows, c'.Used rows := by
        have h1 := hused.step (op := .append t w.episode w.step) htwf
        have h2 := (append_step c t w.episode w.step).1
        rw [h2, hx] at h1
        exact ⟨_, h1.1⟩
      obtain ⟨m', n, h1, h2, h3, h4, h5, h6⟩ := appendAll_exact data { w with chunkers := w.chunkers.insert i c' } (i + 1)
        (by
          intro j d hj
          simp only [AMap.get?_insert] at hj
          split at hj
          · cases hj; exact hused'
          · exact hu j d hj)
        (fun t ht => hwf t (List.mem_cons_of_mem _ ht)) (fun j t hj => by
          obtain ⟨d, hd⟩ := hall (j + 1) t (by simpa using hj)
          refine ⟨d, ?_⟩
          simp only [AMap.get?_insert]
          rw [if_neg (by omega), show i + 1 + j = i + (j + 1) by omega]
          exact hd)
      have hother : ∀ j, j ≠ i → (w.chunkers.insert i c').get? j = w.chunkers.get? j := by
        intro j hj
        rw [AMap.get?_insert, if_neg hj]
      have he : w.appendAll i (some t :: data) = ((appendAll { w with chunkers := w.chunkers.insert i c' } (i + 1) data).1,
          match (appendAll { w with chunkers := w.chunkers.insert i c' } (i + 1) data).2 with
          | .ok refs => .ok (some ⟨i, c.cells.length⟩ :: refs)
          | .err e => .err e
          | .died => .died) := by
        rw [appendAll]
        simp only [hci, hx]
        rcases appendAll { w with chunkers := w.chunkers.insert i c' } (i + 1) data with ⟨w', _ | _ | _⟩ <;> rfl
      rw [he]
      refine ⟨m', n + 1, h1, by simp only [List.length_cons]; omega, fun j hj => ?_, fun k hk hd => ?_, fun k t' d hk hd hc => ?_, ?_⟩
      · have := h3 j (by omega)
        simp only at this
        rw [this, hother j (by omega)]
      · cases k with
        | zero => simp at hd
        | succ k =>
          have := h4 k (by omega) (by simpa using hd)
          simp only at this
          rw [show i + 1 + k = i + (k + 1) by omega, hother _ (by omega)] at this
          exact this
      · cases k with
        | zero =>
          simp only [List.getElem?_cons_zero, Option.some.injEq] at hd
          subst hd
          rw [Nat.add_zero, hci] at hc
          cases hc
          refine ⟨hfine, ?_⟩
          have := h3 i (.inl (by omega))
          simp only [AMap.get?_insert_self] at this
          rw [Nat.add_zero, this, hx]
        | succ k =>
          have := h5 k t' d (by omega) (by simpa using hd) (by
            simp only
            rw [show i + 1 + k = i + (k + 1) by omega, hother _ (by omega)]; exact hc)
          simp only at this
          rwa [show i + 1 + k = i + (k + 1) by omega] at this
      · rcases h6 with ⟨h6, refs, h7⟩ | ⟨t', d, code, a1, a2, a3, a4, a5⟩
        · exact .inl ⟨by simp [h6], _, by rw [h7]⟩
        · refine .inr ⟨t', d, code, by simpa using a1, ?_, a3, by rw [a4], a5⟩
          simp only at a2
          rw [show i + 1 + n = i + (n + 1) by omega, hother _ (by omega)] at a2
          exact a2
    · obtain ⟨code, hx, hcode⟩ := f2 hfine
      have he : w.appendAll i (some t :: data) = ({ w with chunkers := w.chunkers.insert i c }, .err code) := by
        rw [appendAll]
        simp only [hci, hx]
      rw [he]
      refine ⟨w.chunkers.insert i c, 0, rfl, by omega, fun j _ => ?_, by simp, by simp, .inr ⟨t, c, code, rfl, hci, hfine, rfl, hcode⟩⟩
      rw [AMap.get?_insert]
      split
      · rename_i h; rw [h, hci]
      · rfl

theorem typed_iff {w : TrajWriter} {i : Nat} {c : Chunker} (hc : w.chunkers.get? i = some c) (t : Tensor) :
    w.Typed i t ∧ ¬ w.Taken i ↔ c.Fine t w.episode w.step := by
  constructor
  · rintro ⟨h1, h2⟩
    obtain ⟨a, b⟩ := h1 c hc
    exact ⟨a, b, fun ⟨h3, x, h4, h5⟩ => h2 ⟨c, x, hc, h3, h4, h5⟩⟩
  · rintro ⟨h1, h2, h3⟩
    refine ⟨fun c' hc' => ?_, ?_⟩
    · rw [hc] at hc'; cases hc'; exact ⟨h1, h2⟩
    · rintro ⟨c', x, hc', h4, h5, h6⟩
      rw [hc] at hc'
      cases hc'
      exact h3 ⟨h4, x, h5, h6⟩

theorem typed_none {w : TrajWriter} {i : Nat} (hc : w.chunkers.get? i = none) (t : Tensor) : w.Typed i t ∧ ¬ w.Taken i :=
  ⟨fun c h => (by rw [hc] at h; cases h), fun ⟨c, x, h, _⟩ => (by rw [hc] at h; cases h)⟩

/-- The columns after the first `n` tensors were appended. -/
structure Took (w : TrajWriter) (data : List (Option Tensor)) (m : AMap Nat Chunker) (n : Nat) : Prop where
  fine : ∀ k t, k < n → data[k]? = some (some t) → w.Typed k t ∧ ¬ w.Taken k
  /-- The columns before it have got their tensors. -/
  before : ∀ k t, k < n → data[k]? = some (some t) → ∃ c', m.get? k = some c' ∧ c'.cells.length = w.count k + 1 ∧
    (∀ c, w.chunkers.get? k = some c → c'.dtype = c.dtype ∧ c'.shape = c.shape) ∧
    (w.chunkers.get? k = none → c'.dtype = t.dtype ∧ c'.shape = t.shape) ∧
    (c'.buffer ≠ [] → ∃ x, c'.active.getLast?.map c'.cellAt = some x ∧ x.episode = w.episode ∧ x.step = w.step) ∧
    (c'.opts.maxLen ≤ 1 → c'.buffer = [])
  same : ∀ k c, (n ≤ k ∨ ∀ t, data[k]? ≠ some (some t)) → w.chunkers.get? k = some c → m.get? k = some c
  fresh : ∀ k c, (n ≤ k ∨ ∀ t, data[k]? ≠ some (some t)) → m.get? k = some c → w.chunkers.get? k = some c ∨
    (w.chunkers.get? k = none ∧ c.buffer = [] ∧ c.cells = [] ∧ ∃ t, data[k]? = some (some t) ∧ c.dtype = t.dtype ∧ c.shape = t.shape)

/-- What a failed `Append` leaves behind. The `n`-th tensor is the first one that is refused. -/
structure Failed (w : TrajWriter) (data : List (Option Tensor)) (m : AMap Nat Chunker) (n : Nat) : Prop extends Took w data m n where
  bad : ∃ t, data[n]? = some (some t) ∧ ¬ (w.Typed n t ∧ ¬ w.Taken n)

/-- `Append` in all cases. -/
theorem append_exact {w : TrajWriter} {rows : Nat → List Row} (hb : w.Base rows) (hu : w.unrecoverable = none) {data : List (Option Tensor)}
    (hwf : ∀ t, some t ∈ data → t.WF) (inc : Bool) :
    (w.Acceptable data ∧ ∃ refs, (w.append data inc).2 = .ok refs ∧ ∃ m,
      (w.append data inc).1 = { w with
        chunkers := m
        step := if inc then w.step + 1 else w.step } ∧ Took w data m data.length) ∨
    (¬ w.Acceptable data ∧ ∃ m n code, w.append data inc = ({ w with chunkers := m }, .err code) ∧
      (Refusal code ∧ ∃ t, data[n]? = some (some t) ∧ (w.Typed n t → code = .failedPrecondition)) ∧ Failed w data m n) := by
  obtain ⟨m1, e1, e2, -, e4⟩ := addChunkers_ok hb.inj (data := data) (i := 0) rfl hb.opts hb.cols
  obtain ⟨g1, g2⟩ := addChunkers_exact data w _ 0 e1
  simp only at g1 g2
  obtain ⟨m', n, a1, a2, a3, a4, a5, a6⟩ := appendAll_exact data { w with chunkers := m1 } 0 (fun j c hj => ⟨_, (e2.used j c hj).1⟩) hwf
    (fun j t hj => by simpa using e4 j t hj)
  simp only [Nat.zero_add] at a1 a3 a4 a5 a6
  -- what the tensors meet in the columns
  have hfine : ∀ k t c, data[k]? = some (some t) → m1.get? k = some c → (c.Fine t w.episode w.step ↔ w.Typed k t ∧ ¬ w.Taken k) := by
    intro k t c hk hc
    rcases g2 k c hc with h | ⟨h, k', t', h1, h2, h3, h4, h5, -⟩
    · exact (typed_iff h t).symm
    · rw [Nat.zero_add] at h1
      subst h1
      rw [hk] at h2
      cases h2
      exact ⟨fun _ => typed_none h t, fun _ => ⟨h3.symm, h4.symm, fun h => h.1 h5⟩⟩
  have hcol : ∀ k t, data[k]? = some (some t) → ∃ c, m1.get? k = some c := fun k t hk => by simpa using e4 k t hk
  have htook : Took w data m' n := by
    refine ⟨fun k t hk hd => ?_, fun k t hk hd => ?_, fun k c hk hc => ?_, fun k c hk hc => ?_⟩
    · obtain ⟨c, hc⟩ := hcol k t hd
      exact (hfine k t c hd hc).mp (a5 k t c hk hd hc).1
    · obtain ⟨c, hc⟩ := hcol k t hd
      obtain ⟨f1, f2⟩ := a5 k t c hk hd hc
      have hwt : t.WF := hwf t (List.mem_of_getElem? hd)
      obtain ⟨c', x1, x2, x3, x4, x5, x6⟩ := ((e2.used k c hc).1.fine hwt).1 f1
      rw [x1] at f2
      refine ⟨c', f2, ?_, fun c0 h0 => ?_, fun h0 => ?_, x5, x6⟩
      · rw [x2]
        rcases g2 k c hc with h | ⟨h, k', t', h1, h2, h3, h4, h5, h6⟩
        · simp [count, h]
        · simp [count, h, h6]
      · rw [g1 k c0 h0] at hc
        cases hc
        exact ⟨x3, x4⟩
      · rcases g2 k c hc with h | ⟨h, k', t', h1, h2, h3, h4, h5, h6⟩
        · rw [h0] at h; cases h
        · rw [Nat.zero_add] at h1
          subst h1
          rw [hd] at h2
          cases h2
          exact ⟨x3.trans h3, x4.trans h4⟩
    · have : m'.get? k = m1.get? k := by
        by_cases hnk : n ≤ k
        · exact a3 k (.inr hnk)
        · have hk' : ∀ t, data[k]? ≠ some (some t) := hk.resolve_left hnk
          have hlt : k < data.length := by omega
          refine a4 k (by omega) ?_
          cases hd : data[k]? with
          | none => rw [List.getElem?_eq_getElem hlt] at hd; cases hd
          | some o =>
            cases o with
            | none => rfl
            | some t => exact absurd hd (hk' t)
      rw [this]
      exact g1 k c hc
    · have : m'.get? k = m1.get? k := by
        by_cases hnk : n ≤ k
        · exact a3 k (.inr hnk)
        · have hk' : ∀ t, data[k]? ≠ some (some t) := hk.resolve_left hnk
          have hlt : k < data.length := by omega
          refine a4 k (by omega) ?_
          cases hd : data[k]? with
          | none => rw [List.getElem?_eq_getElem hlt] at hd; cases hd
          | some o =>
            cases o with
            | none => rfl
            | some t => exact absurd hd (hk' t)
      rw [this] at hc
      rcases g2 k c hc with h | ⟨h, k', t', h1, h2, h3, h4, h5, h6⟩
      · exact .inl h
      · rw [Nat.zero_add] at h1
        subst h1
        exact .inr ⟨h, h5, h6, t', h2, h3, h4⟩
  rcases a6 with ⟨rfl, refs, h6⟩ | ⟨t, c, code, b1, b2, b3, b4, b5, b6⟩
  · refine .inl ⟨fun i t hi => ?_, refs, ?_⟩
    · obtain ⟨c, hc⟩ := hcol i t hi
      have hlt := (List.getElem?_eq_some_iff.mp hi).1
      exact (hfine i t c hi hc).mp (a5 i t c hlt hi hc).1
    · unfold append
      rw [hu]
      simp only [e1]
      rcases hx : appendAll { w with chunkers := m1 } 0 data with ⟨w', _ | _ | _⟩ <;> rw [hx] at h6 a1 <;> cases h6
      simp only at a1
      subst a1
      exact ⟨rfl, m', by simp [hu], htook⟩
  · refine .inr ⟨fun h => b3 ((hfine n t c b1 b2).mpr (h n t b1)), m', n, code, ?_, ⟨b5, t, b1, fun ht => ?_⟩, htook, t, b1,
      fun h => b3 ((hfine n t c b1 b2).mpr h)⟩
    · unfold append
      rw [hu]
      simp only [e1]
      rcases hx : appendAll { w with chunkers := m1 } 0 data with ⟨w', _ | _ | _⟩ <;> rw [hx] at b4 a1 <;> cases b4
      simp only at a1
      simp [a1, hu]
    · rcases g2 n c b2 with h | ⟨h, k', t', h1, h2, h3, h4, -⟩
      · exact b6 (ht c h).1 (ht c h).2
      · rw [Nat.zero_add] at h1
        subst h1
        rw [b1] at h2
        cases h2
        exact b6 h3.symm h4.symm

/-! ### Columns that are stuck -/

theorem onAll_rel {f : Nat → Chunker → Chunker × Res Unit} {R : Chunker → Chunker → Prop} (hr : ∀ c, R c c) (ht : ∀ a b c, R a b → R b c → R a c)
    (hf : ∀ i c, R c (f i c).1) : ∀ (is : List Nat) (m : AMap Nat Chunker) (i : Nat) (c : Chunker), m.get? i = some c →
    ∃ c', (onAll f is m).1.get? i = some c' ∧ R c c'
  | [], _, _, c, h => ⟨c, h, hr c⟩
  | j :: is, m, i, c, h => by
    unfold onAll
    cases hj : m.get? j with
    | none => exact onAll_rel hr ht hf is m i c h
    | some d =>
      have hins : ∃ c1, (m.insert j (f j d).1).get? i = some c1 ∧ R c c1 := by
        rw [AMap.get?_insert]
        split
        · rename_i he
          subst he
          rw [hj] at h
          cases h
          exact ⟨_, rfl, hf i _⟩
        · exact ⟨c, h, hr c⟩
      simp only
      rcases hx : f j d with ⟨d', _ | _ | _⟩ <;> rw [hx] at hins
      · obtain ⟨c1, h1, h2⟩ := hins
        obtain ⟨c2, h3, h4⟩ := onAll_rel hr ht hf is _ i c1 h1
        exact ⟨c2, h3, ht _ _ _ h2 h4⟩
      · exact hins
      · exact hins

theorem onAll_keep {f : Nat → Chunker → Chunker × Res Unit} {P : Chunker → Prop} (hf : ∀ i c c', f i c = (c', .ok ()) → P c') :
    ∀ (is : List Nat) (m m' : AMap Nat Chunker) (i : Nat), onAll f is m = (m', .ok ()) → (i ∈ is ∨ ∀ c, m.get? i = some c → P c) →
    ∀ c, m'.get? i = some c → P c
  | [], m, m', i, h, hi => by cases h; exact hi.resolve_left (by simp)
  | j :: is, m, m', i, h, hi => by
    unfold onAll at h
    cases hj : m.get? j with
    | none =>
      rw [hj] at h
      refine onAll_keep hf is m m' i h ?_
      rcases hi with hi | hi
      · rcases List.mem_cons.mp hi with rfl | hi
        · exact .inr fun c hc => by rw [hj] at hc; cases hc
        · exact .inl hi
      · exact .inr hi
    | some d =>
      rw [hj] at h
      simp only at h
      rcases hx : f j d with ⟨d', _ | _ | _⟩ <;> rw [hx] at h
      · refine onAll_keep hf is _ m' i h ?_
        have hP := hf j d d' hx
        rcases hi with hi | hi
        · rcases List.mem_cons.mp hi with rfl | hi
          · exact .inr fun c hc => by rw [AMap.get?_insert_self] at hc; cases hc; exact hP
          · exact .inl hi
        · refine .inr fun c hc => ?_
          rw [AMap.get?_insert] at hc
          split at hc
          · cases hc; exact hP
          · exact hi c hc
      · cases h
      · cases h

theorem Taken.of {w w' : TrajWriter} {i : Nat} (h : w.Taken i) (he : w'.episode = w.episode) (hs : w'.step = w.step)
    (hc : ∀ c, w.chunkers.get? i = some c → ∃ c', w'.chunkers.get? i = some c' ∧ c'.buffer = c.buffer ∧ c'.active = c.active ∧ c'.cells = c.cells) :
    w'.Taken i := by
  obtain ⟨c, x, h1, h2, h3, h4⟩ := h
  obtain ⟨c', k1, k2, k3, k4⟩ := hc c h1
  refine ⟨c', x, k1, by rw [k2]; exact h2, ?_, by rw [he, hs]; exact h4⟩
  have : c'.cellAt = c.cellAt := by funext j; simp [Chunker.cellAt, k4]
  rw [k3, this]
  exact h3

/-- A column that is stuck stays so while the caller goes on. -/
theorem Taken.handle {w : TrajWriter} {rows : Nat → List Row} (hb : w.Base rows) {i : Nat} (h : w.Taken i) {e : Event} (hv : e.Valid)
    (hg : e.GoesOn i) : (w.handle e).1.Taken i := by
  have same : ∀ c, w.chunkers.get? i = some c → ∃ c', w.chunkers.get? i = some c' ∧ c'.buffer = c.buffer ∧ c'.active = c.active ∧ c'.cells = c.cells :=
    fun c hc => ⟨c, hc, rfl, rfl, rfl⟩
  cases e with
  | append data inc =>
    obtain ⟨t, ht⟩ := hg
    simp only [TrajWriter.handle]
    cases hu : w.unrecoverable with
    | some c =>
      have : w.append data inc = (w, .err c) := by simp [append, hu]
      rw [this]
      exact h
    | none =>
      rcases append_exact hb hu hv inc with ⟨ha, -⟩ | ⟨-, m, n, code, e1, -, hF⟩
      · exact absurd h (ha i t ht).2
      · rw [e1]
        have hni : n ≤ i := Nat.le_of_not_lt fun hlt => (hF.fine i t hlt ht).2 h
        exact h.of rfl rfl fun c hc => ⟨c, hF.same i c (.inl hni) hc, rfl, rfl, rfl⟩
  | createItem t p cols =>
    simp only [TrajWriter.handle]
    rcases createItem_cases w t p cols with ⟨r, e1, -⟩ | ⟨r, e1, -⟩ | ⟨-, -, -, e1⟩ <;> rw [e1]
    · exact h
    · exact h.of rfl rfl same
    · exact h.of rfl rfl same
  | flushBegin k => cases hg
  | flushEnd k =>
    simp only [TrajWriter.handle]
    cases w.flushResult k <;> exact h
  | episodeBegin => cases hg
  | episodeEnd c => cases hg
  | configure col o =>
    simp only [TrajWriter.handle, configure]
    rcases o.validate with _ | _ | _
    · simp only
      cases hc : w.chunkers.get? col with
      | none => exact h.of rfl rfl same
      | some c =>
        refine h.of rfl rfl fun d hd => ?_
        simp only [AMap.get?_insert]
        split
        · rename_i he
          subst he
          obtain ⟨c1, x, h1, h2, -⟩ := h
          rw [hc] at h1 hd
          cases h1
          cases hd
          refine ⟨_, rfl, ?_⟩
          rw [Chunker.applyConfig, if_pos h2]
          exact ⟨rfl, rfl, rfl⟩
        · exact ⟨d, hd, rfl, rfl, rfl⟩
    · exact h
    · exact h
  | close => exact h.of rfl rfl same
  | worker inp =>
    simp only [TrajWriter.handle]
    obtain ⟨k1, k2⟩ := workerStep_clock w inp
    refine h.of k1 k2 fun c hc => ?_
    rcases (workerStep_frame w inp).2.2.2.2.2.2 with ⟨k3, -⟩ | ⟨it, -, k3⟩
    · rw [k3]; exact same c hc
    · rw [k3]
      refine onAll_rel (R := fun c c' => c'.buffer = c.buffer ∧ c'.active = c.active ∧ c'.cells = c.cells) (fun _ => ⟨rfl, rfl, rfl⟩)
        (fun a b c h h' => ⟨h'.1.trans h.1, h'.2.1.trans h.2.1, h'.2.2.trans h.2.2⟩) ?_ _ _ _ _ hc
      intro j d
      unfold finalizeOne Chunker.itemFinalized
      split
      · exact ⟨rfl, rfl, rfl⟩
      · split
        · exact ⟨rfl, rfl, rfl⟩
        · split <;> exact ⟨rfl, rfl, rfl⟩
  | confirm keys => exact h.of rfl rfl same

end TrajWriter
end Verif
