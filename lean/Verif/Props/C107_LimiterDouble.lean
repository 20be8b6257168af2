import Verif.Proofs.DLimiter
/-
C107: the rate limiter in the arithmetic of `double`.
-/
namespace Verif
open Py (DBuffer Buffer dSampleToInsertRatio sampleToInsertRatio dMinSize dQueue)

/-- C107: with a ratio of few digits (1.5 with `e = -1`, an integer with `e = 0`), and as long as the counters are not astronomical, the decisions
are those of exact arithmetic. -/
theorem C107_exact (d : DLimiter) (l : Limiter) (h : d.Is l) (m : Nat) (e : Int) (he : -1021 ≤ e) (he' : e ≤ 0) (hs : l.spi = m * pow2 e)
    (hi : 0 ≤ l.inserts) (hi' : l.inserts < 2 ^ 53) (hsm : 0 ≤ l.samples) (small : volume l.spi l.inserts l.samples ≤ 2 ^ 52 * pow2 e) :
    d.canSample 1 = l.canSample 1 ∧ d.canInsert 1 = l.canInsert 1 := by
  obtain ⟨h1, h2⟩ := DLimiter.diffs_exact h he he' hs hi hi' hsm small
  have e1 : ((1 : Int) : Rat) = 1 := rfl
  constructor
  · unfold DLimiter.canSample Limiter.canSample
    rw [h1, h.inserts, h.deletes, h.minSize, h.minDiff, e1]
    rfl
  · unfold DLimiter.canInsert Limiter.canInsert
    rw [h2, h.inserts, h.deletes, h.minSize, h.maxDiff]
    rfl

/-- C107: for any ratio, what is granted and what is refused is right up to the rounding of the quantities involved. -/
theorem C107_error (d : DLimiter) (l : Limiter) (h : d.Is l) (hs : 0 ≤ l.spi) (hs' : l.spi ≤ pow2 900) (hi : 0 ≤ l.inserts)
    (hi' : l.inserts < 2 ^ 53) (hsm : 0 ≤ l.samples) (hsm' : l.samples ≤ 2 ^ 53) :
    (d.canSample 1 = true → l.minSize ≤ l.inserts - l.deletes ∧
      l.minDiff - volume l.spi l.inserts l.samples / 2 ^ 51 ≤ l.inserts * l.spi - l.samples - 1) ∧
    (d.canSample 1 = false → l.inserts - l.deletes < l.minSize ∨
      l.inserts * l.spi - l.samples - 1 < l.minDiff + volume l.spi l.inserts l.samples / 2 ^ 51) ∧
    (d.canInsert 1 = true → l.inserts + 1 - l.deletes ≤ l.minSize ∨
      ((1 + l.inserts : Int) : Rat) * l.spi - l.samples ≤ l.maxDiff + volume l.spi l.inserts l.samples / 2 ^ 51) ∧
    (d.canInsert 1 = false → l.minSize < l.inserts + 1 - l.deletes ∧
      l.maxDiff - volume l.spi l.inserts l.samples / 2 ^ 51 < ((1 + l.inserts : Int) : Rat) * l.spi - l.samples) := by
  obtain ⟨⟨r, h1, h2, h3⟩, q, h4, h5, h6⟩ := DLimiter.diffs_error h hs hs' hi hi' hsm hsm'
  have c1 : d.canSample 1 = if l.inserts - l.deletes < l.minSize then false else decide (l.minDiff ≤ r) := by
    unfold DLimiter.canSample
    rw [h1, h.inserts, h.deletes, h.minSize, h.minDiff]
    rfl
  have c2 : d.canInsert 1 = if l.inserts + 1 - l.deletes ≤ l.minSize then true else decide (q ≤ l.maxDiff) := by
    unfold DLimiter.canInsert
    rw [h4, h.inserts, h.deletes, h.minSize, h.maxDiff]
    rfl
  rw [c1, c2]
  generalize volume l.spi l.inserts l.samples / 2 ^ 51 = E at *
  generalize ((1 + l.inserts : Int) : Rat) * l.spi - l.samples = X at *
  generalize (l.inserts : Rat) * l.spi - l.samples - 1 = Y at *
  refine ⟨?_, ?_, ?_, ?_⟩
  · split
    · intro hc; cases hc
    · intro hc
      have := of_decide_eq_true hc
      exact ⟨by omega, by grind⟩
  · split
    · intro _; left; assumption
    · intro hc
      have := of_decide_eq_false hc
      exact .inr (by grind)
  · split
    · intro _; left; assumption
    · intro hc
      have := of_decide_eq_true hc
      exact .inr (by grind)
  · split
    · intro hc; cases hc
    · intro hc
      have := of_decide_eq_false hc
      exact ⟨by omega, by grind⟩

namespace C107

theorem Digits.grid {e : Int} {q : Rat} (h : Digits e q) : Grid e q := by
  obtain ⟨z, _, _, hz⟩ := h
  exact ⟨z, hz⟩

theorem Digits.le {e : Int} {q : Rat} (h : Digits e q) : -pow2 (e + 51) ≤ q ∧ q ≤ pow2 (e + 51) := by
  obtain ⟨z, h1, h2, rfl⟩ := h
  have hp := Rat.le_of_lt (pow2_pos e)
  have e1 : pow2 (e + 51) = ((2 ^ 51 : Int) : Rat) * pow2 e := by
    rw [Int.add_comm, pow2_add]
    congr 1
  have a1 := Rat.mul_le_mul_of_nonneg_right (Rat.intCast_le_intCast.mpr h1) hp
  have a2 := Rat.mul_le_mul_of_nonneg_right (Rat.intCast_le_intCast.mpr h2) hp
  rw [e1]
  refine ⟨?_, a2⟩
  have e2 : ((-2 ^ 51 : Int) : Rat) = -((2 ^ 51 : Int) : Rat) := by decide +kernel
  rw [e2] at a1
  generalize ((2 ^ 51 : Int) : Rat) = x at *
  grind

end C107

/-- C107: the constructor, with arguments of few digits, accepts and rejects what it would in exact arithmetic, and makes the same limiter. -/
theorem C107_constructor (s : Rat) (n : Int) (db : DBuffer) (b : Buffer) (hb : DBufferIs db b) (e : Int) (he : -51 ≤ e) (he' : e ≤ 0)
    (hn : -2 ^ 53 ≤ n) (hn' : n ≤ 2 ^ 53) (hs : Digits e s) (hsn : Digits e (s * n))
    (hbuf : match b with
      | .number b => Digits e b
      | .range lo hi => Digits e lo ∧ Digits e hi) :
    (dSampleToInsertRatio (.fin s) n db = none ∧ sampleToInsertRatio s n b = none) ∨
    ∃ d l, dSampleToInsertRatio (.fin s) n db = some d ∧ sampleToInsertRatio s n b = some l ∧ d.Is l := by
  have hl : -1074 ≤ e := by omega
  have hh : e ≤ 970 := by omega
  have hp51 := pow2_pos (e + 51)
  have h52 : pow2 (e + 53) = 4 * pow2 (e + 51) := by
    have h1 := DPrio.pow53 e
    have h2 := pow2_succ (e + 51)
    rw [show e + 51 + 1 = e + 52 by omega] at h2
    grind
  have o1 : Dbl.ofInt n = .fin n := Dbl.ofInt_exact hn hn'
  have b1 := C107.Digits.le hsn
  have b2 := C107.Digits.le hs
  have m1 : (Dbl.fin s).mul (Dbl.ofInt n) = .fin (s * n) := by
    rw [o1]
    exact (C107.Digits.grid hsn).round hl hh (by grind) (by grind)
  have hr : ∃ lo hi, db.range? (.fin s) n = (.fin lo, .fin hi) ∧ b.range? s n = (lo, hi) ∧ Grid e lo ∧ Grid e hi ∧
      -(2 * pow2 (e + 51)) ≤ lo ∧ lo ≤ 2 * pow2 (e + 51) ∧ -(2 * pow2 (e + 51)) ≤ hi ∧ hi ≤ 2 * pow2 (e + 51) := by
    cases hb with
    | number x =>
      have b3 := C107.Digits.le hbuf
      have g1 := (C107.Digits.grid hsn).sub (C107.Digits.grid hbuf)
      have g2 := (C107.Digits.grid hsn).add (C107.Digits.grid hbuf)
      refine ⟨s * n - x, s * n + x, ?_, rfl, g1, g2, by grind, by grind, by grind, by grind⟩
      simp only [DBuffer.range?, m1]
      rw [Grid.subD g1 hl hh (by grind) (by grind), Grid.addD g2 hl hh (by grind) (by grind)]
    | range lo hi =>
      have b3 := C107.Digits.le hbuf.1
      have b4 := C107.Digits.le hbuf.2
      exact ⟨lo, hi, rfl, rfl, C107.Digits.grid hbuf.1, C107.Digits.grid hbuf.2, by grind, by grind, by grind, by grind⟩
  obtain ⟨lo, hi, r1, r2, g1, g2, c1, c2, c3, c4⟩ := hr
  have hsub : (Dbl.fin hi).sub (.fin lo) = .fin (hi - lo) := Grid.subD (g2.sub g1) hl hh (by grind) (by grind)
  have hone : 1 ≤ pow2 (e + 51) := by
    have := pow2_mono (a := 0) (b := e + 51) (by omega)
    rwa [pow2_zero] at this
  have hmax : (Dbl.fin 2).mul (Py.maxOne (.fin s)) = .fin (2 * (if s ≤ 1 then 1 else s)) := by
    have g1' : Grid e (1 : Rat) := by
      have := DLimiter.grid_int he' 1
      exact this
    have twice : ∀ x, Grid e x → Grid e (2 * x) := by
      intro x hx
      have := hx.add hx
      rwa [show x + x = 2 * x by grind] at this
    unfold Py.maxOne Dbl.lt
    by_cases hs1 : s ≤ 1
    · rw [if_pos hs1, if_neg (by simp only [decide_eq_true_eq]; grind)]
      exact (twice 1 g1').round hl hh (by grind) (by grind)
    · rw [if_neg hs1, if_pos (by simp only [decide_eq_true_eq]; grind)]
      exact (twice s (C107.Digits.grid hs)).round hl hh (by grind) (by grind)
  unfold dSampleToInsertRatio sampleToInsertRatio
  simp only [r1, r2, hsub, hmax, m1, Dbl.lt, decide_eq_true_eq]
  generalize (2 * (if s ≤ 1 then 1 else s) : Rat) = X
  split
  · exact .inl ⟨rfl, rfl⟩
  · split
    · exact .inl ⟨rfl, rfl⟩
    · split
      · exact .inl ⟨rfl, rfl⟩
      · exact .inr ⟨_, _, rfl, rfl, ⟨rfl, rfl, rfl, rfl, rfl, rfl, rfl⟩⟩

/-- C107: with arguments of few digits, an accepted limiter never blocks inserts and samples at the same time. -/
theorem C107_never_both_digits (m : Nat) (n : Int) (db : DBuffer) (b : Buffer) (hb : DBufferIs db b) (e : Int) (he : -51 ≤ e) (he' : e ≤ 0)
    (hn : -2 ^ 53 ≤ n) (hn' : n ≤ 2 ^ 53) (hs : Digits e (m * pow2 e)) (hsn : Digits e (m * pow2 e * n))
    (hbuf : match b with
      | .number b => Digits e b
      | .range lo hi => Digits e lo ∧ Digits e hi)
    (d : DLimiter) (hd : dSampleToInsertRatio (.fin (m * pow2 e)) n db = some d) (ins smp del : Int) (hi : 0 ≤ ins) (hi' : ins < 2 ^ 53) (hsm : 0 ≤ smp)
    (small : volume (m * pow2 e) ins smp ≤ 2 ^ 52 * pow2 e) : ¬ (d.atCounts ins smp del).Stuck := by
  rcases C107_constructor _ n db b hb e he he' hn hn' hs hsn hbuf with ⟨h1, _⟩ | ⟨d', l, h1, h2, h3⟩
  · rw [h1] at hd; cases hd
  · rw [h1] at hd
    cases hd
    have hl := (ratio_accepted h2).2
    have his : (d.atCounts ins smp del).Is (l.atCounts ins smp del) := ⟨h3.spi, h3.minDiff, h3.maxDiff, h3.minSize, rfl, rfl, rfl⟩
    have hsp : (l.atCounts ins smp del).spi = m * pow2 e := by rw [hl]; rfl
    obtain ⟨c1, c2⟩ := C107_exact _ _ his m e (by omega) he' hsp hi hi' hsm (by rw [hsp]; exact small)
    have := C09_ratio_never_stuck _ n b l h2 ins smp del
    unfold Limiter.Stuck at this
    unfold DLimiter.Stuck
    rw [c1, c2]
    exact this

/-- C107: for any ratio other than 1, an accepted limiter never blocks inserts and samples at the same time while the quantities involved are below
2^49 times the distance of the ratio from 1. -/
theorem C107_never_both (s lo hi : Rat) (n : Int) (db : DBuffer) (d : DLimiter) (hd : dSampleToInsertRatio (.fin s) n db = some d)
    (hlo : d.minDiff = .fin lo) (hhi : d.maxDiff = .fin hi) (hs : 0 ≤ s) (hs' : s ≤ pow2 900) (hr1 : -pow2 900 ≤ hi - lo) (hr2 : hi - lo ≤ pow2 900)
    (ins smp del : Int) (hi0 : 0 ≤ ins) (hi' : ins < 2 ^ 53) (hsm : 0 ≤ smp) (hsm' : smp ≤ 2 ^ 53)
    (small : volume s ins smp / 2 ^ 49 < (if s ≤ 1 then 1 - s else s - 1)) : ¬ (d.atCounts ins smp del).Stuck := by
  unfold dSampleToInsertRatio at hd
  simp only at hd
  split at hd
  · cases hd
  rename_i hacc
  split at hd
  · cases hd
  split at hd
  · cases hd
  cases hd
  simp only at hlo hhi
  rw [hlo, hhi, Dbl.sub_fin] at hacc
  rintro ⟨st1, st2⟩
  let l : Limiter := ⟨s, n, lo, hi, ins, smp, del, false⟩
  have his : (DLimiter.atCounts ⟨.fin s, n, (db.range? (.fin s) n).1, (db.range? (.fin s) n).2, 0, 0, 0⟩ ins smp del).Is l :=
    ⟨rfl, hlo, hhi, rfl, rfl, rfl, rfl⟩
  obtain ⟨_, t2, _, t4⟩ := C107_error _ l his hs hs' hi0 hi' hsm hsm'
  obtain ⟨u1, u2⟩ := t4 st1
  have u3 := t2 st2
  have u3 : (ins : Rat) * s - smp - 1 < lo + volume s ins smp / 2 ^ 51 := by
    rcases u3 with u3 | u3
    · simp only [l] at u1 u3
      omega
    · exact u3
  have u2 : hi - volume s ins smp / 2 ^ 51 < ((1 + ins : Int) : Rat) * s - smp := u2
  have hadd : ((1 + ins : Int) : Rat) * s = ins * s + s := by
    rw [Rat.intCast_add]
    have : ((1 : Int) : Rat) = 1 := rfl
    rw [this]
    grind
  rw [hadd] at u2
  -- the test of the constructor
  have p1 : pow2 (-53) = 1 / 2 ^ 53 := by decide +kernel
  have p2 : pow2 (-1075) ≤ 1 / 2 ^ 200 := by decide +kernel
  have p3 := pow2_pos (-1075)
  have hk : pow2 900 + pow2 900 + 4 ≤ pow2 1000 := by decide +kernel
  have hmx : Py.maxOne (.fin s) = .fin (if s ≤ 1 then 1 else s) := by
    unfold Py.maxOne Dbl.lt
    by_cases hs1 : s ≤ 1
    · rw [if_pos hs1, if_neg (by simp only [decide_eq_true_eq]; grind)]
    · rw [if_neg hs1, if_pos (by simp only [decide_eq_true_eq]; grind)]
  have hX : (if s ≤ 1 then 1 else s : Rat) ≤ pow2 900 + 1 ∧ 1 ≤ (if s ≤ 1 then 1 else s : Rat) ∧ (if s ≤ 1 then 1 else s : Rat) ≤ s + 1 ∧
      (if s ≤ 1 then 1 - s else s - 1 : Rat) = 2 * (if s ≤ 1 then 1 else s) - s - 1 := by
    have := pow2_pos 900
    generalize pow2 900 = y at *
    split <;> grind
  obtain ⟨x1, x2, x3, x4⟩ := hX
  rw [x4] at small
  rw [hmx] at hacc
  have hm2 : (Dbl.fin 2).mul (.fin (if s ≤ 1 then 1 else s)) = Dbl.round (2 * (if s ≤ 1 then 1 else s)) := rfl
  rw [hm2] at hacc
  generalize (if s ≤ 1 then 1 else s : Rat) = X at *
  have hv : s + 1 ≤ volume s ins smp := by
    have e : volume s ins smp = ins * s + s + smp + 1 := by
      unfold volume
      rw [Int.add_comm, hadd]
    have hI : (0 : Rat) ≤ (ins : Rat) := by exact_mod_cast hi0
    have hS : (0 : Rat) ≤ (smp : Rat) := by exact_mod_cast hsm
    have := Rat.mul_nonneg hI hs
    rw [e]
    grind
  generalize volume s ins smp = M at *
  generalize (ins : Rat) * s = P at *
  have hD : hi - lo < s + 1 + M / 2 ^ 50 := by grind
  obtain ⟨r1, a1, a2, a3⟩ := Dbl.round_error (q := 2 * X) (B := 2 * X) (by grind) (by grind) (by
    generalize pow2 900 = y at *
    generalize pow2 1000 = z at *
    grind)
  rw [p1] at a2 a3
  rw [a1] at hacc
  by_cases hneg : hi - lo < 0
  · obtain ⟨r2, b1, b2, b3⟩ := Dbl.round_error (q := hi - lo) (B := pow2 900) hr1 hr2 (by
      have := pow2_pos 900
      generalize pow2 900 = y at *
      generalize pow2 1000 = z at *
      grind)
    -- rounding keeps the sign
    have hsg : (Dbl.round (lo - hi)).Nonneg := Dbl.round_nonneg (by grind)
    have e1 : Dbl.round (hi - lo) = (Dbl.round (lo - hi)).neg := by
      rw [← Dbl.round_neg, show -(lo - hi) = hi - lo by grind]
    rw [b1] at hacc e1
    have hr0 : r2 ≤ 0 := by
      cases hc : Dbl.round (lo - hi) with
      | fin x =>
        rw [hc] at e1 hsg
        cases e1
        have : (0 : Rat) ≤ x := hsg
        grind
      | _ => rw [hc] at e1; cases e1
    simp only [Dbl.lt, decide_eq_true_eq] at hacc
    grind
  · obtain ⟨r2, b1, b2, b3⟩ := Dbl.round_error (q := hi - lo) (B := s + 1 + M / 2 ^ 50) (by grind) (by grind) (by
      have : M / 2 ^ 49 < pow2 900 + pow2 900 + 2 := by
        have := pow2_pos 900
        generalize pow2 900 = y at *
        grind
      generalize pow2 900 = y at *
      generalize pow2 1000 = z at *
      grind)
    rw [p1] at b2 b3
    rw [b1] at hacc
    simp only [Dbl.lt, decide_eq_true_eq] at hacc
    grind

/-- C107, `MinSize`: whatever the counters, inserts are allowed, and samples from `min_size_to_sample` items on. -/
theorem C107_minSize (n : Int) (d : DLimiter) (hd : dMinSize n = some d) (ins smp del : Int) (h1 : -2 ^ 62 ≤ ins) (h2 : ins ≤ 2 ^ 62)
    (h3 : -2 ^ 62 ≤ smp) (h4 : smp ≤ 2 ^ 62) :
    (d.atCounts ins smp del).canInsert 1 = true ∧ ((d.atCounts ins smp del).canSample 1 = true ↔ n ≤ ins - del) := by
  have p1 : pow2 (-53) = 1 / 2 ^ 53 := by decide +kernel
  have p2 : pow2 (-1075) ≤ 1 / 2 ^ 200 := by decide +kernel
  have p3 := pow2_pos (-1075)
  have big : (2 : Rat) ^ 80 ≤ pow2 1000 := by decide +kernel
  have conv : ∀ z : Int, -2 ^ 63 ≤ z → z ≤ 2 ^ 63 → ∃ r, Dbl.ofInt z = .fin r ∧ -2 ^ 64 ≤ r ∧ r ≤ 2 ^ 64 := by
    intro z z1 z2
    have c1 : ((-2 ^ 63 : Int) : Rat) ≤ (z : Rat) := Rat.intCast_le_intCast.mpr z1
    have c2 : (z : Rat) ≤ ((2 ^ 63 : Int) : Rat) := Rat.intCast_le_intCast.mpr z2
    have c3 : ((-2 ^ 63 : Int) : Rat) = -2 ^ 63 := by decide +kernel
    have c4 : ((2 ^ 63 : Int) : Rat) = 2 ^ 63 := by decide +kernel
    rw [c3] at c1
    rw [c4] at c2
    obtain ⟨r, e1, e2, e3⟩ := Dbl.round_error (q := (z : Rat)) (B := 2 ^ 63) (by grind) (by grind) (by grind)
    rw [p1] at e2 e3
    exact ⟨r, e1, by grind, by grind⟩
  have rnd : ∀ q : Rat, -2 ^ 70 ≤ q → q ≤ 2 ^ 70 → ∃ r, Dbl.round q = .fin r ∧ r - q ≤ 2 ^ 20 ∧ q - r ≤ 2 ^ 20 := by
    intro q z1 z2
    obtain ⟨r, e1, e2, e3⟩ := Dbl.round_error (q := q) (B := 2 ^ 70) (by grind) (by grind) (by grind)
    rw [p1] at e2 e3
    exact ⟨r, e1, by grind, by grind⟩
  have fm : (2 : Rat) ^ 80 ≤ (2 ^ 53 - 1) * pow2 971 := by decide +kernel
  unfold dMinSize at hd
  split at hd
  · cases hd
  cases hd
  obtain ⟨i, i1, i2, i3⟩ := conv ins (by omega) (by omega)
  obtain ⟨j, j1, j2, j3⟩ := conv smp (by omega) (by omega)
  obtain ⟨k, k1, k2, k3⟩ := conv (1 + ins) (by omega) (by omega)
  have o4 : Dbl.ofInt 1 = .fin 1 := by rw [Dbl.ofInt_exact (by omega) (by omega)]; rfl
  constructor
  · unfold DLimiter.canInsert
    split
    · rfl
    · show (((Dbl.ofInt (1 + ins)).mul (.fin 1)).sub (Dbl.ofInt smp)).le (.fin ((2 ^ 53 - 1) * pow2 971)) = true
      rw [k1, j1]
      obtain ⟨a, a1, a2, a3⟩ := rnd (k * 1) (by grind) (by grind)
      have : (Dbl.fin k).mul (.fin 1) = .fin a := a1
      rw [this, Dbl.sub_fin]
      obtain ⟨b, b1, b2, b3⟩ := rnd (a - j) (by grind) (by grind)
      rw [b1]
      simp only [Dbl.le, decide_eq_true_eq]
      grind
  · have hle : ((((Dbl.ofInt ins).mul (.fin 1)).sub (Dbl.ofInt smp)).sub (Dbl.ofInt 1)) ≠ .nan ∧
        ((Dbl.fin ((2 ^ 53 - 1) * pow2 971)).neg).le ((((Dbl.ofInt ins).mul (.fin 1)).sub (Dbl.ofInt smp)).sub (Dbl.ofInt 1)) = true := by
      rw [i1, j1, o4]
      obtain ⟨a, a1, a2, a3⟩ := rnd (i * 1) (by grind) (by grind)
      have : (Dbl.fin i).mul (.fin 1) = .fin a := a1
      rw [this, Dbl.sub_fin]
      obtain ⟨b, b1, b2, b3⟩ := rnd (a - j) (by grind) (by grind)
      rw [b1, Dbl.sub_fin]
      obtain ⟨c, c1, c2, c3⟩ := rnd (b - 1) (by grind) (by grind)
      rw [c1]
      refine ⟨by simp, ?_⟩
      simp only [Dbl.neg, Dbl.le, decide_eq_true_eq]
      grind
    unfold DLimiter.canSample
    show (if ins - del < n then false else _) = true ↔ _
    by_cases hc : ins - del < n
    · rw [if_pos hc]
      constructor
      · intro h; cases h
      · intro h; omega
    · rw [if_neg hc]
      constructor
      · intro _; omega
      · intro _; exact hle.2

/-- C107, `Queue` and `Stack`: the decisions are those of exact arithmetic for counters below 2^51. -/
theorem C107_queue (size : Int) (h0 : -2 ^ 53 ≤ size) (h1 : size ≤ 2 ^ 53) (ins smp del : Int) (hi : 0 ≤ ins) (hi' : ins < 2 ^ 51) (hs : 0 ≤ smp)
    (hs' : smp < 2 ^ 51) : ∃ l, Py.queue size = some l ∧
      ((dQueue size).atCounts ins smp del).canSample 1 = (l.atCounts ins smp del).canSample 1 ∧
      ((dQueue size).atCounts ins smp del).canInsert 1 = (l.atCounts ins smp del).canInsert 1 := by
  refine ⟨_, rfl, ?_⟩
  refine C107_exact _ _ ⟨rfl, rfl, ?_, rfl, rfl, rfl, rfl⟩ 1 0 (by omega) (by omega) (by
    show (1 : Rat) = ((1 : Nat) : Rat) * pow2 0
    decide +kernel) hi (by show ins < _; omega) hs ?_
  · show Dbl.ofInt size = _
    exact Dbl.ofInt_exact h0 h1
  · show volume 1 ins smp ≤ _
    unfold volume
    rw [pow2_zero, Rat.mul_one, Rat.mul_one]
    have : ((ins + 1 : Int) : Rat) + smp + 1 = ((ins + 1 + smp + 1 : Int) : Rat) := by
      simp only [Rat.intCast_add]
      rfl
    rw [this]
    have e : (2 : Rat) ^ 52 = ((2 ^ 52 : Int) : Rat) := by decide +kernel
    rw [e]
    exact Rat.intCast_le_intCast.mpr (by omega)

namespace LimiterDoubleBad

/-- C107, disagreement: NaN is accepted as the ratio, whatever the other arguments, and once there are enough items both inserts and samples wait,
for ever. -/
theorem C107_nan_ratio_false (n : Int) (hn : 1 ≤ n) (b : Dbl) : ∃ d, dSampleToInsertRatio .nan n (.number b) = some d ∧
    ∀ ins smp del : Int, n ≤ ins - del → (d.atCounts ins smp del).Stuck := by
  refine ⟨⟨.nan, n, .nan, .nan, 0, 0, 0⟩, ?_, ?_⟩
  · have h1 : (DBuffer.number b).range? .nan n = (.nan, .nan) := by
      cases b <;> rfl
    unfold dSampleToInsertRatio
    simp only [h1]
    rw [if_neg (by decide), if_neg (by cases Dbl.ofInt n <;> simp [Dbl.mul, Dbl.lt]), if_neg (by omega)]
  · intro ins smp del h
    constructor
    · unfold DLimiter.canInsert
      rw [if_neg (by show ¬ ins + 1 - del ≤ n; omega)]
      show Dbl.le _ .nan = false
      cases DLimiter.insertDiff _ 1 <;> rfl
    · unfold DLimiter.canSample
      split
      · rfl
      · rfl

/-- The double that is written 1.001. -/
def ratio : Dbl := Dbl.round (1001 / 1000)

/-- C107, disagreement: a limiter that the constructor accepts blocks inserts and samples at the same time when the counters have grown to some
2 * 10^13. In exact arithmetic this does not happen (C09). -/
theorem C107_rounding_false : ∃ d, dSampleToInsertRatio ratio 2 (.number ratio) = some d ∧
    (d.atCounts 21904577060004 21926481637062 0).Stuck := by
  refine ⟨⟨ratio, 2, Dbl.round (1001 / 1000), Dbl.round (3003 / 1000) |>.sub (.fin (pow2 (-51))), 0, 0, 0⟩, ?_, ?_, ?_⟩
  · decide +kernel
  · decide +kernel
  · decide +kernel

end LimiterDoubleBad

namespace LimiterDoubleDemo

/-- A ratio of 1.5 from 10 items on, with an error buffer of 3, is accepted. -/
def limiter : DLimiter := ⟨.fin (3 / 2), 10, .fin 12, .fin 18, 0, 0, 0⟩

theorem accepted : dSampleToInsertRatio (.fin (3 / 2)) 10 (.number (.fin 3)) = some limiter := by decide +kernel

/-- It meets the hypotheses of `C107_never_both_digits` with `m = 3` and `e = -1`: a billion inserts and samples. -/
theorem applies : Digits (-1) ((3 : Nat) * pow2 (-1)) ∧ Digits (-1) ((3 : Nat) * pow2 (-1) * ((10 : Int) : Rat)) ∧ Digits (-1) 3 ∧
    volume ((3 : Nat) * pow2 (-1)) 1000000000 1500000000 ≤ 2 ^ 52 * pow2 (-1) :=
  ⟨⟨3, by decide +kernel⟩, ⟨30, by decide +kernel⟩, ⟨6, by decide +kernel⟩, by decide +kernel⟩

/-- One side waits while the other may go on. -/
theorem one_side : (limiter.atCounts 12 0 0).canInsert 1 = false ∧ (limiter.atCounts 12 0 0).canSample 1 = true ∧
    (limiter.atCounts 12 6 0).canInsert 1 = true ∧ (limiter.atCounts 12 6 0).canSample 1 = false := by decide +kernel

/-- A ratio of 1.1 is not of few digits; the hypotheses of `C107_never_both` hold for a billion inserts and samples. -/
theorem applies_general : ∃ d s lo hi, Dbl.round (11 / 10) = .fin s ∧ dSampleToInsertRatio (.fin s) 10 (.number (.fin 3)) = some d ∧
    d.minDiff = .fin lo ∧ d.maxDiff = .fin hi ∧ volume s 1000000000 1100000000 / 2 ^ 49 < (if s ≤ 1 then 1 - s else s - 1) := by
  refine ⟨⟨.fin (2476979795053773 / 2 ^ 51), 10, .fin 8, .fin 14, 0, 0, 0⟩, 2476979795053773 / 2 ^ 51, 8, 14, ?_, ?_, rfl, rfl, ?_⟩ <;>
    decide +kernel

end LimiterDoubleDemo

end Verif
