import Verif.Spec.DLimiter
import Verif.Proofs.DPrioExact
import Verif.Props.C09_NoDeadlock
/-
Lemmas for C107.
-/
namespace Verif

namespace Dbl

/-- Rounding of a positive number: the relative error. -/
theorem roundPos_error {a : Rat} (ha : 0 < a) (hb : a ≤ pow2 1000) :
    ∃ r, roundPos a = .fin r ∧ r - a ≤ a * pow2 (-53) + pow2 (-1075) ∧ a - r ≤ a * pow2 (-53) + pow2 (-1075) := by
  obtain ⟨h1, h2⟩ := near a
  have hu : ulp a / 2 ≤ a * pow2 (-53) + pow2 (-1075) := by
    have hl := (lg_spec ha).1
    have hp := pow2_pos (-53)
    have ht := pow2_pos (-1075)
    have hap : 0 ≤ a * pow2 (-53) := Rat.mul_nonneg (Rat.le_of_lt ha) (Rat.le_of_lt hp)
    have half : ∀ k : Int, pow2 k / 2 = pow2 (k - 1) := by
      intro k
      have := pow2_succ (k - 1)
      rw [show k - 1 + 1 = k by omega] at this
      grind
    unfold ulp
    rw [half]
    by_cases hc : -1022 ≤ lg a
    · have e : max (lg a) (-1022) - 52 - 1 = lg a + -53 := by omega
      rw [e, pow2_add]
      have := Rat.mul_le_mul_of_nonneg_right hl (Rat.le_of_lt hp)
      grind
    · have e : max (lg a) (-1022) - 52 - 1 = -1075 := by omega
      rw [e]
      grind
  refine ⟨(nearest (a / ulp a) : Rat) * ulp a, ?_, Rat.le_trans h1 hu, Rat.le_trans h2 hu⟩
  unfold roundPos
  rw [if_pos]
  have h3 : pow2 (-53) ≤ 1 := by decide +kernel
  have h4 : a * pow2 (-53) ≤ a := by
    have := Rat.mul_le_mul_of_nonneg_left h3 (Rat.le_of_lt ha)
    grind
  have h5 : pow2 1000 + pow2 1000 + pow2 (-1075) < pow2 1024 := by decide +kernel
  generalize pow2 1024 = x at *
  generalize pow2 1000 = y at *
  grind

/-- Rounding: the error, for a number between bounds. -/
theorem round_error {q B : Rat} (h1 : -B ≤ q) (h2 : q ≤ B) (hB : B ≤ pow2 1000) :
    ∃ r, round q = .fin r ∧ r - q ≤ B * pow2 (-53) + pow2 (-1075) ∧ q - r ≤ B * pow2 (-53) + pow2 (-1075) := by
  have hp := pow2_pos (-53)
  have ht := pow2_pos (-1075)
  have hB0 : 0 ≤ B := by grind
  have hBp : 0 ≤ B * pow2 (-53) := Rat.mul_nonneg hB0 (Rat.le_of_lt hp)
  by_cases h0 : q = 0
  · subst h0
    exact ⟨0, rfl, by grind, by grind⟩
  · by_cases hpos : 0 < q
    · obtain ⟨r, e1, e2, e3⟩ := roundPos_error hpos (by grind)
      have := Rat.mul_le_mul_of_nonneg_right h2 (Rat.le_of_lt hp)
      exact ⟨r, by rw [round_pos hpos, e1], by grind, by grind⟩
    · have hn : 0 < -q := by grind
      have hle : -q ≤ B := by grind
      obtain ⟨r, e1, e2, e3⟩ := roundPos_error hn (by grind)
      have := Rat.mul_le_mul_of_nonneg_right hle (Rat.le_of_lt hp)
      refine ⟨-r, ?_, by grind, by grind⟩
      have := round_neg (-q)
      rw [show - -q = q by grind, round_pos hn, e1] at this
      exact this

theorem sub_fin (a b : Rat) : (fin a).sub (fin b) = round (a - b) := by
  show round (a + -b) = _
  rw [show a + -b = a - b by grind]

end Dbl

namespace DLimiter

theorem grid_int {e : Int} (he : e ≤ 0) (z : Int) : Grid e (z : Rat) := by
  have : Grid 0 (z : Rat) := ⟨z, by rw [pow2_zero, Rat.mul_one]⟩
  exact this.finer he

/-- The differences, in exact numbers. -/
theorem diffs_exact {d : DLimiter} {l : Limiter} (h : d.Is l) {m : Nat} {e : Int} (he : -1021 ≤ e) (he' : e ≤ 0) (hs : l.spi = m * pow2 e)
    (hi : 0 ≤ l.inserts) (hi' : l.inserts < 2 ^ 53) (hsm : 0 ≤ l.samples) (small : volume l.spi l.inserts l.samples ≤ 2 ^ 52 * pow2 e) :
    d.sampleDiff 1 = .fin (l.inserts * l.spi - l.samples - 1) ∧ d.insertDiff 1 = .fin (((1 + l.inserts : Int) : Rat) * l.spi - l.samples) := by
  have hep := pow2_pos e
  have hsp : 0 ≤ l.spi := by
    rw [hs]
    exact Rat.mul_nonneg (by exact_mod_cast Nat.zero_le m) (Rat.le_of_lt hep)
  have hI : (0 : Rat) ≤ (l.inserts : Rat) := by exact_mod_cast hi
  have hS : (0 : Rat) ≤ (l.samples : Rat) := by exact_mod_cast hsm
  have hIs : 0 ≤ (l.inserts : Rat) * l.spi := Rat.mul_nonneg hI hsp
  have hadd : ((1 + l.inserts : Int) : Rat) * l.spi = l.inserts * l.spi + l.spi := by
    rw [Rat.intCast_add]
    have : ((1 : Int) : Rat) = 1 := rfl
    rw [this]
    grind
  have hv : (l.inserts : Rat) * l.spi + l.spi + l.samples + 1 ≤ pow2 (e + 52) := by
    have : volume l.spi l.inserts l.samples = (l.inserts : Rat) * l.spi + l.spi + l.samples + 1 := by
      unfold volume
      rw [Int.add_comm, hadd]
    rw [← this, Int.add_comm, pow2_add]
    exact small
  have h53 := DPrio.pow53 e
  have gm : Grid e l.spi := ⟨m, by rw [hs, Rat.intCast_natCast]⟩
  have gmul : ∀ z : Int, Grid e ((z : Rat) * l.spi) := by
    intro z
    refine ⟨z * m, ?_⟩
    rw [hs, Rat.intCast_mul, Rat.intCast_natCast]
    grind
  have hl : -1074 ≤ e := by omega
  have hh : e ≤ 970 := by omega
  have hSle : l.samples ≤ 2 ^ 53 := by
    have h1 : pow2 (e + 52) ≤ pow2 53 := pow2_mono (by omega)
    have h2 : (l.samples : Rat) ≤ pow2 53 := by grind
    have h3 : pow2 53 = ((2 ^ 53 : Int) : Rat) := by decide +kernel
    rw [h3] at h2
    exact Rat.intCast_le_intCast.mp h2
  have o1 : Dbl.ofInt d.inserts = .fin l.inserts := by rw [h.inserts]; exact Dbl.ofInt_exact (by omega) (by omega)
  have o2 : Dbl.ofInt d.samples = .fin l.samples := by rw [h.samples]; exact Dbl.ofInt_exact (by omega) hSle
  have o3 : Dbl.ofInt (1 + d.inserts) = .fin ((1 + l.inserts : Int) : Rat) := by rw [h.inserts]; exact Dbl.ofInt_exact (by omega) (by omega)
  have o4 : Dbl.ofInt 1 = .fin 1 := by rw [Dbl.ofInt_exact (by omega) (by omega)]; rfl
  have g1 := grid_int he' 1
  have e1 : ((1 : Int) : Rat) = 1 := rfl
  rw [e1] at g1
  have gS := grid_int he' l.samples
  have p53 := pow2_pos (e + 52)
  constructor
  · unfold sampleDiff
    rw [o1, o2, o4, h.spi]
    have a1 : (Dbl.fin (l.inserts : Rat)).mul (.fin l.spi) = .fin (l.inserts * l.spi) :=
      (gmul l.inserts).round hl hh (by grind) (by grind)
    rw [a1, Grid.subD ((gmul l.inserts).sub gS) hl hh (by grind) (by grind),
      Grid.subD (((gmul l.inserts).sub gS).sub g1) hl hh (by grind) (by grind)]
  · unfold insertDiff
    rw [o3, o2, h.spi]
    have a1 : (Dbl.fin ((1 + l.inserts : Int) : Rat)).mul (.fin l.spi) = .fin (((1 + l.inserts : Int) : Rat) * l.spi) :=
      (gmul (1 + l.inserts)).round hl hh (by grind) (by grind)
    rw [a1, Grid.subD ((gmul (1 + l.inserts)).sub gS) hl hh (by grind) (by grind)]

/-- One rounded step: a number of error `E` becomes one of a little more. -/
theorem step_error {q x B E : Rat} (hx : q - x ≤ E) (hx' : x - q ≤ E) (h1 : -B ≤ x) (h2 : x ≤ B) (hB : B + E ≤ pow2 1000) :
    ∃ r, Dbl.round q = .fin r ∧ r - x ≤ E + ((B + E) * pow2 (-53) + pow2 (-1075)) ∧ x - r ≤ E + ((B + E) * pow2 (-53) + pow2 (-1075)) := by
  obtain ⟨r, e1, e2, e3⟩ := Dbl.round_error (q := q) (B := B + E) (by grind) (by grind) hB
  exact ⟨r, e1, by grind, by grind⟩

/-- The differences, with the error of three roundings. -/
theorem diffs_error {d : DLimiter} {l : Limiter} (h : d.Is l) (hs : 0 ≤ l.spi) (hs' : l.spi ≤ pow2 900)
    (hi : 0 ≤ l.inserts) (hi' : l.inserts < 2 ^ 53) (hsm : 0 ≤ l.samples) (hsm' : l.samples ≤ 2 ^ 53) :
    (∃ r, d.sampleDiff 1 = .fin r ∧ r - (l.inserts * l.spi - l.samples - 1) ≤ volume l.spi l.inserts l.samples / 2 ^ 51 ∧
      (l.inserts * l.spi - l.samples - 1) - r ≤ volume l.spi l.inserts l.samples / 2 ^ 51) ∧
    ∃ r, d.insertDiff 1 = .fin r ∧ r - (((1 + l.inserts : Int) : Rat) * l.spi - l.samples) ≤ volume l.spi l.inserts l.samples / 2 ^ 51 ∧
      (((1 + l.inserts : Int) : Rat) * l.spi - l.samples) - r ≤ volume l.spi l.inserts l.samples / 2 ^ 51 := by
  have hI : (0 : Rat) ≤ (l.inserts : Rat) := by exact_mod_cast hi
  have hS : (0 : Rat) ≤ (l.samples : Rat) := by exact_mod_cast hsm
  have hIs : 0 ≤ (l.inserts : Rat) * l.spi := Rat.mul_nonneg hI hs
  have hadd : ((1 + l.inserts : Int) : Rat) * l.spi = l.inserts * l.spi + l.spi := by
    rw [Rat.intCast_add]
    have : ((1 : Int) : Rat) = 1 := rfl
    rw [this]
    grind
  have hv : volume l.spi l.inserts l.samples = (l.inserts : Rat) * l.spi + l.spi + l.samples + 1 := by
    unfold volume
    rw [Int.add_comm, hadd]
  have hbig : volume l.spi l.inserts l.samples ≤ pow2 960 := by
    have b1 : (((1 + l.inserts : Int)) : Rat) ≤ pow2 53 := int_le_pow53 (by omega)
    have b2 : (l.samples : Rat) ≤ pow2 53 := int_le_pow53 hsm'
    have b3 : ((1 + l.inserts : Int) : Rat) * l.spi ≤ pow2 53 * pow2 900 := by
      have c1 := Rat.mul_le_mul_of_nonneg_right b1 hs
      have c2 := Rat.mul_le_mul_of_nonneg_left hs' (Rat.le_of_lt (pow2_pos 53))
      exact Rat.le_trans c1 c2
    have b4 : pow2 53 * pow2 900 + pow2 53 + 1 ≤ pow2 960 := by decide +kernel
    rw [hv]
    generalize pow2 960 = x at *
    generalize pow2 53 * pow2 900 = y at *
    generalize pow2 53 = z at *
    grind
  have o1 : Dbl.ofInt d.inserts = .fin l.inserts := by rw [h.inserts]; exact Dbl.ofInt_exact (by omega) (by omega)
  have o2 : Dbl.ofInt d.samples = .fin l.samples := by rw [h.samples]; exact Dbl.ofInt_exact (by omega) hsm'
  have o3 : Dbl.ofInt (1 + d.inserts) = .fin ((1 + l.inserts : Int) : Rat) := by rw [h.inserts]; exact Dbl.ofInt_exact (by omega) (by omega)
  have o4 : Dbl.ofInt 1 = .fin 1 := by rw [Dbl.ofInt_exact (by omega) (by omega)]; rfl
  have hk : pow2 960 + pow2 960 ≤ pow2 1000 := by decide +kernel
  have p1 : pow2 (-53) = 1 / 2 ^ 53 := by decide +kernel
  have p2 : pow2 (-1075) ≤ 1 / 2 ^ 200 := by decide +kernel
  have p3 := pow2_pos (-1075)
  have hM : 1 ≤ volume l.spi l.inserts l.samples := by rw [hv]; grind
  have hlt : ∀ E : Rat, E ≤ volume l.spi l.inserts l.samples → volume l.spi l.inserts l.samples + E ≤ pow2 1000 := by
    intro E hE
    generalize volume l.spi l.inserts l.samples = M at *
    generalize pow2 960 = y at *
    generalize pow2 1000 = z at *
    grind
  have hSle : (l.samples : Rat) ≤ volume l.spi l.inserts l.samples := by rw [hv]; grind
  have hIle : (l.inserts : Rat) * l.spi + l.spi ≤ volume l.spi l.inserts l.samples := by rw [hv]; grind
  generalize hP : (l.inserts : Rat) * l.spi = P at *
  generalize hMM : volume l.spi l.inserts l.samples = M at *
  generalize hQ : (l.samples : Rat) = S at *
  constructor
  · unfold sampleDiff
    rw [o1, o2, o4, h.spi]
    obtain ⟨r1, a1, a2, a3⟩ := step_error (q := P) (x := P) (B := M) (E := 0) (by grind) (by grind) (by grind) (by grind) (hlt 0 (by grind))
    have c1 : (Dbl.fin (l.inserts : Rat)).mul (.fin l.spi) = .fin r1 := by
      show Dbl.round ((l.inserts : Rat) * l.spi) = _
      rw [hP, a1]
    rw [c1, Dbl.sub_fin]
    rw [p1] at a2 a3
    obtain ⟨r2, b1, b2, b3⟩ := step_error (q := r1 - S) (x := P - S) (B := M) (E := M / 2 ^ 53 + 1 / 2 ^ 200) (by grind) (by grind) (by grind) (by grind)
      (hlt _ (by grind))
    rw [b1, Dbl.sub_fin]
    rw [p1] at b2 b3
    obtain ⟨r3, d1, d2, d3⟩ := step_error (q := r2 - 1) (x := P - S - 1) (B := M) (E := 17 / 8 * (M / 2 ^ 53) + 4 / 2 ^ 200) (by grind) (by grind) (by grind)
      (by grind) (hlt _ (by grind))
    rw [p1] at d2 d3
    exact ⟨r3, d1, by grind, by grind⟩
  · unfold insertDiff
    rw [o3, o2, h.spi]
    obtain ⟨r1, a1, a2, a3⟩ := step_error (q := P + l.spi) (x := P + l.spi) (B := M) (E := 0) (by grind) (by grind) (by grind) (by grind)
      (hlt 0 (by grind))
    have c1 : (Dbl.fin ((1 + l.inserts : Int) : Rat)).mul (.fin l.spi) = .fin r1 := by
      show Dbl.round (((1 + l.inserts : Int) : Rat) * l.spi) = _
      rw [hadd, a1]
    rw [c1, Dbl.sub_fin]
    rw [p1] at a2 a3
    obtain ⟨r2, b1, b2, b3⟩ := step_error (q := r1 - S) (x := P + l.spi - S) (B := M) (E := M / 2 ^ 53 + 1 / 2 ^ 200) (by grind) (by grind) (by grind)
      (by grind) (hlt _ (by grind))
    rw [p1] at b2 b3
    exact ⟨r2, b1, by grind, by grind⟩

end DLimiter
end Verif
