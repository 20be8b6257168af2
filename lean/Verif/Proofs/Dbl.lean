import Verif.Model.DPrio
/-
Facts about rounding.
-/
namespace Verif

theorem pow2_pos (e : Int) : 0 < pow2 e := Rat.zpow_pos (by decide +kernel)

theorem pow2_add (a b : Int) : pow2 (a + b) = pow2 a * pow2 b := Rat.zpow_add (by decide +kernel) a b

theorem pow2_zero : pow2 0 = 1 := Rat.zpow_zero _

theorem pow2_one : pow2 1 = 2 := Rat.zpow_one _

theorem pow2_succ (a : Int) : pow2 (a + 1) = 2 * pow2 a := by
  rw [pow2_add, pow2_one, Rat.mul_comm]

theorem pow2_nat (n : Nat) : pow2 (n : Int) = ((2 ^ n : Nat) : Rat) := by
  unfold pow2
  rw [Rat.zpow_natCast, Rat.natCast_pow]
  rfl

theorem pow2_nat_ge (n : Nat) : 1 ≤ pow2 (n : Int) := by
  rw [pow2_nat]
  have : 0 < 2 ^ n := Nat.pow_pos (by decide)
  exact_mod_cast this

theorem pow2_mono {a b : Int} (h : a ≤ b) : pow2 a ≤ pow2 b := by
  obtain ⟨n, rfl⟩ : ∃ n : Nat, b = a + n := ⟨(b - a).toNat, by omega⟩
  rw [pow2_add]
  have h1 := Rat.mul_le_mul_of_nonneg_left (pow2_nat_ge n) (Rat.le_of_lt (pow2_pos a))
  grind

theorem pow2_lt {a b : Int} (h : pow2 a < pow2 b) : a < b := by
  apply Classical.byContradiction
  intro hc
  have := pow2_mono (show b ≤ a by omega)
  grind

theorem pow2_neg (a : Int) : pow2 (-a) * pow2 a = 1 := by
  rw [← pow2_add, show -a + a = 0 by omega, pow2_zero]

theorem pow2_sub (a b : Int) : pow2 (a - b) * pow2 b = pow2 a := by
  rw [← pow2_add, show a - b + b = a by omega]

theorem int_le_pow53 {z : Int} (h : z ≤ 2 ^ 53) : (z : Rat) ≤ pow2 53 := by
  rw [show (53 : Int) = ((53 : Nat) : Int) from rfl, pow2_nat, ← Rat.intCast_natCast]
  exact Rat.intCast_le_intCast.mpr (Int.le_trans h (by decide))

theorem num_pos' {a : Rat} (h : 0 < a) : 0 < a.num := by
  rw [Rat.lt_iff] at h
  simpa using h

theorem num_div_den {a : Rat} (h : 0 < a) : a * (a.den : Rat) = (a.num.toNat : Rat) := by
  have h1 := num_pos' h
  have h2 : ((a.num.toNat : Nat) : Rat) = (a.num : Rat) := by
    rw [← Rat.intCast_natCast]
    congr 1
    omega
  rw [h2]
  have h3 : (a.num : Rat) / (a.den : Rat) = a := by rw [← Rat.mkRat_eq_div, Rat.mkRat_self]
  have hd : (a.den : Rat) ≠ 0 := by
    have := a.den_nz
    exact_mod_cast this
  calc a * a.den = (a.num : Rat) / a.den * a.den := by rw [h3]
    _ = a.num := Rat.div_mul_cancel hd

theorem lg_aux {a N D : Rat} {i j : Int} (h : a * D = N) (hD : 0 < D) (n1 : pow2 i ≤ N) (n2 : N < pow2 (i + 1)) (d1 : pow2 j ≤ D)
    (d2 : D < pow2 (j + 1)) : pow2 (i - j - 1) < a ∧ a < pow2 (i - j + 1) := by
  constructor
  · apply Rat.lt_of_mul_lt_mul_right (c := D) _ (Rat.le_of_lt hD)
    have e : pow2 (i - j - 1) * pow2 (j + 1) = pow2 i := by rw [← pow2_add]; congr 1; omega
    have := Rat.mul_lt_mul_of_pos_left d2 (pow2_pos (i - j - 1))
    grind
  · apply Rat.lt_of_mul_lt_mul_right (c := D) _ (Rat.le_of_lt hD)
    have e : pow2 (i - j + 1) * pow2 j = pow2 (i + 1) := by rw [← pow2_add]; congr 1; omega
    have := Rat.mul_le_mul_of_nonneg_left d1 (Rat.le_of_lt (pow2_pos (i - j + 1)))
    grind

theorem lg_spec {a : Rat} (h : 0 < a) : pow2 (lg a) ≤ a ∧ a < pow2 (lg a + 1) := by
  have h1 := num_div_den h
  have hn : a.num.toNat ≠ 0 := by
    have := num_pos' h
    omega
  have hd : a.den ≠ 0 := a.den_nz
  have n1 : pow2 (a.num.toNat.log2 : Int) ≤ (a.num.toNat : Rat) := by
    rw [pow2_nat]
    exact_mod_cast Nat.log2_self_le hn
  have n2 : (a.num.toNat : Rat) < pow2 ((a.num.toNat.log2 : Int) + 1) := by
    rw [show (a.num.toNat.log2 : Int) + 1 = ((a.num.toNat.log2 + 1 : Nat) : Int) by omega, pow2_nat]
    exact_mod_cast Nat.lt_log2_self
  have d1 : pow2 (a.den.log2 : Int) ≤ (a.den : Rat) := by
    rw [pow2_nat]
    exact_mod_cast Nat.log2_self_le hd
  have d2 : (a.den : Rat) < pow2 ((a.den.log2 : Int) + 1) := by
    rw [show (a.den.log2 : Int) + 1 = ((a.den.log2 + 1 : Nat) : Int) by omega, pow2_nat]
    exact_mod_cast Nat.lt_log2_self
  have hD : (0 : Rat) < (a.den : Rat) := by exact_mod_cast Nat.pos_of_ne_zero hd
  obtain ⟨l1, l2⟩ := lg_aux h1 hD n1 n2 d1 d2
  unfold lg
  split
  · exact ⟨by assumption, l2⟩
  · refine ⟨Rat.le_of_lt l1, ?_⟩
    rw [show (a.num.toNat.log2 : Int) - (a.den.log2 : Int) - 1 + 1 = (a.num.toNat.log2 : Int) - (a.den.log2 : Int) by omega]
    grind

theorem lg_unique {a : Rat} (h : 0 < a) {e : Int} (h1 : pow2 e ≤ a) (h2 : a < pow2 (e + 1)) : lg a = e := by
  obtain ⟨g1, g2⟩ := lg_spec h
  have := pow2_lt (show pow2 e < pow2 (lg a + 1) by grind)
  have := pow2_lt (show pow2 (lg a) < pow2 (e + 1) by grind)
  omega

theorem ulp_pos (a : Rat) : 0 < ulp a := pow2_pos _

/-- The nearest integer is at most one half away. -/
theorem nearest_near (m : Rat) : (nearest m : Rat) - m ≤ 1 / 2 ∧ m - nearest m ≤ 1 / 2 := by
  have h1 := Rat.floor_le m
  have h2 := Rat.lt_floor_add_one m
  have e : (((1 : Int)) : Rat) = 1 := rfl
  rw [Rat.intCast_add, e] at h2
  unfold nearest
  repeat' split
  all_goals try simp only [Rat.intCast_add, e]
  all_goals constructor <;> grind

theorem nearest_int (z : Int) : nearest (z : Rat) = z := by
  unfold nearest
  rw [Rat.floor_intCast, if_pos (by grind)]

theorem nearest_lt {m : Rat} {z : Int} (h : m < z - 1 / 2) : nearest m < z := by
  have h1 := (nearest_near m).1
  have : (nearest m : Rat) < (z : Rat) := by grind
  exact_mod_cast this

theorem nearest_le {m : Rat} {z : Int} (h : m ≤ z) : nearest m ≤ z := by
  have h1 := (nearest_near m).1
  have h2 : (nearest m : Rat) < ((z + 1 : Int) : Rat) := by
    rw [Rat.intCast_add]
    have : ((1 : Int) : Rat) = 1 := rfl
    grind
  have : nearest m < z + 1 := by exact_mod_cast h2
  omega

theorem nearest_nonneg {m : Rat} (h : 0 ≤ m) : 0 ≤ nearest m := by
  have h1 := (nearest_near m).2
  have h2 : ((-1 : Int) : Rat) < (nearest m : Rat) := by
    have : ((-1 : Int) : Rat) = -1 := rfl
    grind
  have : (-1 : Int) < nearest m := by exact_mod_cast h2
  omega

namespace Dbl


theorem round_zero : round 0 = .fin 0 := rfl

theorem round_pos {a : Rat} (h : 0 < a) : round a = roundPos a := by
  unfold round
  rw [if_neg (by grind), if_pos h]

theorem round_neg (q : Rat) : round (-q) = (round q).neg := by
  unfold round
  by_cases h : q = 0
  · subst h
    rfl
  · rw [if_neg (by grind), if_neg h]
    by_cases hp : 0 < q
    · rw [if_neg (by grind), if_pos hp, Rat.neg_neg]
    · rw [if_pos (by grind), if_neg hp]
      cases roundPos (-q) <;> simp [neg]

/-- Rounding keeps the sign. -/
theorem round_nonneg {q : Rat} (h : 0 ≤ q) : (round q).Nonneg := by
  by_cases h0 : q = 0
  · subst h0
    exact Rat.le_refl
  · have hp : 0 < q := by grind
    rw [round_pos hp]
    unfold roundPos
    split
    · have h1 : (0 : Rat) ≤ (nearest (q / ulp q) : Rat) := by
        have : 0 ≤ nearest (q / ulp q) := nearest_nonneg (Rat.le_of_lt ((Rat.lt_div_iff (ulp_pos q)).mpr (by grind)))
        exact_mod_cast this
      exact Rat.mul_nonneg h1 (Rat.le_of_lt (ulp_pos q))
    · trivial

/-- A number of 53 digits is not rounded. -/
theorem div_ulp_int {z : Int} {k : Int} (hz : 0 < z) (hz' : z ≤ 2 ^ 53) (hk : -1074 ≤ k) :
    ∃ w : Int, (z : Rat) * pow2 k / ulp ((z : Rat) * pow2 k) = w := by
  have ha : 0 < (z : Rat) * pow2 k := Rat.mul_pos (by exact_mod_cast hz) (pow2_pos k)
  obtain ⟨l1, l2⟩ := lg_spec ha
  have hle : (z : Rat) * pow2 k ≤ pow2 (k + 53) := by
    rw [Int.add_comm, pow2_add]
    refine Rat.mul_le_mul_of_nonneg_right ?_ (Rat.le_of_lt (pow2_pos k))
    exact int_le_pow53 hz'
  unfold ulp
  by_cases hE : max (lg ((z : Rat) * pow2 k)) (-1022) - 52 ≤ k
  · generalize max (lg ((z : Rat) * pow2 k)) (-1022) - 52 = E at *
    refine ⟨z * 2 ^ (k - E).toNat, ?_⟩
    have h1 : pow2 k = pow2 ((k - E).toNat : Int) * pow2 E := by
      rw [← pow2_add]
      congr 1
      omega
    rw [h1, pow2_nat, ← Rat.mul_assoc, Rat.mul_div_cancel (by have := pow2_pos E; grind), Rat.intCast_mul, Rat.intCast_pow, Rat.natCast_pow]
    rfl
  · have h1 : k + 53 ≤ lg ((z : Rat) * pow2 k) := by omega
    have h2 : (z : Rat) * pow2 k = pow2 (k + 53) := by
      have := pow2_mono h1
      grind
    have h3 : lg (pow2 (k + 53)) = k + 53 := by
      refine lg_unique (pow2_pos _) Rat.le_refl ?_
      rw [pow2_succ]
      have := pow2_pos (k + 53)
      grind
    rw [h2, h3, show max (k + 53) (-1022) - 52 = k + 1 by omega]
    refine ⟨2 ^ 52, ?_⟩
    have h4 : pow2 (k + 53) = pow2 ((52 : Nat) : Int) * pow2 (k + 1) := by
      rw [← pow2_add]
      congr 1
      omega
    rw [h4, Rat.mul_div_cancel (by have := pow2_pos (k + 1); grind), pow2_nat]
    rfl

theorem roundPos_exact {z : Int} {k : Int} (hz : 0 < z) (hz' : z ≤ 2 ^ 53) (hk : -1074 ≤ k) (hk' : k ≤ 970) :
    roundPos ((z : Rat) * pow2 k) = .fin ((z : Rat) * pow2 k) := by
  obtain ⟨w, hw⟩ := div_ulp_int hz hz' hk
  unfold roundPos
  rw [hw, nearest_int, ← hw, Rat.div_mul_cancel (by have := ulp_pos ((z : Rat) * pow2 k); grind), if_pos]
  have h1 : (z : Rat) * pow2 k ≤ pow2 (k + 53) := by
    rw [Int.add_comm, pow2_add]
    refine Rat.mul_le_mul_of_nonneg_right ?_ (Rat.le_of_lt (pow2_pos k))
    exact int_le_pow53 hz'
  have h2 := pow2_mono (show k + 53 ≤ 1023 by omega)
  have h3 := pow2_succ 1023
  have h4 := pow2_pos 1023
  simp only [Int.reduceAdd] at h3
  grind

/-- Numbers of 53 digits are not rounded. -/
theorem round_exact {z : Int} {k : Int} (hz : -2 ^ 53 ≤ z) (hz' : z ≤ 2 ^ 53) (hk : -1074 ≤ k) (hk' : k ≤ 970) :
    round ((z : Rat) * pow2 k) = .fin ((z : Rat) * pow2 k) := by
  have hp := pow2_pos k
  rcases Int.lt_trichotomy z 0 with h | h | h
  · have e : (z : Rat) * pow2 k = -(((-z : Int) : Rat) * pow2 k) := by
      rw [Rat.intCast_neg]
      grind
    rw [e, round_neg, round_pos (Rat.mul_pos (by exact_mod_cast (show 0 < -z by omega)) hp), roundPos_exact (by omega) (by omega) hk hk']
    rfl
  · subst h
    have e : ((0 : Int) : Rat) * pow2 k = 0 := by grind
    rw [e]
    rfl
  · rw [round_pos (Rat.mul_pos (by exact_mod_cast h) hp), roundPos_exact h hz' hk hk']

theorem ofInt_exact {z : Int} (hz : -2 ^ 53 ≤ z) (hz' : z ≤ 2 ^ 53) : ofInt z = .fin z := by
  have h := round_exact hz hz' (k := 0) (by omega) (by omega)
  rw [pow2_zero, Rat.mul_one] at h
  exact h

/-- The error of rounding. -/
theorem near (a : Rat) : (nearest (a / ulp a) : Rat) * ulp a - a ≤ ulp a / 2 ∧ a - (nearest (a / ulp a) : Rat) * ulp a ≤ ulp a / 2 := by
  have hu := ulp_pos a
  obtain ⟨h1, h2⟩ := nearest_near (a / ulp a)
  have e : a / ulp a * ulp a = a := Rat.div_mul_cancel (by grind)
  have h3 := Rat.mul_le_mul_of_nonneg_right h1 (Rat.le_of_lt hu)
  have h4 := Rat.mul_le_mul_of_nonneg_right h2 (Rat.le_of_lt hu)
  constructor <;> grind

/-- The product of a draw below 1 with a number of few digits is below the number. -/
theorem mul_below {u : Rat} {n : Nat} {k : Int} (hu : 0 ≤ u) (hu' : u ≤ 1 - pow2 (-53)) (hn : 0 < n) (hn' : n ≤ 2 ^ 53) (hk : -1021 ≤ k)
    (hk' : k ≤ 970) : ∃ q : Rat, round (u * ((n : Rat) * pow2 k)) = .fin q ∧ 0 ≤ q ∧ q < (n : Rat) * pow2 k := by
  have hkp := pow2_pos k
  have hn1 : (1 : Rat) ≤ (n : Rat) := by exact_mod_cast hn
  have hT1 : pow2 k ≤ (n : Rat) * pow2 k := by
    have := Rat.mul_le_mul_of_nonneg_right hn1 (Rat.le_of_lt hkp)
    grind
  have hT2 : (n : Rat) * pow2 k ≤ pow2 (k + 53) := by
    rw [Int.add_comm, pow2_add]
    refine Rat.mul_le_mul_of_nonneg_right ?_ (Rat.le_of_lt hkp)
    have := int_le_pow53 (z := n) (by omega)
    rw [Rat.intCast_natCast] at this
    exact this
  have hmul : ∀ E : Int, E ≤ k → (n : Rat) * pow2 k = ((n * 2 ^ (k - E).toNat : Nat) : Int) * pow2 E := by
    intro E hE
    rw [Rat.intCast_natCast, Rat.natCast_mul, ← pow2_nat, Rat.mul_assoc, ← pow2_add, show ((k - E).toNat : Int) + E = k by omega]
  generalize (n : Rat) * pow2 k = T at *
  have hn0 : 0 < T := by grind
  by_cases h0 : u * T = 0
  · exact ⟨0, by rw [h0]; rfl, Rat.le_refl, hn0⟩
  have ha : 0 < u * T := by
    have := Rat.mul_nonneg hu (Rat.le_of_lt hn0)
    grind
  have hle : u * T ≤ T - T * pow2 (-53) := by
    have := Rat.mul_le_mul_of_nonneg_right hu' (Rat.le_of_lt hn0)
    grind
  generalize u * T = a at *
  obtain ⟨l1, l2⟩ := lg_spec ha
  have hub : (nearest (a / ulp a) : Rat) * ulp a < T := by
    have hU := ulp_pos a
    -- it is enough to be more than half an ulp below a multiple of the ulp
    have key : ∀ N : Int, a < (N - 1 / 2) * ulp a → (N : Rat) * ulp a ≤ T → (nearest (a / ulp a) : Rat) * ulp a < T := by
      intro N h1 h2
      have h3 : nearest (a / ulp a) < N := nearest_lt ((Rat.div_lt_iff hU).mpr h1)
      have h4 : (nearest (a / ulp a) : Rat) < (N : Rat) := Rat.intCast_lt_intCast.mpr h3
      have := Rat.mul_lt_mul_of_pos_right h4 hU
      grind
    by_cases hsub : lg a < -1022
    · -- a subnormal number
      have e : ulp a = pow2 (-1074) := by
        unfold ulp
        rw [show max (lg a) (-1022) - 52 = -1074 by omega]
      have h1 := (near a).1
      have h2 := pow2_mono (show lg a + 1 ≤ -1022 by omega)
      have h3 := pow2_mono (show (-1074 : Int) ≤ -1022 by omega)
      have h4 := pow2_mono hk
      have h5 : pow2 (-1021) = 2 * pow2 (-1022) := by rw [show (-1021 : Int) = -1022 + 1 by omega, pow2_succ]
      rw [e] at h1 ⊢
      rw [h5] at h4
      generalize (nearest (a / pow2 (-1074)) : Rat) * pow2 (-1074) = r at h1 ⊢
      clear key
      grind
    · have e : ulp a = pow2 (lg a - 52) := by
        unfold ulp
        rw [show max (lg a) (-1022) - 52 = lg a - 52 by omega]
      have e1 : pow2 (lg a + 1) = (((2 ^ 53 : Nat) : Int) : Rat) * ulp a := by
        rw [e, Rat.intCast_natCast, ← pow2_nat, ← pow2_add]
        congr 1
        omega
      have e2 : pow2 (lg a - 53) * 2 = ulp a := by
        rw [e, show lg a - 52 = lg a - 53 + 1 by omega, pow2_succ, Rat.mul_comm]
      have e3 : pow2 (lg a) * pow2 (-53) = pow2 (lg a - 53) := by rw [← pow2_add]; rfl
      have hx := pow2_pos (-53)
      by_cases hc : pow2 (lg a + 1) ≤ T
      · by_cases hq : pow2 (lg a + 1) = T
        · refine key ((2 ^ 53 : Nat) : Int) ?_ (by rw [← e1]; exact hc)
          have e4 : pow2 (lg a + 1) = 2 * pow2 (lg a) := pow2_succ _
          have e5 : T * pow2 (-53) = ulp a := by
            rw [← hq, e, ← pow2_add]
            congr 1
            omega
          rw [e5, ← hq, e1] at hle
          generalize (((2 ^ 53 : Nat) : Int) : Rat) = M at hle ⊢
          clear key
          grind
        · have h1 : nearest (a / ulp a) ≤ ((2 ^ 53 : Nat) : Int) := by
            refine nearest_le (Rat.le_of_lt ((Rat.div_lt_iff hU).mpr ?_))
            rw [← e1]
            exact l2
          have h2 := Rat.mul_le_mul_of_nonneg_right (Rat.intCast_le_intCast.mpr h1) (Rat.le_of_lt hU)
          rw [← e1] at h2
          grind
      · -- the number is itself a multiple of the ulp
        have hl : lg a < k + 53 := by
          apply pow2_lt
          have := Rat.mul_pos hn0 hx
          clear key
          grind
        have e5 := hmul (lg a - 52) (by omega)
        rw [← e] at e5
        refine key _ ?_ (by rw [← e5]; exact Rat.le_refl)
        have h6 : pow2 (lg a) * pow2 (-53) < T * pow2 (-53) := by
          refine Rat.mul_lt_mul_of_pos_right ?_ hx
          have := Rat.mul_pos hn0 hx
          clear key
          grind
        rw [show ∀ N U : Rat, (N - 1 / 2) * U = N * U - U / 2 from fun N U => by grind, ← e5]
        clear key
        grind
  have := pow2_mono (show k + 53 ≤ 1024 by omega)
  have hr := round_nonneg (Rat.le_of_lt ha)
  rw [round_pos ha] at hr ⊢
  unfold roundPos at hr ⊢
  rw [if_pos (by grind)] at hr ⊢
  exact ⟨_, rfl, hr, hub⟩

/-- The product of a draw below 1 with a size, as used for the index, is below the size. -/
theorem mul_size {u : Rat} {n : Nat} (hu : 0 ≤ u) (hu' : u ≤ 1 - pow2 (-53)) (hn : 0 < n) (hn' : n ≤ 2 ^ 53) :
    ∃ q : Rat, round (u * n) = .fin q ∧ 0 ≤ q ∧ q < n := by
  have := mul_below hu hu' hn hn' (k := 0) (by omega) (by omega)
  rw [pow2_zero, Rat.mul_one] at this
  exact this

/-- What rounding gives has 53 digits. -/
theorem roundPos_digits {a r : Rat} (ha : 0 < a) (h : roundPos a = .fin r) :
    ∃ (z e : Int), 0 ≤ z ∧ z ≤ 2 ^ 53 ∧ -1074 ≤ e ∧ r = (z : Rat) * pow2 e := by
  unfold roundPos at h
  split at h
  · cases h
    refine ⟨nearest (a / ulp a), max (lg a) (-1022) - 52, ?_, ?_, by omega, rfl⟩
    · exact nearest_nonneg (Rat.le_of_lt ((Rat.lt_div_iff (ulp_pos a)).mpr (by grind)))
    · refine Int.le_trans (nearest_le (z := ((2 ^ 53 : Nat) : Int)) (Rat.le_of_lt ((Rat.div_lt_iff (ulp_pos a)).mpr ?_))) (by decide)
      have h1 := (lg_spec ha).2
      have h2 : pow2 (lg a + 1) ≤ (((2 ^ 53 : Nat) : Int) : Rat) * ulp a := by
        unfold ulp
        rw [Rat.intCast_natCast, ← pow2_nat, ← pow2_add]
        exact pow2_mono (by omega)
      grind
  · cases h

end Dbl

end Verif
