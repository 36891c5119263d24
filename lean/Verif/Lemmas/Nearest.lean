import Verif.Lemmas.Double
import Mathlib.Analysis.SpecialFunctions.Pow.Real
import Mathlib.Data.Int.Log
import Mathlib.Algebra.Order.Round

/-!
# Every number in the range of the doubles is near a double
-/

set_option exponentiation.threshold 2000

namespace Verif
open Spec

theorem scale_pow (E : Nat) : (2 : ℝ) ^ (E + 1) / 2 ^ 1075 = (2 : ℝ) ^ ((E : ℤ) - 1074) := by
  rw [show ((E : ℤ) - 1074) = ((E + 1 : ℕ) : ℤ) - ((1075 : ℕ) : ℤ) by push_cast; ring,
    zpow_sub₀ (by norm_num), zpow_natCast, zpow_natCast]

theorem round_le_half (x : ℝ) : |(round x : ℝ) - x| ≤ 1 / 2 := by
  rw [abs_sub_comm]; exact abs_sub_round x

/-- Non-negative numbers. -/
theorem near_double_nonneg (x : ℝ) (h0 : 0 ≤ x) (hx : x < 2 ^ 1024 - 2 ^ 970) :
    ∃ b q, b < 2 ^ 63 ∧ doubleValue b = some q ∧
      |(q : ℝ) - x| ≤ 2⁻¹ ^ 53 * max x (2⁻¹ ^ 1022) := by
  by_cases hs : x < (2 : ℝ) ^ (-1022 : ℤ)
  · -- subnormal
    set y := x * (2 : ℝ) ^ (1074 : ℤ) with hy
    have hy0 : 0 ≤ y := by positivity
    have hy1 : y < 2 ^ 52 := by
      have : y < (2 : ℝ) ^ (-1022 : ℤ) * 2 ^ (1074 : ℤ) :=
        mul_lt_mul_of_pos_right hs (by positivity)
      rw [← zpow_add₀ (by norm_num)] at this
      exact this.trans_eq (by norm_num)
    have hr0 : 0 ≤ round y := by
      have := round_le_half y
      rw [abs_le] at this
      have h : (-1 : ℝ) < round y := by linarith
      have : (-1 : ℤ) < round y := by exact_mod_cast h
      omega
    obtain ⟨m, hm⟩ := Int.eq_ofNat_of_zero_le hr0
    have hm1 : m ≤ 2 ^ 52 := by
      have := round_le_half y
      rw [abs_le, hm] at this
      have h : ((m : ℤ) : ℝ) < 2 ^ 52 + 1 := by linarith
      have h : (m : ℝ) < ((2 ^ 52 + 1 : ℕ) : ℝ) := by
        push_cast at h ⊢; linarith
      have := Nat.cast_lt.1 h
      omega
    refine ⟨m, (m : ℚ) * (2 / 2 ^ 1075), by omega, ?_, ?_⟩
    · by_cases hc : m = 2 ^ 52
      · have := doubleValue_sig 0 m (by omega) (by omega) (by omega)
        simpa using this
      · unfold doubleValue
        have e1 : m / 2 ^ 63 % 2 = 0 := by omega
        have e2 : m / 2 ^ 52 % 2 ^ 11 = 0 := by omega
        have e3 : m % 2 ^ 52 = m := by omega
        simp only [e1, e2, e3]
        simp
    · have hq : (((m : ℚ) * (2 / 2 ^ 1075) : ℚ) : ℝ) = (m : ℝ) * 2 ^ (-1074 : ℤ) := by
        push_cast
        have := scale_pow 0
        simp only [zero_add, pow_one, Nat.cast_zero, zero_sub] at this
        rw [this]
      rw [hq]
      have hx' : x = y * 2 ^ (-1074 : ℤ) := by
        rw [hy, mul_assoc, ← zpow_add₀ (by norm_num)]; simp
      have hb := round_le_half y
      rw [hm, Int.cast_natCast] at hb
      have : (m : ℝ) * 2 ^ (-1074 : ℤ) - x = (m - y) * 2 ^ (-1074 : ℤ) := by
        rw [sub_mul, ← hx']
      rw [this, abs_mul, abs_of_pos (show (0 : ℝ) < 2 ^ (-1074 : ℤ) by positivity)]
      calc |(m : ℝ) - y| * 2 ^ (-1074 : ℤ) ≤ 1 / 2 * 2 ^ (-1074 : ℤ) :=
            mul_le_mul_of_nonneg_right hb (by positivity)
        _ = 2⁻¹ ^ 53 * 2⁻¹ ^ 1022 := by
            rw [← pow_add, ← zpow_natCast, inv_zpow', show (1 / 2 : ℝ) = 2 ^ (-1 : ℤ) by norm_num,
              ← zpow_add₀ (by norm_num)]
            norm_num
        _ ≤ 2⁻¹ ^ 53 * max x (2⁻¹ ^ 1022) :=
            mul_le_mul_of_nonneg_left (le_max_right _ _) (by positivity)
  · push Not at hs
    have hpos : 0 < x := lt_of_lt_of_le (by positivity) hs
    set k := Int.log 2 x with hk
    have hk1 : (2 : ℝ) ^ k ≤ x := by
      have := Int.zpow_log_le_self (b := 2) (by norm_num) hpos
      simpa using this
    have hk2 : x < (2 : ℝ) ^ (k + 1) := by
      have := Int.lt_zpow_succ_log_self (R := ℝ) (b := 2) (by norm_num) x
      simpa using this
    have hk3 : -1022 ≤ k := by
      have : (2 : ℝ) ^ (-1022 : ℤ) < 2 ^ (k + 1) := lt_of_le_of_lt hs hk2
      have := (zpow_lt_zpow_iff_right₀ (by norm_num : (1 : ℝ) < 2)).1 this
      omega
    have hk4 : k ≤ 1023 := by
      have : (2 : ℝ) ^ k < 2 ^ (1024 : ℤ) := by
        refine lt_of_le_of_lt hk1 (lt_trans hx ?_)
        rw [show ((2 : ℝ) ^ (1024 : ℤ)) = 2 ^ (1024 : ℕ) from zpow_natCast 2 1024]
        have : (0 : ℝ) < 2 ^ 970 := by positivity
        linarith
      have := (zpow_lt_zpow_iff_right₀ (by norm_num : (1 : ℝ) < 2)).1 this
      omega
    set y := x * (2 : ℝ) ^ (52 - k) with hy
    have hx' : x = y * 2 ^ (k - 52) := by
      rw [hy, mul_assoc, ← zpow_add₀ (by norm_num)]; simp
    have hy1 : 2 ^ 52 ≤ y := by
      have := mul_le_mul_of_nonneg_right hk1 (show (0 : ℝ) ≤ 2 ^ (52 - k) by positivity)
      rw [← zpow_add₀ (by norm_num)] at this
      refine le_trans (le_of_eq ?_) this
      rw [show k + (52 - k) = ((52 : ℕ) : ℤ) by push_cast; ring, zpow_natCast]
    have hy2 : y < 2 ^ 53 := by
      have := mul_lt_mul_of_pos_right hk2 (show (0 : ℝ) < 2 ^ (52 - k) by positivity)
      rw [← zpow_add₀ (by norm_num)] at this
      refine lt_of_lt_of_eq this ?_
      rw [show k + 1 + (52 - k) = ((53 : ℕ) : ℤ) by push_cast; ring, zpow_natCast]
    have hb := round_le_half y
    have hb' := abs_le.1 hb
    have hr1 : 2 ^ 52 ≤ round y := by
      have h : ((2 ^ 52 - 1 : ℤ) : ℝ) < round y := by push_cast; linarith
      have := Int.cast_lt.1 h
      omega
    have hr2 : round y ≤ 2 ^ 53 := by
      have h : (round y : ℝ) < ((2 ^ 53 + 1 : ℤ) : ℝ) := by push_cast; linarith
      have := Int.cast_lt.1 h
      omega
    obtain ⟨m, hm⟩ := Int.eq_ofNat_of_zero_le (show 0 ≤ round y by omega)
    have hm1 : 2 ^ 52 ≤ m := by omega
    have hm2 : m ≤ 2 ^ 53 := by omega
    obtain ⟨E, hE⟩ := Int.eq_ofNat_of_zero_le (show 0 ≤ k + 1022 by omega)
    have hEb : E ≤ 2045 := by omega
    have hover : E = 2045 → m ≠ 2 ^ 53 := by
      rintro rfl rfl
      have hk' : k = 1023 := by omega
      rw [hk'] at hx' hy
      have h1 : y < 2 ^ 53 - 1 / 2 := by
        have := mul_lt_mul_of_pos_right hx (show (0 : ℝ) < 2 ^ (52 - 1023 : ℤ) by positivity)
        rw [← hy] at this
        refine lt_of_lt_of_eq this ?_
        rw [sub_mul, ← zpow_natCast, ← zpow_natCast, ← zpow_add₀ (by norm_num),
          ← zpow_add₀ (by norm_num)]
        norm_num
      have h2 : ((2 ^ 53 : ℕ) : ℤ) ≤ round y := by rw [hm]
      rw [round_eq, Int.le_floor] at h2
      push_cast at h2
      linarith
    have hsz : E * 2 ^ 52 + m < 2047 * 2 ^ 52 := by
      by_cases h : E = 2045
      · have := hover h
        subst h
        omega
      · omega
    refine ⟨E * 2 ^ 52 + m, (m : ℚ) * (2 ^ (E + 1) / 2 ^ 1075), by omega,
      doubleValue_sig E m hm1 hm2 hsz, ?_⟩
    have hq : (((m : ℚ) * (2 ^ (E + 1) / 2 ^ 1075) : ℚ) : ℝ) = (m : ℝ) * 2 ^ (k - 52) := by
      push_cast
      rw [scale_pow, ← hE]
      congr 2
      ring
    rw [hq]
    rw [hm, Int.cast_natCast] at hb
    have : (m : ℝ) * 2 ^ (k - 52) - x = (m - y) * 2 ^ (k - 52) := by rw [sub_mul, ← hx']
    rw [this, abs_mul, abs_of_pos (show (0 : ℝ) < 2 ^ (k - 52) by positivity)]
    calc |(m : ℝ) - y| * 2 ^ (k - 52) ≤ 1 / 2 * 2 ^ (k - 52) :=
          mul_le_mul_of_nonneg_right hb (by positivity)
      _ = 2⁻¹ ^ 53 * 2 ^ k := by
          rw [← zpow_natCast, inv_zpow', show (1 / 2 : ℝ) = 2 ^ (-1 : ℤ) by norm_num,
            ← zpow_add₀ (by norm_num), ← zpow_add₀ (by norm_num)]
          congr 1
          push_cast
          ring
      _ ≤ 2⁻¹ ^ 53 * max x (2⁻¹ ^ 1022) :=
          mul_le_mul_of_nonneg_left (hk1.trans (le_max_left _ _)) (by positivity)

/-- Every number in the range of the doubles is near a double. -/
theorem near_double (x : ℝ) (hx : |x| < 2 ^ 1024 - 2 ^ 970) :
    ∃ b q, b < 2 ^ 64 ∧ doubleValue b = some q ∧
      |(q : ℝ) - x| ≤ 2⁻¹ ^ 53 * max |x| (2⁻¹ ^ 1022) := by
  obtain ⟨b, q, h1, h2, h3⟩ := near_double_nonneg |x| (abs_nonneg x) hx
  rcases abs_choice x with h | h
  · exact ⟨b, q, by omega, h2, by rw [h] at h3 ⊢; exact h3⟩
  · refine ⟨2 ^ 63 + b, -q, by omega, by rw [doubleValue_neg b h1, h2]; rfl, ?_⟩
    have : ((-q : ℚ) : ℝ) - x = -(q - |x|) := by rw [h]; push_cast; ring
    rw [this, abs_neg]
    exact h3

end Verif
