import Mathlib.Tactic.Linarith
import Mathlib.Tactic.Ring
import Mathlib.Tactic.FieldSimp
import Mathlib.Tactic.Positivity
import Mathlib.Tactic.NormNum
import Verif.Model.LLVM
import Verif.Spec.Double

namespace Verif
open Spec

/-! ### Hexadecimal -/

theorem hexDigit_digitChar (n : Nat) (h : n < 16) : hexDigit (Nat.digitChar n) = some n := by
  have : ∀ n : Fin 16, hexDigit (Nat.digitChar n) = some n.val := by decide
  exact this ⟨n, h⟩

theorem hexDigits_append (ds : List Char) (c : Char) :
    hexDigits (ds ++ [c]) =
      (hexDigits ds).bind (fun a => (hexDigit c).map (fun d => 16 * a + d)) := by
  unfold hexDigits
  rw [List.foldlM_append]
  simp

theorem hexDigits_toDigits (b : Nat) : hexDigits (Nat.toDigits 16 b) = some b := by
  induction b using Nat.strongRecOn with
  | _ b ih =>
  by_cases hb : b < 16
  · rw [Nat.toDigits_of_lt_base hb]
    simp [hexDigits, hexDigit_digitChar b hb]
  · rw [Nat.toDigits_of_base_le (by omega) (by omega), hexDigits_append,
      ih (b / 16) (by omega), Option.bind_some, hexDigit_digitChar _ (by omega)]
    simp only [Option.map_some, Option.some.injEq]
    omega

theorem hexValue_pyHex (b : Nat) : hexValue (pyHex b) = some b := by
  unfold hexValue pyHex
  have h := hexDigits_toDigits b
  cases hd : Nat.toDigits 16 b with
  | nil => exact absurd hd Nat.toDigits_ne_nil
  | cons d ds =>
    rw [hd] at h
    simp [String.toList_append]
    exact h

/-! ### Decoding -/

theorem doubleValue_normal (E f : Nat) (h1 : 1 ≤ E) (h2 : E < 2047) (hf : f < 2 ^ 52) :
    doubleValue (E * 2 ^ 52 + f : Nat) = some ((2 ^ 52 + (f : ℚ)) * (2 ^ E / 2 ^ 1075) : ℚ) := by
  unfold doubleValue
  have e1 : (E * 2 ^ 52 + f) / 2 ^ 63 % 2 = 0 := by omega
  have e2 : (E * 2 ^ 52 + f) / 2 ^ 52 % 2 ^ 11 = E := by omega
  have e3 : (E * 2 ^ 52 + f) % 2 ^ 52 = f := by omega
  simp only [e1, e2, e3]
  rw [if_neg (by omega), if_neg (by omega), if_neg (by omega), one_mul]

theorem doubleValue_sig (E m : Nat) (h1 : 2 ^ 52 ≤ m) (h2 : m ≤ 2 ^ 53)
    (hb : E * 2 ^ 52 + m < 2047 * 2 ^ 52) :
    doubleValue (E * 2 ^ 52 + m : Nat) = some ((m : ℚ) * (2 ^ (E + 1) / 2 ^ 1075) : ℚ) := by
  by_cases hm : m = 2 ^ 53
  · have : E * 2 ^ 52 + m = (E + 2) * 2 ^ 52 + 0 := by omega
    rw [this, doubleValue_normal (E + 2) 0 (by omega) (by omega) (by omega), hm]
    congr 1
    push_cast
    rw [pow_succ 2 (E + 1)]
    generalize (2 : ℚ) ^ (E + 1) = A
    generalize (2 : ℚ) ^ 1075 = B
    ring
  · obtain ⟨f, rfl⟩ : ∃ f, m = 2 ^ 52 + f := ⟨m - 2 ^ 52, by omega⟩
    have : E * 2 ^ 52 + (2 ^ 52 + f) = (E + 1) * 2 ^ 52 + f := by omega
    rw [this, doubleValue_normal (E + 1) f (by omega) (by omega) (by omega)]
    push_cast
    rfl

theorem doubleValue_neg (b : Nat) (h : b < 2 ^ 63) :
    doubleValue (2 ^ 63 + b) = (doubleValue b).map (fun q => -q) := by
  unfold doubleValue
  have e1 : (2 ^ 63 + b) / 2 ^ 63 % 2 = 1 := by omega
  have e1' : b / 2 ^ 63 % 2 = 0 := by omega
  have e2 : (2 ^ 63 + b) / 2 ^ 52 % 2 ^ 11 = b / 2 ^ 52 % 2 ^ 11 := by omega
  have e3 : (2 ^ 63 + b) % 2 ^ 52 = b % 2 ^ 52 := by omega
  simp only [e1, e1', e2, e3]
  by_cases h1 : b / 2 ^ 52 % 2 ^ 11 = 2047
  · simp only [h1, if_true, Option.map_none]
  · by_cases h2 : b / 2 ^ 52 % 2 ^ 11 = 0
    · simp only [h2, if_true]
      simp
    · simp only [h1, h2, if_false, if_true]
      simp

/-! ### Rounding -/

/-- The rounded significand for `2^52 ≤ q`, where `n = q * P + r`. -/
def roundSig (q r P : Nat) : Nat := if 2 * r > P ∨ (2 * r = P ∧ q % 2 = 1) then q + 1 else q

theorem log2_bounds (n : Nat) (h : n ≠ 0) : 2 ^ n.log2 ≤ n ∧ n < 2 ^ (n.log2 + 1) :=
  ⟨Nat.log2_self_le h, Nat.lt_log2_self⟩

theorem magnitudeBits_small (n : Nat) (h0 : n ≠ 0) (he : n.log2 ≤ 52) :
    ∃ m, m = n * 2 ^ (52 - n.log2) ∧ 2 ^ 52 ≤ m ∧ m < 2 ^ 53 ∧
      magnitudeBits n = some ((n.log2 + 1022) * 2 ^ 52 + m) := by
  obtain ⟨h1, h2⟩ := log2_bounds n h0
  refine ⟨_, rfl, ?_, ?_, ?_⟩
  · calc 2 ^ 52 = 2 ^ n.log2 * 2 ^ (52 - n.log2) := by rw [← pow_add]; congr 1; omega
      _ ≤ _ := Nat.mul_le_mul_right _ h1
  · calc n * 2 ^ (52 - n.log2) < 2 ^ (n.log2 + 1) * 2 ^ (52 - n.log2) :=
          Nat.mul_lt_mul_of_pos_right h2 (by positivity)
      _ = 2 ^ 53 := by rw [← pow_add]; congr 1; omega
  · have hm : n * 2 ^ (52 - n.log2) < 2 ^ 53 := by
      calc n * 2 ^ (52 - n.log2) < 2 ^ (n.log2 + 1) * 2 ^ (52 - n.log2) :=
          Nat.mul_lt_mul_of_pos_right h2 (by positivity)
      _ = 2 ^ 53 := by rw [← pow_add]; congr 1; omega
    unfold magnitudeBits
    simp only [h0, he, if_true, if_false]
    rw [if_pos (by omega)]

theorem magnitudeBits_large (n : Nat) (he : 52 < n.log2) :
    ∃ q r P, P = 2 ^ (n.log2 - 52) ∧ n = q * P + r ∧ r < P ∧ 2 ^ 52 ≤ q ∧ q < 2 ^ 53 ∧
      magnitudeBits n =
        (if (n.log2 + 1022) * 2 ^ 52 + roundSig q r P < 2047 * 2 ^ 52 then
          some ((n.log2 + 1022) * 2 ^ 52 + roundSig q r P) else none) := by
  have h0 : n ≠ 0 := by intro h; subst h; simp at he
  obtain ⟨h1, h2⟩ := log2_bounds n h0
  have hP : 0 < 2 ^ (n.log2 - 52) := by positivity
  refine ⟨n / 2 ^ (n.log2 - 52), n % 2 ^ (n.log2 - 52), _, rfl, ?_, Nat.mod_lt _ hP, ?_, ?_, ?_⟩
  · rw [Nat.mul_comm]; exact (Nat.div_add_mod _ _).symm
  · rw [Nat.le_div_iff_mul_le hP, ← pow_add]
    refine le_trans (le_of_eq ?_) h1
    congr 1; omega
  · rw [Nat.div_lt_iff_lt_mul hP, ← pow_add]
    refine lt_of_lt_of_eq h2 ?_
    congr 1; omega
  · unfold magnitudeBits
    simp only [h0, if_false]
    have : ¬ n.log2 ≤ 52 := by omega
    simp only [this, if_false]
    rfl

/-- Every finite double is, up to sign, `m * 2^k / 2^1075` with `m < 2^53` and `k ≥ 1`. -/
theorem doubleValue_form (b : Nat) (v : ℚ) (h : doubleValue b = some v) :
    ∃ (sgn : ℚ) (m k : Nat), (sgn = 1 ∨ sgn = -1) ∧ m < 2 ^ 53 ∧
      v = sgn * (m * (2 ^ k / 2 ^ 1075)) := by
  unfold doubleValue at h
  have hf : b % 2 ^ 52 < 2 ^ 52 := Nat.mod_lt _ (by norm_num)
  have hs : ((if b / 2 ^ 63 % 2 = 1 then -1 else 1 : ℚ) = 1 ∨
      (if b / 2 ^ 63 % 2 = 1 then -1 else 1 : ℚ) = -1) := by
    split
    · exact Or.inr rfl
    · exact Or.inl rfl
  simp only at h
  split at h
  · cases h
  · split at h
    · refine ⟨_, b % 2 ^ 52, 1, hs, by omega, ?_⟩
      rw [pow_one]
      exact (Option.some.inj h).symm
    · refine ⟨_, 2 ^ 52 + b % 2 ^ 52, b / 2 ^ 52 % 2 ^ 11, hs, by omega, ?_⟩
      rw [← Option.some.inj h]
      push_cast
      rfl

/-- A double of magnitude at least `2^e` is a multiple of `2^(e-52)`. -/
theorem double_multiple (m k e : Nat) (hm : m < 2 ^ 53) (he : 52 ≤ e)
    (h : (2 : ℚ) ^ e ≤ m * (2 ^ k / 2 ^ 1075)) :
    ∃ j : Nat, (m * (2 ^ k / 2 ^ 1075) : ℚ) = (j * 2 ^ (e - 52) : Nat) := by
  have hB : (0 : ℚ) < 2 ^ 1075 := by positivity
  have h1 : (2 : ℚ) ^ (e + 1075) ≤ m * 2 ^ k := by
    rw [pow_add]
    rw [← mul_div_assoc, le_div_iff₀ hB] at h
    exact h
  have h2 : 2 ^ (e + 1075) ≤ m * 2 ^ k := by exact_mod_cast h1
  have h3 : 2 ^ (e + 1075) < 2 ^ (53 + k) := by
    rw [pow_add 2 53 k]
    exact lt_of_le_of_lt h2 (Nat.mul_lt_mul_of_pos_right hm (by positivity))
  have h4 : e + 1075 < 53 + k := (Nat.pow_lt_pow_iff_right (by norm_num)).1 h3
  obtain ⟨d, rfl⟩ : ∃ d, k = (e - 52) + d + 1075 := ⟨k - (e - 52) - 1075, by omega⟩
  refine ⟨m * 2 ^ d, ?_⟩
  rw [pow_add 2 (e - 52 + d) 1075, mul_div_assoc, div_self hB.ne', mul_one, pow_add]
  push_cast
  ring

end Verif
