import Verif.Spec.Binary64
import Verif.Props.Rounding

/-!
# C62 for IEEE-754 doubles
-/

set_option exponentiation.threshold 2000

namespace Verif.Props
open Spec Expr

theorem bitsVal_some {b : ℕ} {z : ℝ} : bitsVal b = some z ↔ ∃ q, doubleValue b = some q ∧ (q : ℝ) = z := by
  unfold bitsVal
  exact Option.map_eq_some_iff

/-- Every double is a multiple of `2^-1074`. -/
theorem double_grid {b : ℕ} {z : ℝ} (h : bitsVal b = some z) : ∃ k : ℤ, z = k * 2⁻¹ ^ 1074 := by
  obtain ⟨q, hq, rfl⟩ := bitsVal_some.1 h
  clear h
  have key : ∃ k : ℤ, q = k * 2⁻¹ ^ 1074 := by
    have hc : (2 : ℚ) / 2 ^ 1075 = 2⁻¹ ^ 1074 := by
      rw [show (2 : ℚ) ^ 1075 = 2 ^ 1074 * 2 from pow_succ 2 1074, inv_pow]
      field_simp
    unfold doubleValue at hq
    simp only at hq
    have hs : ∃ s : ℤ, (if b / 2 ^ 63 % 2 = 1 then -1 else 1 : ℚ) = s := by
      split
      · exact ⟨-1, by norm_num⟩
      · exact ⟨1, by norm_num⟩
    obtain ⟨s, hs⟩ := hs
    rw [hs] at hq
    split at hq
    · cases hq
    · rename_i h1
      split at hq
      · rw [← Option.some.inj hq, hc]
        generalize b % 2 ^ 52 = m
        exact ⟨s * (m : ℤ), by rw [Int.cast_mul, Int.cast_natCast, mul_assoc]⟩
      · rename_i h2
        rw [← Option.some.inj hq]
        generalize b / 2 ^ 52 % 2 ^ 11 = E at *
        obtain ⟨E, rfl⟩ := Nat.exists_eq_succ_of_ne_zero h2
        have hm : ∃ m : ℤ, (2 ^ 52 + (b % 2 ^ 52 : ℕ) : ℚ) = m :=
          ⟨((2 ^ 52 + b % 2 ^ 52 : ℕ) : ℤ), by rw [Int.cast_natCast, Nat.cast_add, Nat.cast_pow]; rfl⟩
        obtain ⟨m, hm⟩ := hm
        refine ⟨s * (m * 2 ^ E), ?_⟩
        rw [hm, Nat.succ_eq_add_one, pow_succ 2 E, mul_div_assoc, hc, Int.cast_mul, Int.cast_mul,
          Int.cast_pow, Int.cast_ofNat, mul_assoc, mul_assoc]
  obtain ⟨k, rfl⟩ := key
  exact ⟨k, by push_cast; rfl⟩

/-- Small multiples of `2^-1074` are doubles. -/
theorem grid_double (k : ℤ) (h : |(k : ℝ) * 2⁻¹ ^ 1074| < 2⁻¹ ^ 1022) :
    ∃ b, bitsVal b = some ((k : ℝ) * 2⁻¹ ^ 1074) := by
  have hk : k.natAbs < 2 ^ 52 := by
    rw [abs_mul, abs_of_pos (show (0 : ℝ) < 2⁻¹ ^ 1074 by positivity),
      show (1074 : ℕ) = 52 + 1022 by norm_num, pow_add, ← mul_assoc] at h
    have h1 : |(k : ℝ)| * 2⁻¹ ^ 52 < 1 := by
      by_contra h2
      push Not at h2
      have := mul_le_mul_of_nonneg_right h2 (show (0 : ℝ) ≤ 2⁻¹ ^ 1022 by positivity)
      linarith
    have h3 : |(k : ℝ)| < 2 ^ 52 := by
      rw [inv_pow] at h1
      rw [← div_eq_mul_inv, div_lt_one (by positivity)] at h1
      exact h1
    have h4 : (k.natAbs : ℝ) < ((2 ^ 52 : ℕ) : ℝ) := by
      rw [Nat.cast_natAbs, Int.cast_abs, Nat.cast_pow]; exact h3
    exact_mod_cast h4
  have hc : (2 : ℚ) / 2 ^ 1075 = 2⁻¹ ^ 1074 := by
    rw [show (2 : ℚ) ^ 1075 = 2 ^ 1074 * 2 from pow_succ 2 1074, inv_pow]
    field_simp
  have hpos : doubleValue k.natAbs = some ((k.natAbs : ℚ) * 2⁻¹ ^ 1074) := by
    unfold doubleValue
    have e1 : k.natAbs / 2 ^ 63 % 2 = 0 := by omega
    have e2 : k.natAbs / 2 ^ 52 % 2 ^ 11 = 0 := by omega
    have e3 : k.natAbs % 2 ^ 52 = k.natAbs := by omega
    simp only [e1, e2, e3, hc]
    simp
  rcases Int.natAbs_eq k with h0 | h0
  · refine ⟨k.natAbs, bitsVal_some.2 ⟨_, hpos, ?_⟩⟩
    rw [h0]; push_cast; simp
  · refine ⟨2 ^ 63 + k.natAbs, bitsVal_some.2 ⟨_, by rw [doubleValue_neg _ (by omega), hpos]; rfl, ?_⟩⟩
    rw [h0]; push_cast; simp

theorem largest_lt : largest < 2 ^ 1024 - 2 ^ 970 := by
  unfold largest
  have : (2 : ℝ) ^ 970 < 2 ^ 971 := pow_lt_pow_right₀ (by norm_num) (by norm_num)
  linarith

/-- The error of rounding to nearest. -/
theorem nearest_error {x : ℝ} {b : ℕ} (hx : |x| ≤ largest) (h : IsNearest x b) :
    ∃ z, bitsVal b = some z ∧ |z - x| ≤ 2⁻¹ ^ 53 * max |x| (2⁻¹ ^ 1022) := by
  obtain ⟨_, z, hz, hmin⟩ := h
  obtain ⟨b', q, _, h1, h2⟩ := near_double x (lt_of_le_of_lt hx largest_lt)
  exact ⟨z, hz, (hmin b' q (bitsVal_some.2 ⟨q, h1, rfl⟩)).trans h2⟩

/-- The error of rounding a sum of doubles: none if it is small. -/
theorem nearest_grid {k : ℤ} {b : ℕ} (hx : |(k : ℝ) * 2⁻¹ ^ 1074| ≤ largest)
    (h : IsNearest ((k : ℝ) * 2⁻¹ ^ 1074) b) :
    ∃ z, bitsVal b = some z ∧ |z - k * 2⁻¹ ^ 1074| ≤ 2⁻¹ ^ 53 * |(k : ℝ) * 2⁻¹ ^ 1074| := by
  by_cases hs : |(k : ℝ) * 2⁻¹ ^ 1074| < 2⁻¹ ^ 1022
  · obtain ⟨_, z, hz, hmin⟩ := h
    obtain ⟨b', hb'⟩ := grid_double k hs
    refine ⟨z, hz, (hmin b' _ hb').trans ?_⟩
    rw [sub_self, abs_zero]
    exact mul_nonneg (pow_nonneg (by norm_num) _) (abs_nonneg _)
  · obtain ⟨z, hz, h⟩ := nearest_error hx h
    exact ⟨z, hz, by rwa [max_eq_left (not_lt.1 hs)] at h⟩

theorem grid_sum {vs : List ℕ} {xs : List ℝ}
    (h : List.Forall₂ (fun v x => bitsVal v = some x) vs xs) :
    ∃ k : ℤ, xs.sum = k * 2⁻¹ ^ 1074 := by
  induction h with
  | nil => exact ⟨0, by simp⟩
  | cons h _ ih =>
    obtain ⟨k, hk⟩ := ih
    obtain ⟨j, hj⟩ := double_grid h
    exact ⟨j + k, by rw [List.sum_cons, hk, hj]; push_cast; ring⟩

theorem ulp_le {z r t : ℝ} (h : |z - r| ≤ 2⁻¹ ^ 53 * t) (ht : 0 ≤ t) : |z - r| ≤ 2⁻¹ ^ 52 * t :=
  h.trans (mul_le_mul_of_nonneg_right
    (pow_le_pow_of_le_one (by norm_num) (by norm_num) (by norm_num)) ht)

theorem two_pow_le_largest : (2 : ℝ) ^ 53 ≤ largest := by
  unfold largest
  have h1 : (2 : ℝ) ^ 1024 = 2 ^ 53 * 2 ^ 971 := by rw [← pow_add]
  have h2 : (2 : ℝ) ^ 53 ≤ 2 ^ 971 := pow_le_pow_right₀ (by norm_num) (by norm_num)
  rw [h1]
  generalize (2 : ℝ) ^ 971 = t at h2
  nlinarith

theorem small_le_largest {n : ℤ} (h : |n| ≤ 2 ^ 53) : |(n : ℝ)| ≤ largest := by
  refine le_trans ?_ two_pow_le_largest
  rw [← Int.cast_abs]
  exact_mod_cast h

/-- Integers up to `2^53` are doubles. -/
theorem nearest_int {n : ℤ} {b : ℕ} (h : |n| ≤ 2 ^ 53) (hb : IsNearest n b) : bitsVal b = some (n : ℝ) := by
  obtain ⟨_, z, hz, hmin⟩ := hb
  obtain ⟨b', q, _, h2, _, h3⟩ := doubleBits_near n (lt_of_le_of_lt h (by norm_num))
  obtain rfl := h3 h
  have := hmin b' n (bitsVal_some.2 ⟨_, h2, by simp⟩)
  rw [sub_self, abs_zero] at this
  have h0 : z = n := sub_eq_zero.1 (abs_nonpos_iff.1 this)
  rw [hz, h0]

/-- **C62, doubles.**  The arithmetic of IEEE-754 satisfies the hypothesis of `C62_lambdify`, with
`u = 2^-52` (one unit in the last place, for the library functions), `small = 2^-1022`. -/
theorem C62_binary64 (A : IRArith ℕ) (h : Binary64 A) :
    Accurate bitsVal (2⁻¹ ^ 52) (2⁻¹ ^ 1022) largest A where
  const := by
    intro b q hq
    rw [h.const]
    exact bitsVal_some.2 ⟨q, hq, rfl⟩
  add := by
    intro a b x y ha hb hxy
    obtain ⟨k, rfl⟩ := double_grid ha
    obtain ⟨j, rfl⟩ := double_grid hb
    have hn := h.add a b _ _ ha hb hxy
    have he : (k : ℝ) * 2⁻¹ ^ 1074 + j * 2⁻¹ ^ 1074 = ((k + j : ℤ) : ℝ) * 2⁻¹ ^ 1074 := by
      push_cast; ring
    rw [he] at hn hxy ⊢
    obtain ⟨z, h1, h2⟩ := nearest_grid hxy hn
    exact ⟨z, h1, ulp_le h2 (abs_nonneg _)⟩
  addInt := by
    intro a b m n ha hb hm hn hmn
    have h1 := h.add a b _ _ ha hb (by
      rw [← Int.cast_add]
      exact small_le_largest hmn)
    rw [← Int.cast_add] at h1
    exact nearest_int hmn h1
  mul := by
    intro a b x y ha hb hxy
    obtain ⟨z, h1, h2⟩ := nearest_error hxy (h.mul a b x y ha hb hxy)
    exact ⟨z, h1, ulp_le h2 (le_max_of_le_left (abs_nonneg _))⟩
  pow := h.pow
  sin := h.sin
  cos := h.cos

/-- **C62, Python's floats.**  Likewise for the hypothesis of `C62_eval_f64`. -/
theorem C62_binary64_python (B : FloatOps ℕ) (h : Binary64Python B) :
    AccuratePython bitsVal (2⁻¹ ^ 52) (2⁻¹ ^ 1022) largest B where
  ofInt := by
    intro n b q hb hq
    exact ⟨b, h.ofInt n b hb, bitsVal_some.2 ⟨q, hq, rfl⟩⟩
  fsum := by
    intro vs xs hx hs
    obtain ⟨v, h1, h2⟩ := h.fsum vs xs hx hs
    obtain ⟨k, hk⟩ := grid_sum hx
    have hle : |xs.sum| ≤ largest := by
      refine le_trans ?_ hs
      clear hx hs h2 hk
      induction xs with
      | nil => simp
      | cons x xs ih =>
        simp only [List.sum_cons, List.map_cons]
        exact (abs_add_le _ _).trans (by linarith)
    rw [hk] at hle h2 ⊢
    obtain ⟨z, h3, h4⟩ := nearest_grid hle h2
    exact ⟨v, z, h1, h3, ulp_le h4 (abs_nonneg _)⟩
  fsumInt := by
    intro a b m n ha hb hm hn hmn
    have hsum : (([(m : ℝ), (n : ℝ)] : List ℝ)).sum = ((m + n : ℤ) : ℝ) := by simp
    have hle : (([(m : ℝ), (n : ℝ)] : List ℝ).map abs).sum ≤ largest := by
      have h1 : ∀ t : ℤ, |t| ≤ 2 ^ 53 → |(t : ℝ)| ≤ 2 ^ 53 := fun t ht => by
        rw [← Int.cast_abs]
        exact_mod_cast ht
      have := h1 m hm
      have := h1 n hn
      have hl : (2 : ℝ) ^ 53 * 2 ≤ largest := by
        unfold largest
        have e1 : (2 : ℝ) ^ 1024 = 2 ^ 53 * 2 ^ 971 := by rw [← pow_add]
        have e2 : (2 : ℝ) ^ 53 ≤ 2 ^ 971 := pow_le_pow_right₀ (by norm_num) (by norm_num)
        rw [e1]
        generalize (2 : ℝ) ^ 971 = t at e2
        nlinarith
      simp only [List.map_cons, List.map_nil, List.sum_cons, List.sum_nil, add_zero]
      linarith
    obtain ⟨v, h1, h2⟩ := h.fsum [a, b] [(m : ℝ), (n : ℝ)] (.cons ha (.cons hb .nil)) hle
    rw [hsum] at h2
    exact ⟨v, h1, nearest_int hmn h2⟩
  prod := by
    obtain ⟨mul, h1, h2⟩ := h.prod
    refine ⟨mul, ?_, h2⟩
    intro a b x y ha hb hxy
    obtain ⟨z, h3, h4⟩ := nearest_error hxy (h1 a b x y ha hb hxy)
    exact ⟨z, h3, ulp_le h4 (le_max_of_le_left (abs_nonneg _))⟩
  pow := h.pow
  sin := h.sin
  cos := h.cos

/-! ### There are such arithmetics -/

/-- There is a nearest double. -/
theorem exists_nearest (x : ℝ) : ∃ b, IsNearest x b := by
  classical
  have hne : ((Finset.range (2 ^ 64)).filter fun b => (doubleValue b).isSome).Nonempty :=
    ⟨0, by rw [Finset.mem_filter, Finset.mem_range]; exact ⟨by norm_num, by decide +kernel⟩⟩
  obtain ⟨b, hb, hmin⟩ := Finset.exists_min_image _
    (fun b => |(((doubleValue b).getD 0 : ℚ) : ℝ) - x|) hne
  rw [Finset.mem_filter, Finset.mem_range] at hb
  obtain ⟨hb1, hb2⟩ := hb
  obtain ⟨q, hq⟩ := Option.isSome_iff_exists.1 hb2
  refine ⟨b, hb1, q, bitsVal_some.2 ⟨q, hq, rfl⟩, ?_⟩
  intro b' z' hz'
  obtain ⟨q', hq', rfl⟩ := bitsVal_some.1 hz'
  have hmod : doubleValue (b' % 2 ^ 64) = doubleValue b' := by
    unfold doubleValue
    have e1 : b' % 2 ^ 64 / 2 ^ 63 % 2 = b' / 2 ^ 63 % 2 := by omega
    have e2 : b' % 2 ^ 64 / 2 ^ 52 % 2 ^ 11 = b' / 2 ^ 52 % 2 ^ 11 := by omega
    have e3 : b' % 2 ^ 64 % 2 ^ 52 = b' % 2 ^ 52 := by omega
    rw [e1, e2, e3]
  have := hmin (b' % 2 ^ 64) (by
    rw [Finset.mem_filter, Finset.mem_range, hmod, hq']
    exact ⟨Nat.mod_lt _ (by norm_num), rfl⟩)
  rw [hmod, hq', hq] at this
  simpa using this

noncomputable def roundNearest (x : ℝ) : ℕ := (exists_nearest x).choose

/-- Apply an operation to the values and round. -/
noncomputable def rounded2 (f : ℝ → ℝ → ℝ) (a b : ℕ) : ℕ :=
  roundNearest (f ((bitsVal a).getD 0) ((bitsVal b).getD 0))

noncomputable def rounded1 (f : ℝ → ℝ) (a : ℕ) : ℕ := roundNearest (f ((bitsVal a).getD 0))

theorem round_unit {x : ℝ} (h : |x| ≤ 1) :
    ∃ z, bitsVal (roundNearest x) = some z ∧ |z - x| ≤ 2⁻¹ ^ 52 := by
  have hle : |x| ≤ largest := by
    refine h.trans ?_
    unfold largest
    have h1 : (2 : ℝ) ^ 1024 = 2 ^ 53 * 2 ^ 971 := by rw [← pow_add]
    have h2 : (1 : ℝ) ≤ 2 ^ 971 := one_le_pow₀ (by norm_num)
    rw [h1]
    nlinarith
  obtain ⟨z, h1, h2⟩ := nearest_error hle (exists_nearest x).choose_spec
  refine ⟨z, h1, (ulp_le h2 (le_max_of_le_left (abs_nonneg _))).trans ?_⟩
  have : max |x| (2⁻¹ ^ 1022) ≤ 1 := max_le h (pow_le_one₀ (by norm_num) (by norm_num))
  have hp : (0 : ℝ) ≤ 2⁻¹ ^ 52 := by positivity
  nlinarith

/-- Doubles with correctly rounded operations. -/
noncomputable def binary64 : IRArith ℕ where
  const b := b
  fadd := rounded2 (· + ·)
  fmul := rounded2 (· * ·)
  pow := rounded2 (· ^ ·)
  sin := rounded1 Real.sin
  cos := rounded1 Real.cos

theorem binary64_ok : Binary64 binary64 where
  const _ := rfl
  add := by
    intro a b x y ha hb _
    simp only [binary64, rounded2, ha, hb, Option.getD_some]
    exact (exists_nearest _).choose_spec
  mul := by
    intro a b x y ha hb _
    simp only [binary64, rounded2, ha, hb, Option.getD_some]
    exact (exists_nearest _).choose_spec
  pow := by
    intro a b x n _ ha hb hx
    simp only [binary64, rounded2, ha, hb, Option.getD_some, Real.rpow_intCast]
    obtain ⟨z, h1, h2⟩ := nearest_error hx (exists_nearest _).choose_spec
    exact ⟨z, h1, ulp_le h2 (le_max_of_le_left (abs_nonneg _))⟩
  sin := by
    intro a x ha
    simp only [binary64, rounded1, ha, Option.getD_some]
    exact round_unit (Real.abs_sin_le_one x)
  cos := by
    intro a x ha
    simp only [binary64, rounded1, ha, Option.getD_some]
    exact round_unit (Real.abs_cos_le_one x)

/-- Python's functions over the same arithmetic. -/
noncomputable def pythonFloats : FloatOps ℕ where
  ofInt n := match doubleBits n with
    | some b => .ok b
    | none => .error .overflowError
  fsum vs := .ok (roundNearest (vs.map fun v => (bitsVal v).getD 0).sum)
  prod vs := match vs with
    | [] => .ok 0x3ff0000000000000
    | a :: vs => .ok (vs.foldl binary64.fmul a)
  pow a b := .ok (binary64.pow a b)
  sin a := .ok (binary64.sin a)
  cos a := .ok (binary64.cos a)

theorem pythonFloats_ok : Binary64Python pythonFloats where
  ofInt := by intro n b hb; simp only [pythonFloats, hb]
  fsum := by
    intro vs xs hx hs
    refine ⟨_, rfl, ?_⟩
    clear hs
    have : vs.map (fun v => (bitsVal v).getD 0) = xs := by
      induction hx with
      | nil => rfl
      | cons h _ ih => rw [List.map_cons, h, ih]; rfl
    rw [this]
    exact (exists_nearest _).choose_spec
  prod := ⟨binary64.fmul, binary64_ok.mul, fun a vs => rfl⟩
  pow := by
    intro a b x n hn ha hb hx
    obtain ⟨z, h⟩ := binary64_ok.pow a b x n hn ha hb hx
    exact ⟨_, z, rfl, h⟩
  sin := by
    intro a x ha
    obtain ⟨z, h⟩ := binary64_ok.sin a x ha
    exact ⟨_, z, rfl, h⟩
  cos := by
    intro a x ha
    obtain ⟨z, h⟩ := binary64_ok.cos a x ha
    exact ⟨_, z, rfl, h⟩

/-- Magnitude and number of roundings of `x*y + 1`. -/
theorem sample_errBound {a b : ℝ} (ha : |a| ≤ 1000) (hb : |b| ≤ 1000) :
    ErrBound [x, y] [a, b] (2⁻¹ ^ 52) (2⁻¹ ^ 1022) largest (add (mul x y) (integer 1))
      (|a| * |b| + 2⁻¹ ^ 1022 + 1) 2 := by
  have hsm0 : (0 : ℝ) ≤ 2⁻¹ ^ 1022 := pow_nonneg (by norm_num) _
  have hsm1 : (2⁻¹ : ℝ) ^ 1022 ≤ 1 := pow_le_one₀ (by norm_num) (by norm_num)
  have hl := two_pow_le_largest
  generalize (2⁻¹ : ℝ) ^ 1022 = sm at hsm0 hsm1 ⊢
  generalize largest = hi at hl ⊢
  have hab : |a| * |b| ≤ 1000000 := by
    have := abs_nonneg a
    have := abs_nonneg b
    nlinarith
  have hab0 : 0 ≤ |a| * |b| := by positivity
  have hx : ErrBound [x, y] [a, b] (2⁻¹ ^ 52) sm hi x |a| 0 := .param (by simp)
  have hy : ErrBound [x, y] [a, b] (2⁻¹ ^ 52) sm hi y |b| 0 := .param (by simp)
  have hxy : (x : Expr) ≠ y := by decide
  have hm : ErrBound [x, y] [a, b] (2⁻¹ ^ 52) sm hi (mul x y) (|a| * |b| + sm) 1 := by
    have := ErrBound.mul (S := [x, y]) (xs := [a, b]) (u := 2⁻¹ ^ 52) (small := sm) (hi := hi)
      (a := x) (args := [y]) (M := fun t => if t = x then |a| else |b|) (k := fun _ => 0) (D := 1)
      (by
        intro t ht
        simp only [List.mem_cons, List.not_mem_nil, or_false] at ht
        rcases ht with rfl | rfl
        · simpa using hx
        · simpa [hxy.symm] using hy)
      (by simp)
      (by
        intro pre hpre
        have h4 : ∀ t : ℝ, t ≤ 1000001 → t * (1 + 2⁻¹ ^ 52) ^ 1 ≤ hi := by
          intro t ht
          refine le_trans ?_ hl
          nlinarith
        rw [List.prefix_cons_iff] at hpre
        rcases hpre with rfl | ⟨l, rfl, hl'⟩
        · simp only [List.foldl_nil, if_true]
          exact h4 _ (by linarith)
        · rw [List.prefix_nil.1 hl']
          simp only [List.foldl_cons, List.foldl_nil, if_true, hxy.symm, if_false]
          exact h4 _ (by linarith))
    simp only [List.foldl_cons, List.foldl_nil, if_true, hxy.symm, if_false] at this
    exact this
  have hi1 : ErrBound [x, y] [a, b] (2⁻¹ ^ 52) sm hi (integer 1) 1 0 := by
    have := ErrBound.int (S := [x, y]) (xs := [a, b]) (u := 2⁻¹ ^ 52) (small := sm) (hi := hi)
      (n := 1) (by decide)
    rwa [Int.cast_one, abs_one] at this
  have hne : integer 1 ≠ mul x y := by decide
  have := ErrBound.add (S := [x, y]) (xs := [a, b]) (u := 2⁻¹ ^ 52) (small := sm) (hi := hi)
    (args := [mul x y, integer 1]) (M := fun t => if t = mul x y then |a| * |b| + sm else 1)
    (k := fun t => if t = mul x y then 1 else 0) (D := 2) (by simp)
    (by
      intro t ht
      simp only [List.mem_cons, List.not_mem_nil, or_false] at ht
      rcases ht with rfl | rfl
      · simpa using hm
      · simpa [hne] using hi1)
    (by simp [hne])
    (by
      refine le_trans ?_ hl
      simp only [List.map_cons, List.map_nil, List.sum_cons, List.sum_nil, if_true, hne, if_false]
      nlinarith)
  simp only [List.map_cons, List.map_nil, List.sum_cons, List.sum_nil, if_true, hne, if_false,
    add_zero] at this
  exact this

/-- The hypotheses of `C62_lambdify`, `C62_eval_f64` and `C62_agree` hold of `x*y + 1` for all
doubles between -1000 and 1000: the compiled function and `eval_f64` return, and the results differ
by at most `2*((1 + 2^-52)^2 - 1)*(|x*y| + 2^-1022 + 1)`. -/
example (va vb : ℕ) (a b : ℝ) (hva : bitsVal va = some a) (hvb : bitsVal vb = some b)
    (ha : |a| ≤ 1000) (hb : |b| ≤ 1000) : ∃ (P : Platform ℕ) (f : Callable) (s : Proc ℕ) (w w' : ℕ)
      (z z' : ℝ), PlatformOK P binary64 ∧ Compiled P f [x, y] (.expr (add (mul x y) (integer 1))) s ∧
      call P f [.float va, .float vb] s = (.float w, s) ∧
      Expr.evalF64 pythonFloats (add (mul x y) (integer 1)) (some ⟨[(x, va), (y, vb)]⟩) = .ok w' ∧
      bitsVal w = some z ∧ bitsVal w' = some z' ∧
      |z - z'| ≤ 2 * (((1 + 2⁻¹ ^ 52) ^ 2 - 1) * (|a| * |b| + 2⁻¹ ^ 1022 + 1)) := by
  obtain ⟨P, hP⟩ := platformOK_exists binary64
  obtain ⟨f, s, hf, _⟩ := compiled_exists hP goodParams_xy.1
    (supported_of_check (show _ by decide +kernel) : Supported [x, y] (add (mul x y) (integer 1)))
    Proc.start
  obtain ⟨w, w', z, z', h⟩ := C62_agree hP (C62_binary64 _ binary64_ok)
    (C62_binary64_python _ pythonFloats_ok) (pow_nonneg (by norm_num) _) (pow_nonneg (by norm_num) _) [x, y] goodParams_xy.1
    symbols_xy _ s f hf [va, vb] (fun _ _ => rfl) [a, b] (.cons hva (.cons hvb .nil)) rfl _ _
    (sample_errBound ha hb)
  exact ⟨P, f, s, w, w', z, z', hP, hf, h⟩

/-- A reciprocal: the hypotheses hold of `y**-1` for `1/1000 ≤ |y| ≤ 1000`, and the compiled function
is within `2^-52*(1/|y| + 2^-1022)` of `1/y`. -/
example (va vb : ℕ) (a b : ℝ) (hva : bitsVal va = some a) (hvb : bitsVal vb = some b)
    (hb1 : 1 / 1000 ≤ |b|) (hb : |b| ≤ 1000) : ∃ (P : Platform ℕ) (f : Callable) (s : Proc ℕ) (w : ℕ)
      (z : ℝ), PlatformOK P binary64 ∧ Compiled P f [x, y] (.expr (pow y (integer (-1)))) s ∧
      call P f [.float va, .float vb] s = (.float w, s) ∧ bitsVal w = some z ∧
      |z - b⁻¹| ≤ 2⁻¹ ^ 52 * (|b|⁻¹ + 2⁻¹ ^ 1022) := by
  obtain ⟨P, hP⟩ := platformOK_exists binary64
  have hb0 : b ≠ 0 := abs_pos.1 (by linarith)
  have hev : ExactValue [x, y] [a, b] (pow y (integer (-1))) b⁻¹ := by
    have := ExactValue.pow (S := [x, y]) (xs := [a, b]) (a := y) (c := integer (-1)) (v := b) (-1) (.param (by simp))
      (.int (-1)) (fun h => absurd h hb0)
    rwa [zpow_neg_one] at this
  have hbound : ErrBound [x, y] [a, b] (2⁻¹ ^ 52) (2⁻¹ ^ 1022) largest (pow y (integer (-1)))
      (|b|⁻¹ + 2⁻¹ ^ 1022) 1 := by
    have heq : |b| / |b| ^ 2 = |b|⁻¹ := by
      rw [pow_two, ← div_div, div_self (abs_pos.2 hb0).ne', one_div]
    have := ErrBound.powNeg (S := [x, y]) (xs := [a, b]) (u := 2⁻¹ ^ 52) (small := 2⁻¹ ^ 1022)
      (hi := largest) (a := y) (c := integer (-1)) (r := b) (M := |b|) (k := 0) (L := |b|) (n := 1)
      (.param (by simp)) (.lit (by norm_num)) (.param (by simp)) (abs_pos.2 hb0) (by simp) (by
        have hsm1 : (2⁻¹ : ℝ) ^ 1022 ≤ 1 := pow_le_one₀ (by norm_num) (by norm_num)
        have hi : |b|⁻¹ ≤ 1000 := by
          rw [inv_le_comm₀ (abs_pos.2 hb0) (by norm_num)]; linarith
        have hl : (2 : ℝ) ^ 53 ≤ largest := two_pow_le_largest
        generalize (2⁻¹ : ℝ) ^ 1022 = sm at hsm1 ⊢
        generalize largest = t at hl ⊢
        rw [heq, pow_one]
        refine le_trans ?_ hl
        nlinarith)
    rwa [heq, pow_one] at this
  obtain ⟨f, s, hf, _⟩ := compiled_exists hP goodParams_xy.1
    (errBound_supported symbols_xy hbound) Proc.start
  obtain ⟨w, z, r, h1, h2, h3, h4, h5⟩ := C62_lambdify hP (C62_binary64 _ binary64_ok) (pow_nonneg (by norm_num) _)
    (pow_nonneg (by norm_num) _) [x, y] goodParams_xy.1 symbols_xy _ s f hf [.float va, .float vb]
    [va, vb] [a, b] (.cons (Or.inl rfl) (.cons (Or.inl rfl) .nil)) (.cons hva (.cons hvb .nil)) rfl _ _
    hbound
  obtain rfl : r = b⁻¹ := Except.ok.inj ((exactValue_exactly symbols_xy (by decide) rfl h3).symm.trans
    (exactValue_exactly symbols_xy (by decide) rfl hev))
  rw [pow_one, add_sub_cancel_left] at h5
  exact ⟨P, f, s, w, z, hP, hf, h1, h2, h5⟩

/-- The hypotheses of `C62_matrix` hold of `Matrix([[x, 0], [2, x*y + 1]])`. -/
example (va vb : ℕ) (a b : ℝ) (hva : bitsVal va = some a) (hvb : bitsVal vb = some b)
    (ha : |a| ≤ 1000) (hb : |b| ≤ 1000) : ∃ (P : Platform ℕ) (f : Callable) (s s' : Proc ℕ) (id : ℕ)
      (cells : List ℕ) (w : ℕ) (z r : ℝ), PlatformOK P binary64 ∧
      Compiled P f [x, y] (.matrix sampleMat) s ∧
      call P f [.float va, .float vb] s = (.array id, s') ∧ s'.arrays[id]? = some cells ∧
      cells[3]? = some w ∧ bitsVal w = some z ∧
      ExactValue [x, y] [a, b] (add (mul x y) (integer 1)) r ∧
      |z - r| ≤ ((1 + 2⁻¹ ^ 52) ^ 2 - 1) * (|a| * |b| + 2⁻¹ ^ 1022 + 1) := by
  obtain ⟨P, hP⟩ := platformOK_exists binary64
  obtain ⟨hm, hs, hg, hz, hsize, _⟩ := sampleMat_compiles
  obtain ⟨f, s, hf, _⟩ := C59_matrix (P := P) hP [x, y] sampleMat hm hg hs hsize hz
    (Nat.le_trans (by decide) hP.maxArgs) Proc.start
  have hf : Compiled P f [x, y] (.matrix sampleMat) s := ⟨fun _ => False, _, _, hf, .refl _⟩
  obtain ⟨id, cells, s', h1, h2, h3⟩ := C62_matrix hP (C62_binary64 _ binary64_ok) (pow_nonneg (by norm_num) _)
    (pow_nonneg (by norm_num) _) [x, y] hg symbols_xy sampleMat hm hs hsize s f hf
    [.float va, .float vb] [va, vb] [a, b] (.cons (Or.inl rfl) (.cons (Or.inl rfl) .nil))
    (.cons hva (.cons hvb .nil)) rfl
  obtain ⟨w, z, r, h4, h5, h6, _, h7⟩ := h3 1 1 _ _ _ (by decide) (by decide) rfl (sample_errBound ha hb)
  exact ⟨P, f, s, s', id, cells, w, z, r, hP, hf, h1, h2, h4, h5, h6, h7⟩

end Verif.Props
