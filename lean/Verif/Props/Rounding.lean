import Verif.Spec.Rounding
import Verif.Props.CompiledDiff
import Verif.Lemmas.Nearest
import Mathlib.Analysis.SpecialFunctions.Trigonometric.Bounds

/-!
# C62: rounding errors of compiled functions and of `eval_f64`
-/

set_option exponentiation.threshold 2000

namespace Verif.Props
open Spec Expr

variable {F : Type} {val : F → Option ℝ} {u small hi : ℝ}

/-- The float `v` stands for a number near `r`. -/
def Near (val : F → Option ℝ) (u : ℝ) (v : F) (r M : ℝ) (D : ℕ) : Prop :=
  ∃ z, val v = some z ∧ |r| ≤ M ∧ |z - r| ≤ ((1 + u) ^ D - 1) * M

/-! ### Propagation of errors -/

theorem one_le_growth (hu : 0 ≤ u) (D : ℕ) : 1 ≤ (1 + u) ^ D := one_le_pow₀ (by linarith)

theorem abs_near {z r M g : ℝ} (h1 : |r| ≤ M) (h2 : |z - r| ≤ (g - 1) * M) : |z| ≤ g * M := by
  have := abs_add_le r (z - r)
  rw [add_sub_cancel] at this
  linarith

/-- One more rounding. -/
theorem near_round {w r M g z : ℝ} (hu : 0 ≤ u) (h1 : |r| ≤ M) (h2 : |w - r| ≤ (g - 1) * M)
    (h3 : |z - w| ≤ u * |w|) : |z - r| ≤ (g * (1 + u) - 1) * M := by
  have h4 := abs_near h1 h2
  have h5 : |z - r| ≤ |z - w| + |w - r| := abs_sub_le _ _ _
  have h6 : u * |w| ≤ u * (g * M) := mul_le_mul_of_nonneg_left h4 hu
  nlinarith

theorem near_mono {z r M g g' : ℝ} (h1 : |r| ≤ M) (h2 : |z - r| ≤ (g - 1) * M) (h : g ≤ g') :
    |z - r| ≤ (g' - 1) * M := by
  have : 0 ≤ M := (abs_nonneg r).trans h1
  nlinarith

theorem near_add {z1 z2 r1 r2 M1 M2 g : ℝ} (h2 : |z1 - r1| ≤ (g - 1) * M1)
    (h4 : |z2 - r2| ≤ (g - 1) * M2) : |z1 + z2 - (r1 + r2)| ≤ (g - 1) * (M1 + M2) := by
  have : z1 + z2 - (r1 + r2) = (z1 - r1) + (z2 - r2) := by ring
  rw [this]
  have := abs_add_le (z1 - r1) (z2 - r2)
  nlinarith

theorem near_mul {z1 z2 r1 r2 M1 M2 g1 g2 : ℝ} (hg1 : 1 ≤ g1) (h1 : |r1| ≤ M1)
    (h2 : |z1 - r1| ≤ (g1 - 1) * M1) (h3 : |r2| ≤ M2) (h4 : |z2 - r2| ≤ (g2 - 1) * M2) :
    |r1 * r2| ≤ M1 * M2 ∧ |z1 * z2 - r1 * r2| ≤ (g1 * g2 - 1) * (M1 * M2) := by
  have hz2 := abs_near h3 h4
  have hM1 : 0 ≤ M1 := (abs_nonneg r1).trans h1
  have hM2 : 0 ≤ M2 := (abs_nonneg r2).trans h3
  refine ⟨by rw [abs_mul]; exact mul_le_mul h1 h3 (abs_nonneg _) hM1, ?_⟩
  have : z1 * z2 - r1 * r2 = (z1 - r1) * z2 + r1 * (z2 - r2) := by ring
  rw [this]
  have h5 := abs_add_le ((z1 - r1) * z2) (r1 * (z2 - r2))
  rw [abs_mul, abs_mul] at h5
  have h6 : |z1 - r1| * |z2| ≤ ((g1 - 1) * M1) * (g2 * M2) :=
    mul_le_mul h2 hz2 (abs_nonneg _) (mul_nonneg (by linarith) hM1)
  have h7 : |r1| * |z2 - r2| ≤ M1 * ((g2 - 1) * M2) :=
    mul_le_mul h1 h4 (abs_nonneg _) hM1
  nlinarith

theorem near_pow {z r M g : ℝ} (hg : 1 ≤ g) (h1 : |r| ≤ M) (h2 : |z - r| ≤ (g - 1) * M) (n : ℕ) :
    |r ^ n| ≤ M ^ n ∧ |z ^ n - r ^ n| ≤ (g ^ n - 1) * M ^ n := by
  induction n with
  | zero => simp
  | succ n ih =>
    have := near_mul (one_le_pow₀ hg) ih.1 ih.2 h1 h2
    simpa [pow_succ] using this

/-- One more rounding, with underflow. -/
theorem near_round_small {w r M g z : ℝ} (hu : 0 ≤ u) (hsm : 0 ≤ small) (hg : 1 ≤ g) (h1 : |r| ≤ M)
    (h2 : |w - r| ≤ (g - 1) * M) (h3 : |z - w| ≤ u * max |w| small) :
    |z - r| ≤ (g * (1 + u) - 1) * (M + small) := by
  have h4 := abs_near h1 h2
  have h5 : |z - r| ≤ |z - w| + |w - r| := abs_sub_le _ _ _
  have h6 : max |w| small ≤ g * M + small :=
    max_le (by linarith) (by have := (abs_nonneg w).trans h4; linarith)
  have h7 : u * max |w| small ≤ u * (g * M + small) := mul_le_mul_of_nonneg_left h6 hu
  have h8 : 0 ≤ (g - 1) * small := mul_nonneg (by linarith) hsm
  have h9 : 0 ≤ u * ((g - 1) * small) := mul_nonneg hu h8
  nlinarith

/-! ### Operations -/

theorem Near.mono {v : F} {r M : ℝ} {D D' : ℕ} (hu : 0 ≤ u) (h : Near val u v r M D) (hD : D ≤ D') :
    Near val u v r M D' := by
  obtain ⟨z, h1, h2, h3⟩ := h
  exact ⟨z, h1, h2, near_mono h2 h3 (pow_le_pow_right₀ (by linarith) hD)⟩

/-- Repeated addition. -/
theorem near_foldl_add {A : IRArith F} (hA : Accurate val u small hi A) (hu : 0 ≤ u) (k : ℕ)
    (l : List (F × ℝ × ℝ)) (hl : ∀ p ∈ l, Near val u p.1 p.2.1 p.2.2 k) (v : F) (r M : ℝ) (j : ℕ)
    (hv : Near val u v r M (k + j))
    (hhi : (M + (l.map fun p => p.2.2).sum) * (1 + u) ^ (k + j + l.length) ≤ hi) :
    Near val u ((l.map fun p => p.1).foldl A.fadd v) (r + (l.map fun p => p.2.1).sum)
      (M + (l.map fun p => p.2.2).sum) (k + j + l.length) := by
  induction l generalizing v r M j with
  | nil => simpa using hv
  | cons p l ih =>
    obtain ⟨z1, h1, h2, h3⟩ := hv
    obtain ⟨z2, h4, h5, h6⟩ := (hl p (by simp)).mono hu (D' := k + j) (by omega)
    have hadd := near_add h3 h6
    have hr : |r + p.2.1| ≤ M + p.2.2 := (abs_add_le _ _).trans (by linarith)
    have hM2 : 0 ≤ M + p.2.2 := (abs_nonneg _).trans hr
    have hsum : 0 ≤ (l.map fun p => p.2.2).sum := by
      apply List.sum_nonneg
      intro x hx
      obtain ⟨q, hq, rfl⟩ := List.mem_map.1 hx
      obtain ⟨_, _, h, _⟩ := hl q (by simp [hq])
      exact (abs_nonneg _).trans h
    have hg := one_le_growth hu (k + j)
    have hzz : |z1 + z2| ≤ hi := by
      refine (abs_near hr hadd).trans (le_trans ?_ hhi)
      rw [mul_comm]
      simp only [List.map_cons, List.sum_cons, List.length_cons]
      refine mul_le_mul (by linarith) (pow_le_pow_right₀ (by linarith) (by omega)) (by linarith)
        (by linarith)
    obtain ⟨z, h7, h8⟩ := hA.add v p.1 z1 z2 h1 h4 hzz
    have h9 := near_round hu hr hadd h8
    rw [← pow_succ] at h9
    have := ih (fun q hq => hl q (by simp [hq])) (A.fadd v p.1) (r + p.2.1) (M + p.2.2) (j + 1)
      ⟨z, h7, hr, h9⟩ ?_
    · simp only [List.map_cons, List.foldl_cons, List.sum_cons, List.length_cons]
      rw [← add_assoc, ← add_assoc, show k + j + (l.length + 1) = k + (j + 1) + l.length by omega]
      exact this
    · refine le_trans (le_of_eq ?_) hhi
      simp only [List.map_cons, List.sum_cons, List.length_cons]
      rw [add_assoc M, show k + j + (l.length + 1) = k + (j + 1) + l.length by omega]

/-- Repeated multiplication. -/
theorem near_foldl_mul {mul : F → F → F} (hm : AccurateMul val u small hi mul) (hu : 0 ≤ u)
    (hsm : 0 ≤ small) (l : List (F × ℝ × ℝ × ℕ)) (hl : ∀ p ∈ l, Near val u p.1 p.2.1 p.2.2.1 p.2.2.2)
    (v : F) (r M : ℝ) (D : ℕ) (hv : Near val u v r M D) (E : ℕ)
    (hE : D + (l.map fun p => p.2.2.2).sum + l.length ≤ E)
    (hhi : ∀ pre, pre <+: l → (pre.foldl (fun q p => q * p.2.2.1 + small) M) * (1 + u) ^ E ≤ hi) :
    Near val u (l.foldl (fun w p => mul w p.1) v) (l.foldl (fun q p => q * p.2.1) r)
      (l.foldl (fun q p => q * p.2.2.1 + small) M) E := by
  induction l generalizing v r M D with
  | nil => exact hv.mono hu (by simpa using hE)
  | cons p l ih =>
    obtain ⟨z1, h1, h2, h3⟩ := hv
    obtain ⟨z2, h4, h5, h6⟩ := hl p (by simp)
    have hg1 := one_le_growth hu D
    have hg2 := one_le_growth hu p.2.2.2
    obtain ⟨h7, h8⟩ := near_mul hg1 h2 h3 h5 h6
    simp only [List.map_cons, List.sum_cons, List.length_cons] at hE
    have hM : 0 ≤ M * p.2.2.1 := (abs_nonneg _).trans h7
    have hzz : |z1 * z2| ≤ hi := by
      refine (abs_near h7 h8).trans (le_trans ?_ (hhi [p] ⟨l, rfl⟩))
      rw [mul_comm, ← pow_add]
      simp only [List.foldl_cons, List.foldl_nil]
      exact mul_le_mul (by linarith) (pow_le_pow_right₀ (by linarith) (by omega)) (by positivity)
        (by linarith)
    obtain ⟨z, h9, h10⟩ := hm v p.1 z1 z2 h1 h4 hzz
    have h11 := near_round_small hu hsm (one_le_mul_of_one_le_of_one_le hg1 hg2) h7 h8 h10
    rw [← pow_add, ← pow_succ] at h11
    refine ih (fun q hq => hl q (by simp [hq])) (mul v p.1) (r * p.2.1) (M * p.2.2.1 + small)
      (D + p.2.2.2 + 1) ⟨z, h9, by linarith, h11⟩ (by omega) ?_
    intro pre hpre
    exact hhi (p :: pre) ((List.prefix_cons_inj p).2 hpre)

/-- What an evaluation does with the operations. -/
structure GoodMeaning (val : F → Option ℝ) (u small hi : ℝ) (Mg : Meaning Val F) : Prop where
  add : ∀ (l : List (F × ℝ × ℝ)) (k : ℕ) (D : ℕ), l ≠ [] → (∀ p ∈ l, Near val u p.1 p.2.1 p.2.2 k) →
    k + 1 ≤ D → k + l.length ≤ D + 1 → (l.map fun p => p.2.2).sum * (1 + u) ^ D ≤ hi →
    ∃ v, Mg.op addH (l.map fun p => p.1) = .ok v ∧
      Near val u v (l.map fun p => p.2.1).sum (l.map fun p => p.2.2).sum D
  addInt : ∀ a b (m n : ℤ), val a = some (m : ℝ) → val b = some (n : ℝ) → |m| ≤ 2 ^ 53 → |n| ≤ 2 ^ 53 →
    |m + n| ≤ 2 ^ 53 → ∃ v, Mg.op addH [a, b] = .ok v ∧ val v = some ((m + n : ℤ) : ℝ)
  mul : ∃ mul, AccurateMul val u small hi mul ∧
    ∀ a vs, Mg.op mulH (a :: vs) = .ok (vs.foldl mul a)
  pow : ∀ a b x (n : ℤ), (x = 0 → 0 ≤ n) → val a = some x → val b = some (n : ℝ) → |x ^ n| ≤ hi →
    ∃ v z, Mg.op powH [a, b] = .ok v ∧ val v = some z ∧ |z - x ^ n| ≤ u * max |x ^ n| small
  sin : ∀ a x, val a = some x →
    ∃ v z, Mg.op sinH [a] = .ok v ∧ val v = some z ∧ |z - Real.sin x| ≤ u
  cos : ∀ a x, val a = some x →
    ∃ v z, Mg.op cosH [a] = .ok v ∧ val v = some z ∧ |z - Real.cos x| ≤ u

theorem machine_good {A : IRArith F} (hA : Accurate val u small hi A) (hu : 0 ≤ u) (S : List Expr)
    (vs : List F) : GoodMeaning val u small hi (irMeaning A S vs) where
  add := by
    intro l k D hne hl hk hD hhi
    obtain ⟨p, l, rfl⟩ := List.exists_cons_of_ne_nil hne
    refine ⟨_, rfl, ?_⟩
    simp only [List.length_cons] at hD
    have hp := hl p (by simp)
    have hs : 0 ≤ ((p :: l).map fun p => p.2.2).sum := by
      apply List.sum_nonneg
      intro x hx
      obtain ⟨q, hq, rfl⟩ := List.mem_map.1 hx
      obtain ⟨_, _, h, _⟩ := hl q hq
      exact (abs_nonneg _).trans h
    have := near_foldl_add hA hu k l (fun q hq => hl q (by simp [hq])) p.1 p.2.1 p.2.2 0 hp (by
      refine le_trans ?_ hhi
      exact mul_le_mul_of_nonneg_left (pow_le_pow_right₀ (by linarith) (by omega)) hs)
    exact this.mono hu (by omega)
  addInt := fun a b m n ha hb hm hn hmn => ⟨_, rfl, hA.addInt a b m n ha hb hm hn hmn⟩
  mul := ⟨A.fmul, hA.mul, fun a vs => rfl⟩
  pow := by
    intro a b x n hn ha hb hx
    obtain ⟨z, h1, h2⟩ := hA.pow a b x n hn ha hb hx
    exact ⟨_, z, rfl, h1, h2⟩
  sin := by
    intro a x ha
    obtain ⟨z, h1, h2⟩ := hA.sin a x ha
    exact ⟨_, z, rfl, h1, h2⟩
  cos := by
    intro a x ha
    obtain ⟨z, h1, h2⟩ := hA.cos a x ha
    exact ⟨_, z, rfl, h1, h2⟩

theorem forall₂_of_near {k : ℕ} (l : List (F × ℝ × ℝ)) (hl : ∀ p ∈ l, Near val u p.1 p.2.1 p.2.2 k) :
    ∃ xs : List ℝ, List.Forall₂ (fun v x => val v = some x) (l.map fun p => p.1) xs ∧
      |(l.map fun p => p.2.1).sum| ≤ (l.map fun p => p.2.2).sum ∧
      |xs.sum - (l.map fun p => p.2.1).sum| ≤ ((1 + u) ^ k - 1) * (l.map fun p => p.2.2).sum ∧
      (xs.map abs).sum ≤ (1 + u) ^ k * (l.map fun p => p.2.2).sum := by
  induction l with
  | nil => exact ⟨[], .nil, by simp⟩
  | cons p l ih =>
    obtain ⟨xs, h1, h2, h3, h4⟩ := ih (fun q hq => hl q (by simp [hq]))
    obtain ⟨z, h5, h6, h7⟩ := hl p (by simp)
    refine ⟨z :: xs, .cons h5 h1, ?_, ?_, ?_⟩
    · simp only [List.map_cons, List.sum_cons]
      exact (abs_add_le _ _).trans (by linarith)
    · simp only [List.map_cons, List.sum_cons]
      exact near_add h7 h3
    · simp only [List.map_cons, List.sum_cons]
      have := abs_near h6 h7
      linarith

theorem python_good [HasNone F] {B : FloatOps F} (hB : AccuratePython val u small hi B) (hu : 0 ≤ u)
    (env : Expr → Option F) : GoodMeaning val u small hi (meaning (evalF64 B) env) where
  add := by
    intro l k D hne hl hk hD hhi
    obtain ⟨xs, h1, h2, h3, h4⟩ := forall₂_of_near l hl
    have hs := (abs_nonneg _).trans h2
    obtain ⟨v, z, h5, h6, h7⟩ := hB.fsum _ xs h1 (by
      refine h4.trans (le_trans ?_ hhi)
      rw [mul_comm]
      exact mul_le_mul_of_nonneg_left (pow_le_pow_right₀ (by linarith) (by omega)) hs)
    refine ⟨v, by rw [f64_op]; exact h5, ?_⟩
    have := near_round hu h2 h3 h7
    rw [← pow_succ] at this
    exact Near.mono hu ⟨z, h6, h2, this⟩ hk
  addInt := by rw [f64_op]; exact hB.fsumInt
  mul := by
    obtain ⟨mul, h1, h2⟩ := hB.prod
    exact ⟨mul, h1, fun a vs => by rw [f64_op]; exact h2 a vs⟩
  pow := by rw [f64_op]; exact hB.pow
  sin := by rw [f64_op]; exact hB.sin
  cos := by rw [f64_op]; exact hB.cos

/-! ### Integers -/

theorem doubleBits_near (n : Int) (hn : |n| < 2 ^ 1024 - 2 ^ 970) :
    ∃ b q, doubleBits n = some b ∧ doubleValue b = some q ∧ |(q : ℝ) - n| ≤ 2⁻¹ ^ 53 * |(n : ℝ)| ∧
      (|n| ≤ 2 ^ 53 → q = n) := by
  obtain ⟨b, hb⟩ := doubleBits_some n hn
  have hhex : doubleToHex (.int n) = .ok (pyHex b) := by simp only [doubleToHex, hb]
  obtain ⟨b', q, h1, _, h2, h3⟩ := C45_nearest n _ hhex
  rw [hexValue_pyHex] at h1
  obtain rfl := Option.some.inj h1
  refine ⟨b, q, hb, h2, ?_, ?_⟩
  · by_cases h0 : n = 0
    · subst h0
      have := (h3 0 0 (by decide +kernel)).1
      have hq : q = 0 := by simpa using this
      simp [hq]
    obtain ⟨b'', v, _, h4, h5⟩ := near_double n (by
      have h : ((|n| : ℤ) : ℝ) < ((2 ^ 1024 - 2 ^ 970 : ℤ) : ℝ) := Int.cast_lt.2 hn
      rwa [Int.cast_abs, Int.cast_sub, Int.cast_pow, Int.cast_pow] at h)
    have h6 := (h3 b'' v h4).1
    have h6 : |(q : ℝ) - n| ≤ |(v : ℝ) - n| := by
      have : ((|q - n| : ℚ) : ℝ) ≤ ((|v - n| : ℚ) : ℝ) := by exact_mod_cast h6
      simpa using this
    refine h6.trans (h5.trans ?_)
    rw [max_eq_left]
    have h1n : (1 : ℝ) ≤ |(n : ℝ)| := by
      have : 1 ≤ |n| := Int.one_le_abs h0
      exact_mod_cast this
    exact (pow_le_one₀ (by norm_num) (by norm_num)).trans h1n
  · intro hs
    obtain ⟨s, b', g1, g2, _, g4⟩ := C45_exact n hs
    rw [hhex] at g1
    obtain rfl := Except.ok.inj g1
    rw [hexValue_pyHex] at g2
    obtain rfl := Option.some.inj g2
    rw [h2] at g4
    exact Option.some.inj g4

/-! ### Expressions -/

/-- The exact value. -/
noncomputable abbrev exactly (S : List Expr) (xs : List ℝ) : Expr → PyM ℝ :=
  evalTree (meaning (evalF64 realOps) (fun t => lastAssoc t (S.zip xs)))

theorem mapM_of_forall {α β : Type} {f : α → PyM β} {g : α → β} :
    ∀ l : List α, (∀ a ∈ l, f a = .ok (g a)) → l.mapM f = .ok (l.map g)
  | [], _ => rfl
  | a :: l, h => by
    rw [List.mapM_cons, h a (by simp), mapM_of_forall l (fun b hb => h b (by simp [hb]))]
    rfl

theorem sin_lipschitz (z r : ℝ) : |Real.sin z - Real.sin r| ≤ |z - r| := by
  rw [Real.sin_sub_sin, abs_mul, abs_mul, abs_two]
  have h1 : |Real.sin ((z - r) / 2)| ≤ |(z - r) / 2| := sq_le_sq.1 Real.sin_sq_le_sq
  have h2 := Real.abs_cos_le_one ((z + r) / 2)
  rw [abs_div, abs_two] at h1
  have := mul_le_mul h1 h2 (abs_nonneg _) (by positivity)
  linarith

theorem cos_lipschitz (z r : ℝ) : |Real.cos z - Real.cos r| ≤ |z - r| := by
  have := sin_lipschitz (Real.pi / 2 - z) (Real.pi / 2 - r)
  rw [Real.sin_pi_div_two_sub, Real.sin_pi_div_two_sub] at this
  refine this.trans (le_of_eq ?_)
  rw [show Real.pi / 2 - z - (Real.pi / 2 - r) = -(z - r) by ring, abs_neg]

theorem foldl_prod (l : List ℝ) (a : ℝ) : l.foldl (fun q x => q * x) a = a * l.prod := by
  induction l generalizing a with
  | nil => simp
  | cons b l ih => rw [List.foldl_cons, ih, List.prod_cons, mul_assoc]

theorem exactValue_exactly {S : List Expr} (hS : Symbols S) (hn : S.Nodup) {xs : List ℝ}
    (hxs : S.length = xs.length) {e : Expr} {r : ℝ} (h : ExactValue S xs e r) :
    exactly S xs e = .ok r := by
  have hints : ∀ n : Int, exactly S xs (integer n) = .ok (n : ℝ) := by
    intro n
    unfold exactly
    rw [f64_integer _ _ _ (lastAssoc_not_mem _ _ _ (fun hm => by obtain ⟨_, h⟩ := hS _ hm; cases h))]
    rfl
  induction h with
  | @param t x ht =>
    obtain ⟨i, hi⟩ := List.getElem?_of_mem ht
    rw [List.getElem?_zip_eq_some] at hi
    have hl := lastAssoc_getElem hn xs hxs hi.1
    obtain ⟨nm, rfl⟩ := hS t (List.mem_of_getElem? hi.1)
    rw [hi.2] at hl
    unfold exactly
    rw [evalTree_leaf _ rfl]
    simp only [meaning, hl]
    rfl
  | int n => exact hints n
  | @add args v _ ih =>
    unfold exactly at ih ⊢
    rw [f64_node, mapM_of_forall (g := v) args ih]
    rfl
  | @mul args v _ ih =>
    unfold exactly at ih ⊢
    rw [f64_node, mapM_of_forall (g := v) args ih]
    rfl
  | @pow a c v n _ _ hd ih ihc =>
    unfold exactly at ih ihc ⊢
    rw [show (pow a c : Expr) = .node [powH, a, c] from rfl, f64_node,
      List.mapM_cons, ih, List.mapM_cons, ihc]
    show realOps.pow v (n : ℝ) = _
    simp only [realOps]
    rw [if_pos ⟨fun h => by exact_mod_cast hd h, fun _ => ⟨n, rfl⟩⟩, Real.rpow_intCast]
  | @sin a v _ ih =>
    unfold exactly at ih ⊢
    rw [show (sin a : Expr) = .node [sinH, a] from rfl, f64_node, List.mapM_cons, ih]
    rfl
  | @cos a v _ ih =>
    unfold exactly at ih ⊢
    rw [show (cos a : Expr) = .node [cosH, a] from rfl, f64_node, List.mapM_cons, ih]
    rfl

/-- The reciprocal of a computed number that stays away from 0. -/
theorem near_inv {z r M g L : ℝ} (hg : 1 ≤ g) (h1 : |r| ≤ M) (h2 : |z - r| ≤ (g - 1) * M) (hL : 0 < L)
    (h3 : L + (g - 1) * M ≤ |r|) : z ≠ 0 ∧ r ≠ 0 ∧ |r⁻¹| ≤ M / L ^ 2 ∧
      |z⁻¹ - r⁻¹| ≤ (g - 1) * (M / L ^ 2) := by
  have hM : 0 ≤ M := (abs_nonneg _).trans h1
  have hgM : 0 ≤ (g - 1) * M := mul_nonneg (by linarith) hM
  have hr : L ≤ |r| := by linarith
  have hz : L ≤ |z| := by
    have := abs_sub_abs_le_abs_sub r z
    rw [abs_sub_comm] at this
    linarith
  have hr0 : r ≠ 0 := abs_pos.1 (by linarith)
  have hz0 : z ≠ 0 := abs_pos.1 (by linarith)
  have hL2 : 0 < L ^ 2 := by positivity
  refine ⟨hz0, hr0, ?_, ?_⟩
  · rw [abs_inv, inv_eq_one_div, div_le_div_iff₀ (by linarith) hL2]
    nlinarith
  · have : z⁻¹ - r⁻¹ = (r - z) / (z * r) := by field_simp
    rw [this, abs_div, abs_mul, abs_sub_comm, ← mul_div_assoc]
    have hzr : L ^ 2 ≤ |z| * |r| := by nlinarith
    exact div_le_div₀ hgM h2 hL2 hzr

theorem smallInt_le {c : Expr} {n : Int} (h : SmallInt c n) : |n| ≤ 2 ^ 53 := by
  cases h with
  | lit h => exact h
  | add _ _ h => exact h

theorem smallInt_unique {c : Expr} {m n : Int} (h : SmallInt c m) (h' : SmallInt c n) : m = n := by
  induction h generalizing n with
  | lit _ =>
    generalize ht : integer _ = t at h'
    cases h' with
    | lit _ => cases ht; rfl
    | add _ _ _ => cases ht
  | add _ _ _ ih1 ih2 =>
    generalize ht : add _ _ = t at h'
    cases h' with
    | lit _ => cases ht
    | add g1 g2 _ => cases ht; rw [ih1 g1, ih2 g2]

theorem smallInt_exact {S : List Expr} {xs : List ℝ} {c : Expr} {n : Int} (h : SmallInt c n) :
    ExactValue S xs c n := by
  induction h with
  | lit => exact .int _
  | @add c d m n h1 h2 _ ih1 ih2 =>
    by_cases hcd : d = c
    · subst hcd
      obtain rfl := smallInt_unique h1 h2
      have := ExactValue.add (S := S) (xs := xs) (args := [d, d]) (v := fun _ => (m : ℝ)) (by
        intro t ht
        rcases List.mem_pair.1 ht with rfl | rfl <;> exact ih1)
      rw [Int.cast_add]
      simp only [List.map_cons, List.map_nil, List.sum_cons, List.sum_nil, add_zero] at this
      exact this
    · have := ExactValue.add (S := S) (xs := xs) (args := [c, d])
        (v := fun t => if t = c then (m : ℝ) else n) (by
          intro t ht
          rcases List.mem_pair.1 ht with rfl | rfl
          · simpa using ih1
          · simpa [hcd] using ih2)
      rw [Int.cast_add]
      simp only [List.map_cons, List.map_nil, List.sum_cons, List.sum_nil, add_zero, if_true, hcd,
        if_false] at this
      exact this

theorem smallInt_eval {Mg : Meaning Val F} (hG : GoodMeaning val u small hi Mg)
    (hint : ∀ (n : Int) b q, doubleBits n = some b → doubleValue b = some q →
      ∃ v, evalTree Mg (integer n) = .ok v ∧ val v = some (q : ℝ))
    {c : Expr} {n : Int} (h : SmallInt c n) :
    ∃ w, evalTree Mg c = .ok w ∧ val w = some (n : ℝ) := by
  induction h with
  | @lit n hn =>
    obtain ⟨b, q, g1, g2, _, g4⟩ := doubleBits_near n (lt_of_le_of_lt hn (by norm_num))
    obtain rfl := g4 hn
    obtain ⟨w, g5, g6⟩ := hint _ b _ g1 g2
    exact ⟨w, g5, by rw [g6]; simp⟩
  | @add c d m n g1 g2 hmn ih1 ih2 =>
    obtain ⟨v1, h1, h2⟩ := ih1
    obtain ⟨v2, h3, h4⟩ := ih2
    obtain ⟨w, h5, h6⟩ := hG.addInt v1 v2 m n h2 h4 (smallInt_le g1) (smallInt_le g2) hmn
    refine ⟨w, ?_, h6⟩
    rw [show (add c d : Expr) = .node [addH, c, d] from rfl, evalTree_node _ rfl]
    show [c, d].mapM (evalTree Mg) >>= _ = _
    rw [List.mapM_cons, h1, List.mapM_cons, h3]
    exact h5

theorem smallInt_supported (S : List Expr) {c : Expr} {n : Int} (h : SmallInt c n) : Supported S c := by
  induction h with
  | lit h => exact supported_int S _ (lt_of_le_of_lt h (by norm_num))
  | add _ _ _ ih1 ih2 =>
    refine supported_node.2 ⟨Or.inl ⟨Or.inl rfl, by simp⟩, ?_⟩
    intro t ht
    rcases List.mem_pair.1 ht with rfl | rfl
    · exact ih1
    · exact ih2

/-- The error of an evaluation. -/
theorem eval_near {Mg : Meaning Val F} (hG : GoodMeaning val u small hi Mg) (hu : 0 ≤ u)
    (hsm : 0 ≤ small) {S : List Expr} (hS : Symbols S) (hn : S.Nodup)
    {xs : List ℝ} (hxs : S.length = xs.length)
    (hparam : ∀ t x, (t, x) ∈ S.zip xs → ∃ v, evalTree Mg t = .ok v ∧ val v = some x)
    (hint : ∀ (n : Int) b q, doubleBits n = some b → doubleValue b = some q →
      ∃ v, evalTree Mg (integer n) = .ok v ∧ val v = some (q : ℝ))
    {e : Expr} {M : ℝ} {D : ℕ} (h : ErrBound S xs u small hi e M D) :
    ∃ v r, evalTree Mg e = .ok v ∧ ExactValue S xs e r ∧ Near val u v r M D := by
  induction h with
  | @param t x ht =>
    obtain ⟨v, h1, h2⟩ := hparam t x ht
    exact ⟨v, x, h1, .param ht, x, h2, le_refl _, by simp⟩
  | @int n hn' =>
    obtain ⟨v, h1, h2⟩ := smallInt_eval hG hint (.lit hn')
    exact ⟨v, n, h1, .int n, n, h2, le_refl _, by simp⟩
  | @bigInt n hn' hu' =>
    obtain ⟨b, q, h1, h2, h3, _⟩ := doubleBits_near n hn'
    obtain ⟨v, h4, h5⟩ := hint n b q h1 h2
    refine ⟨v, n, h4, .int n, q, h5, le_refl _, ?_⟩
    rw [pow_one, add_sub_cancel_left]
    exact h3.trans (mul_le_mul_of_nonneg_right hu' (abs_nonneg _))
  | @add args M k D hne _ hk hhi ih =>
    have hcl : ∀ a, ∃ p : F × ℝ, a ∈ args → evalTree Mg a = .ok p.1 ∧
        ExactValue S xs a p.2 ∧ Near val u p.1 p.2 (M a) (k a) := by
      intro a
      by_cases ha : a ∈ args
      · obtain ⟨v, r, h1, h2, h3⟩ := ih a ha
        exact ⟨(v, r), fun _ => ⟨h1, h2, h3⟩⟩
      · obtain ⟨b, hb⟩ := List.exists_mem_of_ne_nil args hne
        obtain ⟨v, r, _⟩ := ih b hb
        exact ⟨(v, r), fun h => absurd h ha⟩
    choose p hp using hcl
    obtain ⟨K, hK1, hK2, hK3⟩ : ∃ K, (∀ a ∈ args, k a ≤ K) ∧ K + 1 ≤ D ∧ K + args.length ≤ D + 1 := by
      have hlen := List.length_pos_of_ne_nil hne
      obtain ⟨b, hb⟩ := List.exists_mem_of_ne_nil args hne
      have := hk b hb
      refine ⟨min (D - 1) (D + 1 - args.length), fun a ha => ?_, by omega, by omega⟩
      have := hk a ha
      omega
    obtain ⟨v, h1, h2⟩ := hG.add (args.map fun a => ((p a).1, (p a).2, M a)) K D (by simpa using hne)
      (by
        intro q hq
        obtain ⟨a, ha, rfl⟩ := List.mem_map.1 hq
        exact (hp a ha).2.2.mono hu (hK1 a ha)) hK2 (by simpa using hK3)
      (by simpa [List.map_map, Function.comp_def] using hhi)
    simp only [List.map_map, Function.comp_def] at h1 h2
    refine ⟨v, (args.map fun a => (p a).2).sum, ?_, .add fun a ha => (hp a ha).2.1, h2⟩
    · rw [evalTree_node _ rfl]
      show args.mapM (evalTree Mg) >>= _ = _
      rw [mapM_of_forall (g := fun a => (p a).1) args (fun a ha => (hp a ha).1)]
      exact h1
  | @mul a args M k D _ hD hhi ih =>
    have hcl : ∀ b, ∃ p : F × ℝ, b ∈ a :: args → evalTree Mg b = .ok p.1 ∧
        ExactValue S xs b p.2 ∧ Near val u p.1 p.2 (M b) (k b) := by
      intro b
      by_cases hb : b ∈ a :: args
      · obtain ⟨v, r, h1, h2, h3⟩ := ih b hb
        exact ⟨(v, r), fun _ => ⟨h1, h2, h3⟩⟩
      · obtain ⟨v, r, _⟩ := ih a (by simp)
        exact ⟨(v, r), fun h => absurd h hb⟩
    choose p hp using hcl
    obtain ⟨mul, hm1, hm2⟩ := hG.mul
    have hnear := near_foldl_mul hm1 hu hsm (args.map fun b => ((p b).1, (p b).2, M b, k b)) (by
        intro q hq
        obtain ⟨b, hb, rfl⟩ := List.mem_map.1 hq
        exact (hp b (by simp [hb])).2.2) (p a).1 (p a).2 (M a) (k a) (hp a (by simp)).2.2 D (by
        simpa [List.map_map, Function.comp_def] using hD) (by
        intro pre hpre
        obtain ⟨pre', h1, rfl⟩ := List.prefix_map_iff.1 hpre
        have := hhi pre' h1
        rwa [List.foldl_map])
    rw [List.foldl_map, List.foldl_map, List.foldl_map] at hnear
    have hprod : List.foldl (fun q b => q * (p b).2) (p a).2 args = ((a :: args).map fun b => (p b).2).prod := by
      rw [List.map_cons, List.prod_cons, ← foldl_prod, List.foldl_map]
    rw [hprod] at hnear
    refine ⟨_, _, ?_, .mul fun b hb => (hp b hb).2.1, hnear⟩
    · rw [evalTree_node _ rfl]
      show (a :: args).mapM (evalTree Mg) >>= _ = _
      rw [mapM_of_forall (g := fun a => (p a).1) _ (fun a ha => (hp a ha).1)]
      show Mg.op mulH _ = _
      rw [List.map_cons, hm2, List.foldl_map]
  | @pow a c M k n _ hc hhi ih =>
    obtain ⟨v, r, h1, h2e, z, h3, h4, h5⟩ := ih
    have hg := one_le_growth hu k
    obtain ⟨h6, h7⟩ := near_pow hg h4 h5 n
    have hMn : 0 ≤ M ^ n := (abs_nonneg _).trans h6
    have hgn : 1 ≤ ((1 + u) ^ k) ^ n := one_le_pow₀ hg
    obtain ⟨w, g5, g6⟩ := smallInt_eval hG hint hc
    have hz : |z ^ n| ≤ hi := by
      refine (abs_near h6 h7).trans (le_trans ?_ hhi)
      rw [mul_comm, ← pow_mul]
      refine mul_le_mul (by linarith) (pow_le_pow_right₀ (by linarith) ?_) (by positivity) (by linarith)
      rw [mul_comm]; omega
    obtain ⟨v', z', g7, g8, g9⟩ := hG.pow v w z n (fun _ => by omega) h3 g6
      (by rwa [zpow_natCast])
    rw [zpow_natCast] at g9
    have hev := ExactValue.pow (n : ℤ) h2e (smallInt_exact hc) (fun _ => by omega)
    rw [zpow_natCast] at hev
    refine ⟨v', r ^ n, ?_, hev, z', g8, by linarith, ?_⟩
    · rw [show (pow a c : Expr) = .node [powH, a, c] from rfl, evalTree_node _ rfl]
      show [a, c].mapM (evalTree Mg) >>= _ = _
      rw [List.mapM_cons, h1, List.mapM_cons, g5]
      exact g7
    · have := near_round_small hu hsm hgn h6 h7 g9
      rw [← pow_mul, mul_comm k n, ← pow_succ] at this
      exact this
  | @powNeg a c r0 M k L n _ hc hr0 hL hLr hhi ih =>
    obtain ⟨v, r, h1, h2e, z, h3, h4, h5⟩ := ih
    obtain rfl : r0 = r := Except.ok.inj
      ((exactValue_exactly hS hn hxs hr0).symm.trans (exactValue_exactly hS hn hxs h2e))
    have hg := one_le_growth hu k
    obtain ⟨hz0, hr0', i1, i2⟩ := near_inv hg h4 h5 hL hLr
    obtain ⟨h6, h7⟩ := near_pow hg i1 i2 n
    have hMn : 0 ≤ (M / L ^ 2) ^ n := (abs_nonneg _).trans h6
    have hgn : 1 ≤ ((1 + u) ^ k) ^ n := one_le_pow₀ hg
    obtain ⟨w, g5, g6⟩ := smallInt_eval hG hint hc
    have hzp : ∀ t : ℝ, t ^ (-n : ℤ) = t⁻¹ ^ n := by intro t; rw [zpow_neg, zpow_natCast, inv_pow]
    have hz : |z ^ (-n : ℤ)| ≤ hi := by
      rw [hzp]
      refine (abs_near h6 h7).trans (le_trans ?_ hhi)
      rw [mul_comm, ← pow_mul]
      refine mul_le_mul (by linarith) (pow_le_pow_right₀ (by linarith) ?_) (by positivity) (by linarith)
      rw [mul_comm]; omega
    obtain ⟨v', z', g7, g8, g9⟩ := hG.pow v w z (-n) (fun h => absurd h hz0) h3 g6 hz
    rw [hzp] at g9
    have hev := ExactValue.pow (-n : ℤ) h2e (smallInt_exact hc) (fun h => absurd h hr0')
    rw [hzp] at hev
    refine ⟨v', _, ?_, hev, z', g8, by linarith, ?_⟩
    · rw [show (pow a c : Expr) = .node [powH, a, c] from rfl,
        evalTree_node _ rfl]
      show [a, c].mapM (evalTree Mg) >>= _ = _
      rw [List.mapM_cons, h1, List.mapM_cons, g5]
      exact g7
    · have := near_round_small hu hsm hgn h6 h7 g9
      rw [← pow_mul, mul_comm k n, ← pow_succ] at this
      exact this
  | @sin a M k _ ih =>
    obtain ⟨v, r, h1, h2e, z, h3, h4, h5⟩ := ih
    obtain ⟨v', z', g1, g2, g3⟩ := hG.sin v z h3
    have hM : 0 ≤ M := (abs_nonneg _).trans h4
    refine ⟨v', Real.sin r, ?_, .sin h2e, z', g2, (Real.abs_sin_le_one r).trans (by linarith), ?_⟩
    · rw [show (sin a : Expr) = .node [sinH, a] from rfl, evalTree_node _ rfl]
      show [a].mapM (evalTree Mg) >>= _ = _
      rw [List.mapM_cons, h1]
      exact g1
    · have hl : |Real.sin z - Real.sin r| ≤ |z - r| := sin_lipschitz z r
      have := abs_sub_le z' (Real.sin z) (Real.sin r)
      have hg := one_le_growth hu k
      rw [pow_succ]
      nlinarith [mul_nonneg (mul_nonneg (le_trans zero_le_one hg) hu) hM]
  | @cos a M k _ ih =>
    obtain ⟨v, r, h1, h2e, z, h3, h4, h5⟩ := ih
    obtain ⟨v', z', g1, g2, g3⟩ := hG.cos v z h3
    have hM : 0 ≤ M := (abs_nonneg _).trans h4
    refine ⟨v', Real.cos r, ?_, .cos h2e, z', g2, (Real.abs_cos_le_one r).trans (by linarith), ?_⟩
    · rw [show (cos a : Expr) = .node [cosH, a] from rfl, evalTree_node _ rfl]
      show [a].mapM (evalTree Mg) >>= _ = _
      rw [List.mapM_cons, h1]
      exact g1
    · have hl : |Real.cos z - Real.cos r| ≤ |z - r| := cos_lipschitz z r
      have := abs_sub_le z' (Real.cos z) (Real.cos r)
      have hg := one_le_growth hu k
      rw [pow_succ]
      nlinarith [mul_nonneg (mul_nonneg (le_trans zero_le_one hg) hu) hM]

theorem errBound_supported {S : List Expr} (hS : Symbols S) {xs : List ℝ} {e : Expr} {M : ℝ} {D : ℕ}
    (h : ErrBound S xs u small hi e M D) : Supported S e := by
  induction h with
  | param ht =>
    have := (List.of_mem_zip ht).1
    obtain ⟨n, rfl⟩ := hS _ this
    exact (supported_leaf rfl).2 (Or.inl this)
  | int hn => exact supported_int S _ (lt_of_le_of_lt hn (by norm_num))
  | bigInt hn _ => exact supported_int S _ hn
  | add hne _ _ _ ih =>
    exact supported_node.2 ⟨Or.inl ⟨Or.inl rfl, List.length_pos_of_ne_nil hne⟩, ih⟩
  | mul _ _ _ ih => exact supported_node.2 ⟨Or.inl ⟨Or.inr rfl, by simp⟩, ih⟩
  | pow _ hc _ ih =>
    refine supported_node.2 ⟨Or.inr (Or.inl ⟨rfl, rfl⟩), ?_⟩
    intro t ht
    rcases List.mem_pair.1 ht with rfl | rfl
    · exact ih
    · exact smallInt_supported S hc
  | powNeg _ hc _ _ _ _ ih =>
    refine supported_node.2 ⟨Or.inr (Or.inl ⟨rfl, rfl⟩), ?_⟩
    intro t ht
    rcases List.mem_pair.1 ht with rfl | rfl
    · exact ih
    · exact smallInt_supported S hc
  | sin _ ih =>
    refine supported_node.2 ⟨Or.inr (Or.inr ⟨Or.inl rfl, rfl⟩), ?_⟩
    intro t ht
    obtain rfl := List.mem_singleton.1 ht
    exact ih
  | cos _ ih =>
    refine supported_node.2 ⟨Or.inr (Or.inr ⟨Or.inr rfl, rfl⟩), ?_⟩
    intro t ht
    obtain rfl := List.mem_singleton.1 ht
    exact ih

theorem lastAssoc_values {S : List Expr} (hn : S.Nodup) {vs : List F} {xs : List ℝ}
    (hx : List.Forall₂ (fun v x => val v = some x) vs xs) (hlen : S.length = vs.length) {t : Expr}
    {x : ℝ} (ht : (t, x) ∈ S.zip xs) : ∃ v, lastAssoc t (S.zip vs) = some v ∧ v ∈ vs ∧
      val v = some x := by
  obtain ⟨i, hi⟩ := List.getElem?_of_mem ht
  rw [List.getElem?_zip_eq_some] at hi
  have hxl := hx.length_eq
  have h1 := List.getElem?_eq_some_iff.1 hi.2
  obtain ⟨hlt, h1⟩ := h1
  have := (List.forall₂_iff_get.1 hx).2 i (by omega) hlt
  refine ⟨vs[i]'(by omega), ?_, List.getElem_mem _, ?_⟩
  · rw [lastAssoc_getElem hn vs hlen hi.1]
    exact List.getElem?_eq_getElem _
  · rw [List.get_eq_getElem, List.get_eq_getElem] at this
    rw [this, h1]

theorem machine_near {A : IRArith F} (hA : Accurate val u small hi A) (hu : 0 ≤ u)
    (hsm : 0 ≤ small) {S : List Expr} (hS : Symbols S) (hn : S.Nodup) {vs : List F} {xs : List ℝ}
    (hx : List.Forall₂ (fun v x => val v = some x) vs xs) (hlen : S.length = vs.length)
    {e : Expr} {M : ℝ} {D : ℕ} (h : ErrBound S xs u small hi e M D) :
    ∃ v r, evalTree (irMeaning A S vs) e = .ok v ∧
      ExactValue S xs e r ∧ Near val u v r M D := by
  refine eval_near (machine_good hA hu S vs) hu hsm hS hn (hlen.trans hx.length_eq) ?_ ?_ h
  · intro t x ht
    obtain ⟨v, h1, _, h2⟩ := lastAssoc_values hn hx hlen ht
    obtain ⟨nm, rfl⟩ := hS t (List.of_mem_zip ht).1
    refine ⟨v, ?_, h2⟩
    rw [evalTree_leaf _ rfl]
    simp only [irMeaning, h1]
  · intro n b q hb hq
    refine ⟨A.const b, ?_, hA.const b q hq⟩
    rw [evalTree_leaf _ rfl]
    have : lastAssoc (integer n) (S.zip vs) = none :=
      lastAssoc_not_mem _ _ _ (fun hm => by obtain ⟨_, h⟩ := hS _ hm; cases h)
    simp only [irMeaning, this]
    simp only [integer, if_true, hb]

theorem python_near [HasNone F] {B : FloatOps F} (hB : AccuratePython val u small hi B)
    (hu : 0 ≤ u) (hsm : 0 ≤ small) {S : List Expr} (hS : Symbols S) (hn : S.Nodup)
    {vs : List F} (hnone : ∀ v ∈ vs, HasNone.isNone v = false) {xs : List ℝ}
    (hx : List.Forall₂ (fun v x => val v = some x) vs xs) (hlen : S.length = vs.length)
    {e : Expr} {M : ℝ} {D : ℕ} (h : ErrBound S xs u small hi e M D) :
    ∃ v r, evalTree (meaning (evalF64 B) (fun t => lastAssoc t (S.zip vs))) e = .ok v ∧
      ExactValue S xs e r ∧ Near val u v r M D := by
  refine eval_near (python_good hB hu _) hu hsm hS hn (hlen.trans hx.length_eq) ?_ ?_ h
  · intro t x ht
    obtain ⟨v, h1, hm, h2⟩ := lastAssoc_values hn hx hlen ht
    obtain ⟨nm, rfl⟩ := hS t (List.of_mem_zip ht).1
    refine ⟨v, ?_, h2⟩
    rw [evalTree_leaf _ rfl]
    simp only [meaning, h1, hnone v hm]
    rfl
  · intro n b q hb hq
    obtain ⟨v, h1, h2⟩ := hB.ofInt n b q hb hq
    refine ⟨v, ?_, h2⟩
    rw [f64_integer _ _ _ (lastAssoc_not_mem _ _ _ (fun hm => by obtain ⟨_, h⟩ := hS _ hm; cases h))]
    exact h1

theorem exactly_iff {S : List Expr} {xs : List ℝ} {e : Expr} {r : ℝ} :
    e.evalF64 realOps (some (Dict.ofPairs (S.zip xs))) = .ok r ↔ exactly S xs e = .ok r := by
  rw [evalF64_ok_iff _ _ _ (keys_ofPairs_nodup _)]
  have hget : (Dict.ofPairs (S.zip xs)).get? = fun t => lastAssoc t (S.zip xs) := by
    funext t; exact Dict.get?_ofPairs _ _
  rw [hget]

/-- **C62, compiled functions.**  If `e` has magnitude `M` and `D` roundings at the point `xs` and
nothing overflows there, the number that the compiled function returns differs from the exact value
of `e` by at most `((1 + u)^D - 1)*M`. -/
theorem C62_lambdify {P : Platform F} {A : IRArith F} (hP : PlatformOK P A)
    (hA : Accurate val u small hi A) (hu : 0 ≤ u) (hsm : 0 ≤ small) (S : List Expr)
    (hg : GoodParams S) (hS : Symbols S) (e : Expr) (s : Proc F) (f : Callable)
    (hf : Compiled P f S (.expr e) s) (args : List (CallArg F)) (vs : List F) (xs : List ℝ)
    (hv : List.Forall₂ (IsDouble A) args vs)
    (hx : List.Forall₂ (fun v x => val v = some x) vs xs) (hlen : args.length = S.length) (M : ℝ)
    (D : ℕ) (hb : ErrBound S xs u small hi e M D) :
    ∃ w z r, call P f args s = (.float w, s) ∧ val w = some z ∧
      ExactValue S xs e r ∧ e.evalF64 realOps (some (Dict.ofPairs (S.zip xs))) = .ok r ∧
      |z - r| ≤ ((1 + u) ^ D - 1) * M := by
  obtain ⟨v, h1, h2⟩ := compiled_call hP hg (errBound_supported hS hb) hf args vs hv hlen
  obtain ⟨w, r, h3, h4e, z, h5, _, h6⟩ := machine_near hA hu hsm hS (goodParams_nodup hg) hx
    (hlen.symm.trans hv.length_eq) hb
  rw [h1] at h3
  obtain rfl := Except.ok.inj h3
  exact ⟨v, z, r, h2, h5, h4e, exactly_iff.2 (exactValue_exactly hS (goodParams_nodup hg)
    ((hlen.symm.trans hv.length_eq).trans hx.length_eq) h4e), h6⟩

/-- **C62, `eval_f64`.**  The same for `e.eval_f64(dict(zip(S, vs)))`, which returns. -/
theorem C62_eval_f64 [HasNone F] {B : FloatOps F} (hB : AccuratePython val u small hi B)
    (hu : 0 ≤ u) (hsm : 0 ≤ small) (S : List Expr) (hS : Symbols S) (hn : S.Nodup) (e : Expr)
    (vs : List F) (hnone : ∀ v ∈ vs, HasNone.isNone v = false) (xs : List ℝ)
    (hx : List.Forall₂ (fun v x => val v = some x) vs xs) (hlen : vs.length = S.length) (M : ℝ)
    (D : ℕ) (hb : ErrBound S xs u small hi e M D) :
    ∃ w z r, e.evalF64 B (some (Dict.ofPairs (S.zip vs))) = .ok w ∧ val w = some z ∧
      ExactValue S xs e r ∧ e.evalF64 realOps (some (Dict.ofPairs (S.zip xs))) = .ok r ∧
      |z - r| ≤ ((1 + u) ^ D - 1) * M := by
  obtain ⟨w, r, h3, h4e, z, h5, _, h6⟩ := python_near hB hu hsm hS hn hnone hx hlen.symm hb
  refine ⟨w, z, r, ?_, h5, h4e,
    exactly_iff.2 (exactValue_exactly hS hn (hlen.symm.trans hx.length_eq) h4e), h6⟩
  rw [evalF64_ok_iff _ _ _ (keys_ofPairs_nodup _)]
  have hget : (Dict.ofPairs (S.zip vs)).get? = fun t => lastAssoc t (S.zip vs) := by
    funext t; exact Dict.get?_ofPairs _ _
  rw [hget]
  exact h3

/-- **C62, agreement.**  Hence `lambdify(S, e)(*vs)` and `e.eval_f64(dict(zip(S, vs)))` differ by at
most `2*((1 + u)^D - 1)*M`, although one rounds sums once and the other after every addition. -/
theorem C62_agree [HasNone F] {P : Platform F} {A : IRArith F} (hP : PlatformOK P A) {B : FloatOps F}
    (hA : Accurate val u small hi A) (hB : AccuratePython val u small hi B) (hu : 0 ≤ u)
    (hsm : 0 ≤ small) (S : List Expr) (hg : GoodParams S) (hS : Symbols S) (e : Expr) (s : Proc F)
    (f : Callable) (hf : Compiled P f S (.expr e) s) (vs : List F)
    (hnone : ∀ v ∈ vs, HasNone.isNone v = false) (xs : List ℝ)
    (hx : List.Forall₂ (fun v x => val v = some x) vs xs) (hlen : vs.length = S.length) (M : ℝ)
    (D : ℕ) (hb : ErrBound S xs u small hi e M D) :
    ∃ w w' z z', call P f (vs.map .float) s = (.float w, s) ∧
      e.evalF64 B (some (Dict.ofPairs (S.zip vs))) = .ok w' ∧ val w = some z ∧ val w' = some z' ∧
      |z - z'| ≤ 2 * (((1 + u) ^ D - 1) * M) := by
  have hv : List.Forall₂ (IsDouble A) (vs.map CallArg.float) vs := by
    clear hx hlen hnone
    induction vs with
    | nil => exact .nil
    | cons v vs ih => exact .cons (Or.inl rfl) ih
  obtain ⟨w, z, r, h1, h2, _, h3, h4⟩ := C62_lambdify hP hA hu hsm S hg hS e s f hf (vs.map .float) vs xs
    hv hx (by simp [hlen]) M D hb
  obtain ⟨w', z', r', h5, h6, _, h7, h8⟩ := C62_eval_f64 hB hu hsm S hS (goodParams_nodup hg) e vs hnone xs
    hx hlen M D hb
  rw [h3] at h7
  obtain rfl := Except.ok.inj h7
  refine ⟨w, w', z, z', h1, h5, h2, h6, ?_⟩
  have := abs_sub_le z r z'
  rw [abs_sub_comm r z'] at this
  linarith

/-- **C62, matrices.**  Every cell of the array that a compiled matrix returns differs from the exact
value of the entry by at most `((1 + u)^D - 1)*M`. -/
theorem C62_matrix {P : Platform F} {A : IRArith F} (hP : PlatformOK P A)
    (hA : Accurate val u small hi A) (hu : 0 ≤ u) (hsm : 0 ≤ small) (S : List Expr)
    (hg : GoodParams S ["_out"]) (hS : Symbols S) (m : Mat) (hm : MatHistory m)
    (hs : MatSupported S m) (hsize : m.nrows * m.ncols ≤ 2 ^ 31) (s : Proc F) (f : Callable)
    (hf : Compiled P f S (.matrix m) s) (args : List (CallArg F)) (vs : List F) (xs : List ℝ)
    (hv : List.Forall₂ (IsDouble A) args vs)
    (hx : List.Forall₂ (fun v x => val v = some x) vs xs) (hlen : args.length = S.length) :
    ∃ id cells s', call P f args s = (.array id, s') ∧ s'.arrays[id]? = some cells ∧
      ∀ (i j : Nat) (e : Expr) (M : ℝ) (D : ℕ), i < m.nrows → j < m.ncols →
        m.getItem (.pair i j) = .ok e → ErrBound S xs u small hi e M D →
        ∃ w z r, cells[i * m.ncols + j]? = some w ∧ val w = some z ∧
          ExactValue S xs e r ∧ e.evalF64 realOps (some (Dict.ofPairs (S.zip xs))) = .ok r ∧
          |z - r| ≤ ((1 + u) ^ D - 1) * M := by
  have hz : zero ∉ S := fun h => by obtain ⟨_, h⟩ := hS _ h; cases h
  obtain ⟨W, s0, s1, g1, g2⟩ := hf
  obtain ⟨f', s1', g3, g4⟩ := C59_matrix hP S m hm hg hs hsize hz
    (by simpa [ctypesParams] using C59_parameter_limit g1) s0
  rw [g1] at g3
  simp only [Prod.mk.injEq, Except.ok.injEq] at g3
  obtain ⟨rfl, rfl⟩ := g3
  obtain ⟨id, cells, s', g5, g6, g7, g8, g9⟩ := g4 W s g2 args vs hv hlen
  refine ⟨id, cells, s', g5, g9 (fun _ => False) s' (.refl _) (fun h => h), ?_⟩
  intro i j e M D hi hj he hb
  obtain ⟨e', v, g10, g11, g12⟩ := g8 i j hi hj
  rw [he] at g10
  obtain rfl := Except.ok.inj g10
  obtain ⟨w, r, h3, h4e, z, h5, _, h6⟩ := machine_near hA hu hsm hS (goodParams_nodup hg) hx
    (hlen.symm.trans hv.length_eq) hb
  rw [evaluates_iff.1 g11] at h3
  obtain rfl := Except.ok.inj h3
  exact ⟨v, z, r, g12, h5, h4e, exactly_iff.2 (exactValue_exactly hS (goodParams_nodup hg)
    ((hlen.symm.trans hv.length_eq).trans hx.length_eq) h4e), h6⟩

end Verif.Props
