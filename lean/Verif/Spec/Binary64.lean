import Verif.Spec.Rounding

/-!
# IEEE-754 binary64 arithmetic

Floats are 64-bit patterns.
-/

namespace Verif.Spec

/-- The number that a bit pattern stands for; none for infinities and NaNs. -/
noncomputable def bitsVal (b : ℕ) : Option ℝ := (doubleValue b).map fun q : ℚ => (q : ℝ)

/-- `b` is a double and no double is nearer to `x`. -/
def IsNearest (x : ℝ) (b : ℕ) : Prop :=
  b < 2 ^ 64 ∧ ∃ z, bitsVal b = some z ∧ ∀ b' z', bitsVal b' = some z' → |z - x| ≤ |z' - x|

/-- The largest double. -/
noncomputable def largest : ℝ := 2 ^ 1024 - 2 ^ 971

/-- The machine's arithmetic: sums and products are rounded to nearest, as IEEE-754 demands; powers,
sines and cosines are right up to one unit in the last place. -/
structure Binary64 (A : IRArith ℕ) : Prop where
  const : ∀ b, A.const b = b
  add : ∀ a b x y, bitsVal a = some x → bitsVal b = some y → |x + y| ≤ largest →
    IsNearest (x + y) (A.fadd a b)
  mul : ∀ a b x y, bitsVal a = some x → bitsVal b = some y → |x * y| ≤ largest →
    IsNearest (x * y) (A.fmul a b)
  pow : ∀ a b x (n : ℤ), (x = 0 → 0 ≤ n) → bitsVal a = some x → bitsVal b = some (n : ℝ) →
    |x ^ n| ≤ largest →
    ∃ z, bitsVal (A.pow a b) = some z ∧ |z - x ^ n| ≤ 2⁻¹ ^ 52 * max |x ^ n| (2⁻¹ ^ 1022)
  sin : ∀ a x, bitsVal a = some x → ∃ z, bitsVal (A.sin a) = some z ∧ |z - Real.sin x| ≤ 2⁻¹ ^ 52
  cos : ∀ a x, bitsVal a = some x → ∃ z, bitsVal (A.cos a) = some z ∧ |z - Real.cos x| ≤ 2⁻¹ ^ 52

/-- Python's floats: `float(n)` is the double for `n`, `math.fsum` rounds the exact sum to nearest,
`math.prod` multiplies from left to right, `math.pow`, `math.sin` and `math.cos` are right up to one
unit in the last place. -/
structure Binary64Python (B : FloatOps ℕ) : Prop where
  ofInt : ∀ n b, doubleBits n = some b → B.ofInt n = .ok b
  fsum : ∀ vs xs, List.Forall₂ (fun v x => bitsVal v = some x) vs xs → (xs.map abs).sum ≤ largest →
    ∃ v, B.fsum vs = .ok v ∧ IsNearest xs.sum v
  prod : ∃ mul : ℕ → ℕ → ℕ, (∀ a b x y, bitsVal a = some x → bitsVal b = some y →
      |x * y| ≤ largest → IsNearest (x * y) (mul a b)) ∧
    ∀ a vs, B.prod (a :: vs) = .ok (vs.foldl mul a)
  pow : ∀ a b x (n : ℤ), (x = 0 → 0 ≤ n) → bitsVal a = some x → bitsVal b = some (n : ℝ) →
    |x ^ n| ≤ largest →
    ∃ v z, B.pow a b = .ok v ∧ bitsVal v = some z ∧
      |z - x ^ n| ≤ 2⁻¹ ^ 52 * max |x ^ n| (2⁻¹ ^ 1022)
  sin : ∀ a x, bitsVal a = some x →
    ∃ v z, B.sin a = .ok v ∧ bitsVal v = some z ∧ |z - Real.sin x| ≤ 2⁻¹ ^ 52
  cos : ∀ a x, bitsVal a = some x →
    ∃ v z, B.cos a = .ok v ∧ bitsVal v = some z ∧ |z - Real.cos x| ≤ 2⁻¹ ^ 52

end Verif.Spec
