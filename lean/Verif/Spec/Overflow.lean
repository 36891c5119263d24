import Verif.Spec.Rounding
import Verif.Spec.Binary64

/-!
# Floating point arithmetic with overflow

`val` gives the number that a float stands for; none for infinities and NaNs.
-/

namespace Verif.Spec

variable {F : Type}

/-- What IEEE-754 says about infinities and NaNs: sums, products, powers with exponents `1, 2, …`,
sines and cosines of them are never numbers, and whatever is raised to the power 0 gives 1.  Results
that are numbers are accurate.  (Nothing is said about infinities with negative exponents.) -/
structure Propagates (val : F → Option ℝ) (u small : ℝ) (A : IRArith F) : Prop where
  add : ∀ a b z, val (A.fadd a b) = some z →
    ∃ x y, val a = some x ∧ val b = some y ∧ |z - (x + y)| ≤ u * |x + y|
  mul : ∀ a b z, val (A.fmul a b) = some z →
    ∃ x y, val a = some x ∧ val b = some y ∧ |z - x * y| ≤ u * max |x * y| small
  pow : ∀ a b x (n : ℤ) z, (x = 0 → 0 ≤ n) → val a = some x → val b = some (n : ℝ) →
    val (A.pow a b) = some z → |z - x ^ n| ≤ u * max |x ^ n| small
  base : ∀ a b (n : ℤ) z, 1 ≤ n → val b = some (n : ℝ) → val (A.pow a b) = some z →
    ∃ x, val a = some x
  power0 : ∀ a b, val b = some 0 → val (A.pow a b) = some 1
  sin : ∀ a z, val (A.sin a) = some z → ∃ x, val a = some x
  cos : ∀ a z, val (A.cos a) = some z → ∃ x, val a = some x

/-- The same for Python's functions; `math.fsum`, `math.pow`, `math.sin` and `math.cos` may also
raise. -/
structure PropagatesPython (val : F → Option ℝ) (u small : ℝ) (B : FloatOps F) : Prop where
  fsum : ∀ vs v z, B.fsum vs = .ok v → val v = some z →
    ∃ xs, List.Forall₂ (fun v x => val v = some x) vs xs ∧ |z - xs.sum| ≤ u * |xs.sum|
  prod : ∃ mul : F → F → F, (∀ a b z, val (mul a b) = some z →
      ∃ x y, val a = some x ∧ val b = some y ∧ |z - x * y| ≤ u * max |x * y| small) ∧
    ∀ a vs, B.prod (a :: vs) = .ok (vs.foldl mul a)
  pow : ∀ a b x (n : ℤ) v z, (x = 0 → 0 ≤ n) → val a = some x → val b = some (n : ℝ) →
    B.pow a b = .ok v → val v = some z → |z - x ^ n| ≤ u * max |x ^ n| small
  base : ∀ a b (n : ℤ) v z, 1 ≤ n → val b = some (n : ℝ) → B.pow a b = .ok v → val v = some z →
    ∃ x, val a = some x
  power0 : ∀ a b v, val b = some 0 → B.pow a b = .ok v → val v = some 1
  sin : ∀ a v z, B.sin a = .ok v → val v = some z → ∃ x, val a = some x
  cos : ∀ a v z, B.cos a = .ok v → val v = some z → ∃ x, val a = some x

/-- Exponents are not negative, except for bases that cannot overflow. -/
def SafeExponents (S : List Expr) (xs : List ℝ) (u small hi : ℝ) (e : Expr) : Prop :=
  ∀ a c n, ArgSub e (Expr.pow a c) → SmallInt c n → 0 ≤ n ∨ ∃ M D, ErrBound S xs u small hi a M D

/-- The bound that IEEE-754 gives for overflow: results below it are rounded to a double, others
become infinite. -/
noncomputable def overflowAt : ℝ := 2 ^ 1024 - 2 ^ 970

/-- Doubles (bit patterns) with overflow. -/
structure Overflow64 (A : IRArith ℕ) : Prop where
  add : ∀ a b, (bitsVal (A.fadd a b)).isSome → ∃ x y, bitsVal a = some x ∧ bitsVal b = some y ∧
    |x + y| < overflowAt ∧ IsNearest (x + y) (A.fadd a b)
  mul : ∀ a b, (bitsVal (A.fmul a b)).isSome → ∃ x y, bitsVal a = some x ∧ bitsVal b = some y ∧
    |x * y| < overflowAt ∧ IsNearest (x * y) (A.fmul a b)
  pow : ∀ a b x (n : ℤ) z, (x = 0 → 0 ≤ n) → bitsVal a = some x → bitsVal b = some (n : ℝ) →
    bitsVal (A.pow a b) = some z → |z - x ^ n| ≤ 2⁻¹ ^ 52 * max |x ^ n| (2⁻¹ ^ 1022)
  base : ∀ a b (n : ℤ), 1 ≤ n → bitsVal b = some (n : ℝ) → (bitsVal (A.pow a b)).isSome →
    (bitsVal a).isSome
  power0 : ∀ a b, bitsVal b = some 0 → bitsVal (A.pow a b) = some 1
  sin : ∀ a, (bitsVal (A.sin a)).isSome → (bitsVal a).isSome
  cos : ∀ a, (bitsVal (A.cos a)).isSome → (bitsVal a).isSome

/-- Python's floats with overflow. -/
structure Overflow64Python (B : FloatOps ℕ) : Prop where
  fsum : ∀ vs v, B.fsum vs = .ok v → (bitsVal v).isSome →
    ∃ xs, List.Forall₂ (fun v x => bitsVal v = some x) vs xs ∧ |xs.sum| < overflowAt ∧
      IsNearest xs.sum v
  prod : ∃ mul : ℕ → ℕ → ℕ, (∀ a b, (bitsVal (mul a b)).isSome →
      ∃ x y, bitsVal a = some x ∧ bitsVal b = some y ∧ |x * y| < overflowAt ∧
        IsNearest (x * y) (mul a b)) ∧
    ∀ a vs, B.prod (a :: vs) = .ok (vs.foldl mul a)
  pow : ∀ a b x (n : ℤ) v z, (x = 0 → 0 ≤ n) → bitsVal a = some x → bitsVal b = some (n : ℝ) →
    B.pow a b = .ok v → bitsVal v = some z → |z - x ^ n| ≤ 2⁻¹ ^ 52 * max |x ^ n| (2⁻¹ ^ 1022)
  base : ∀ a b (n : ℤ) v, 1 ≤ n → bitsVal b = some (n : ℝ) → B.pow a b = .ok v → (bitsVal v).isSome →
    (bitsVal a).isSome
  power0 : ∀ a b v, bitsVal b = some 0 → B.pow a b = .ok v → bitsVal v = some 1
  sin : ∀ a v, B.sin a = .ok v → (bitsVal v).isSome → (bitsVal a).isSome
  cos : ∀ a v, B.cos a = .ok v → (bitsVal v).isSome → (bitsVal a).isSome

end Verif.Spec
