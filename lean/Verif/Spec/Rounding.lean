import Verif.Spec.LLVM
import Verif.Spec.Double
import Verif.Spec.Real

/-!
# Floating point arithmetic with rounding errors

`val` gives the number that a float stands for; none for infinities and NaNs.  `u` bounds the
relative error of an operation (`2^-53` for doubles that are rounded to nearest), `small` is the
smallest positive number with full precision (`2^-1022`), `hi` the largest number
(`(2 - 2^-52)*2^1023`).
-/

namespace Verif.Spec

variable {F : Type}

/-- A multiplication that is accurate unless the result is too large. -/
def AccurateMul (val : F → Option ℝ) (u small hi : ℝ) (mul : F → F → F) : Prop :=
  ∀ a b x y, val a = some x → val b = some y → |x * y| ≤ hi →
    ∃ z, val (mul a b) = some z ∧ |z - x * y| ≤ u * max |x * y| small

/-- The machine's instructions are accurate unless the result is too large: relative error at most
`u`, for products and powers below `small` absolute error at most `u * small`, for sine and cosine
absolute error at most `u`; sums of integers up to `2^53` are exact.  (Powers: only integer exponents;
a base 0 only with exponents `0, 1, …`.) -/
structure Accurate (val : F → Option ℝ) (u small hi : ℝ) (A : IRArith F) : Prop where
  const : ∀ b q, doubleValue b = some q → val (A.const b) = some (q : ℝ)
  add : ∀ a b x y, val a = some x → val b = some y → |x + y| ≤ hi →
    ∃ z, val (A.fadd a b) = some z ∧ |z - (x + y)| ≤ u * |x + y|
  addInt : ∀ a b (m n : ℤ), val a = some (m : ℝ) → val b = some (n : ℝ) → |m| ≤ 2 ^ 53 → |n| ≤ 2 ^ 53 →
    |m + n| ≤ 2 ^ 53 → val (A.fadd a b) = some ((m + n : ℤ) : ℝ)
  mul : AccurateMul val u small hi A.fmul
  pow : ∀ a b x (n : ℤ), (x = 0 → 0 ≤ n) → val a = some x → val b = some (n : ℝ) → |x ^ n| ≤ hi →
    ∃ z, val (A.pow a b) = some z ∧ |z - x ^ n| ≤ u * max |x ^ n| small
  sin : ∀ a x, val a = some x → ∃ z, val (A.sin a) = some z ∧ |z - Real.sin x| ≤ u
  cos : ∀ a x, val a = some x → ∃ z, val (A.cos a) = some z ∧ |z - Real.cos x| ≤ u

/-- The same for Python's `float`, `math.fsum` (one rounding), `math.prod` (one multiplication after
the other), `math.pow`, `math.sin` and `math.cos`. -/
structure AccuratePython (val : F → Option ℝ) (u small hi : ℝ) (B : FloatOps F) : Prop where
  ofInt : ∀ n b q, doubleBits n = some b → doubleValue b = some q →
    ∃ v, B.ofInt n = .ok v ∧ val v = some (q : ℝ)
  fsum : ∀ vs xs, List.Forall₂ (fun v x => val v = some x) vs xs → (xs.map abs).sum ≤ hi →
    ∃ v z, B.fsum vs = .ok v ∧ val v = some z ∧ |z - xs.sum| ≤ u * |xs.sum|
  fsumInt : ∀ a b (m n : ℤ), val a = some (m : ℝ) → val b = some (n : ℝ) → |m| ≤ 2 ^ 53 → |n| ≤ 2 ^ 53 →
    |m + n| ≤ 2 ^ 53 → ∃ v, B.fsum [a, b] = .ok v ∧ val v = some ((m + n : ℤ) : ℝ)
  prod : ∃ mul, AccurateMul val u small hi mul ∧ ∀ a vs, B.prod (a :: vs) = .ok (vs.foldl mul a)
  pow : ∀ a b x (n : ℤ), (x = 0 → 0 ≤ n) → val a = some x → val b = some (n : ℝ) → |x ^ n| ≤ hi →
    ∃ v z, B.pow a b = .ok v ∧ val v = some z ∧ |z - x ^ n| ≤ u * max |x ^ n| small
  sin : ∀ a x, val a = some x → ∃ v z, B.sin a = .ok v ∧ val v = some z ∧ |z - Real.sin x| ≤ u
  cos : ∀ a x, val a = some x → ∃ v z, B.cos a = .ok v ∧ val v = some z ∧ |z - Real.cos x| ≤ u

/-- `e`, built from symbols and integers with `+`, `*`, `sin`, `cos` and integer exponents, has the
exact value `r` when the symbols `S` have the values `xs`. -/
inductive ExactValue (S : List Expr) (xs : List ℝ) : Expr → ℝ → Prop where
  | param {t x} : (t, x) ∈ S.zip xs → ExactValue S xs t x
  | int (n : Int) : ExactValue S xs (Expr.integer n) n
  | add {args} {v : Expr → ℝ} : (∀ a ∈ args, ExactValue S xs a (v a)) →
      ExactValue S xs (.node (Expr.addH :: args)) (args.map v).sum
  | mul {args} {v : Expr → ℝ} : (∀ a ∈ args, ExactValue S xs a (v a)) →
      ExactValue S xs (.node (Expr.mulH :: args)) (args.map v).prod
  | pow {a c v} (n : Int) : ExactValue S xs a v → ExactValue S xs c n → (v = 0 → 0 ≤ n) →
      ExactValue S xs (Expr.pow a c) (v ^ n)
  | sin {a v} : ExactValue S xs a v → ExactValue S xs (Expr.sin a) (Real.sin v)
  | cos {a v} : ExactValue S xs a v → ExactValue S xs (Expr.cos a) (Real.cos v)

/-- `c` is an integer or a sum like `n + -1` (the exponents of derivatives) with the value `n`, and
nothing exceeds `2^53`. -/
inductive SmallInt : Expr → Int → Prop where
  | lit {n : Int} : |n| ≤ 2 ^ 53 → SmallInt (Expr.integer n) n
  | add {c d} {m n : Int} : SmallInt c m → SmallInt d n → |m + n| ≤ 2 ^ 53 →
      SmallInt (Expr.add c d) (m + n)

/-- Such an expression has the magnitude `M` and takes at most `D` roundings, one on top of the
other, when the symbols `S` have the values `xs`; and nothing becomes larger than `hi`.  The magnitude
is the value of the expression when all symbols and integers are replaced by their absolute values,
`sin(a)` and `cos(a)` by `1 + a`, and `small` is added to every product and power.  Integers beyond
`2^53` are rounded, as their constants are doubles.  For negative
exponents the computed base must stay away from 0, by `L`; `1/a` is then replaced by `a/L^2`. -/
inductive ErrBound (S : List Expr) (xs : List ℝ) (u small hi : ℝ) : Expr → ℝ → ℕ → Prop where
  | param {t x} : (t, x) ∈ S.zip xs → ErrBound S xs u small hi t |x| 0
  | int {n : Int} : |n| ≤ 2 ^ 53 → ErrBound S xs u small hi (Expr.integer n) |(n : ℝ)| 0
  | bigInt {n : Int} : |n| < 2 ^ 1024 - 2 ^ 970 → 2⁻¹ ^ 53 ≤ u →
      ErrBound S xs u small hi (Expr.integer n) |(n : ℝ)| 1
  | add {args} {M : Expr → ℝ} {k : Expr → ℕ} {D} : args ≠ [] →
      (∀ a ∈ args, ErrBound S xs u small hi a (M a) (k a)) →
      (∀ a ∈ args, k a + 1 ≤ D ∧ k a + args.length ≤ D + 1) → (args.map M).sum * (1 + u) ^ D ≤ hi →
      ErrBound S xs u small hi (.node (Expr.addH :: args)) (args.map M).sum D
  | mul {a args} {M : Expr → ℝ} {k : Expr → ℕ} {D} :
      (∀ b ∈ a :: args, ErrBound S xs u small hi b (M b) (k b)) →
      ((a :: args).map k).sum + args.length ≤ D →
      (∀ pre, pre <+: args → pre.foldl (fun p b => p * M b + small) (M a) * (1 + u) ^ D ≤ hi) →
      ErrBound S xs u small hi (.node (Expr.mulH :: a :: args))
        (args.foldl (fun p b => p * M b + small) (M a)) D
  | pow {a c M k} {n : ℕ} : ErrBound S xs u small hi a M k → SmallInt c n →
      (M ^ n + small) * (1 + u) ^ (n * k + 1) ≤ hi →
      ErrBound S xs u small hi (Expr.pow a c) (M ^ n + small) (n * k + 1)
  | powNeg {a c r M k L} {n : ℕ} : ErrBound S xs u small hi a M k → SmallInt c (-n) →
      ExactValue S xs a r → 0 < L → L + ((1 + u) ^ k - 1) * M ≤ |r| →
      ((M / L ^ 2) ^ n + small) * (1 + u) ^ (n * k + 1) ≤ hi →
      ErrBound S xs u small hi (Expr.pow a c) ((M / L ^ 2) ^ n + small) (n * k + 1)
  | sin {a M k} : ErrBound S xs u small hi a M k → ErrBound S xs u small hi (Expr.sin a) (1 + M) (k + 1)
  | cos {a M k} : ErrBound S xs u small hi a M k → ErrBound S xs u small hi (Expr.cos a) (1 + M) (k + 1)

end Verif.Spec
