import Verif.Spec.LLVM
import Verif.Spec.Real

/-!
# The machine without rounding
-/

namespace Verif.Spec

/-- The machine without rounding. -/
noncomputable def exactMachine : IRArith ℝ where
  const b := (((doubleValue b).getD 0 : ℚ) : ℝ)
  fadd a b := a + b
  fmul a b := a * b
  pow a b := a ^ b
  sin a := Real.sin a
  cos a := Real.cos a

/-- `eval_f64`'s primitives without rounding, except that `float(n)` is a double, as in Python. -/
noncomputable def exactFloats : FloatOps ℝ :=
  { realOps with
    ofInt := fun n => match doubleBits n with
      | some b => .ok (((doubleValue b).getD 0 : ℚ) : ℝ)
      | none => .error .overflowError }

/-- `e.eval_f64(dict(zip(S, vs)))` returns: no domain error occurs. -/
def DefinedAt (S : List Expr) (vs : List ℝ) (e : Expr) : Prop :=
  ∃ v, e.evalF64 exactFloats (some (Dict.ofPairs (S.zip vs))) = .ok v

/-- Expressions built from symbols and integers with `+`, `*`, `sin`, `cos` and powers whose
exponent is a literal from 1 to `2^53`. -/
inductive Elementary (S : List Expr) : Expr → Prop where
  | param {t} : t ∈ S → Elementary S t
  | int {n : Int} : |n| < 2 ^ 1024 - 2 ^ 970 → Elementary S (Expr.integer n)
  | add {args} : args ≠ [] → (∀ a ∈ args, Elementary S a) → Elementary S (.node (Expr.addH :: args))
  | mul {args} : args ≠ [] → (∀ a ∈ args, Elementary S a) → Elementary S (.node (Expr.mulH :: args))
  | pow {a} {n : Int} : Elementary S a → 1 ≤ n → n ≤ 2 ^ 53 →
      Elementary S (Expr.pow a (Expr.integer n))
  | sin {a} : Elementary S a → Elementary S (Expr.sin a)
  | cos {a} : Elementary S a → Elementary S (Expr.cos a)

/-- The same with any integer literal from `-2^53` to `2^53` as an exponent. -/
inductive WithPowers (S : List Expr) : Expr → Prop where
  | param {t} : t ∈ S → WithPowers S t
  | int {n : Int} : |n| < 2 ^ 1024 - 2 ^ 970 → WithPowers S (Expr.integer n)
  | add {args} : args ≠ [] → (∀ a ∈ args, WithPowers S a) → WithPowers S (.node (Expr.addH :: args))
  | mul {args} : args ≠ [] → (∀ a ∈ args, WithPowers S a) → WithPowers S (.node (Expr.mulH :: args))
  | pow {a} {n : Int} : WithPowers S a → |n| ≤ 2 ^ 53 → WithPowers S (Expr.pow a (Expr.integer n))
  | sin {a} : WithPowers S a → WithPowers S (Expr.sin a)
  | cos {a} : WithPowers S a → WithPowers S (Expr.cos a)

end Verif.Spec
