import Mathlib.Analysis.SpecialFunctions.Pow.Deriv
import Verif.Model.Functions

/-!
# Exact real arithmetic

`eval_f64` with the float primitives replaced by exact real ones: no rounding and no overflow,
but with Python's domain errors for `math.pow`.
-/

namespace Verif.Spec

/-- No real number is Python's `None`. -/
noncomputable instance : HasNone ℝ := ⟨fun _ => false⟩

/-- When `math.pow(a, b)` is defined: a zero base needs an exponent `≥ 0`, a negative base an
integer exponent. -/
def PowDefined (a b : ℝ) : Prop := (a = 0 → 0 ≤ b) ∧ (a < 0 → ∃ n : ℤ, b = n)

open Classical in
/-- Exact arithmetic; `ValueError` where `math.pow` is undefined. -/
noncomputable def realOps : FloatOps ℝ where
  ofInt n := .ok n
  fsum vs := .ok vs.sum
  prod vs := .ok vs.prod
  pow a b := if PowDefined a b then .ok (a ^ b) else .error .valueError
  sin a := .ok (Real.sin a)
  cos a := .ok (Real.cos a)

/-- The value of `e` where `x` has the value `t` and the other symbols are given by `values`:
`e.eval_f64({**values, x: t})` in exact arithmetic. -/
noncomputable def valueAt (values : Dict Expr ℝ) (x e : Expr) (t : ℝ) : PyM ℝ :=
  e.evalF64 realOps (some (values.set x t))

/-- The points at which `e`, as a function of `x`, has a value. -/
def domainOf (values : Dict Expr ℝ) (x e : Expr) : Set ℝ :=
  {t | ∃ v, valueAt values x e t = .ok v}

/-- `F` is the function of `x` that `e` denotes. -/
def Denotes (values : Dict Expr ℝ) (x e : Expr) (F : ℝ → ℝ) : Prop :=
  ∀ t v, valueAt values x e t = .ok v → F t = v

/-- The values assign numbers to symbols, not to integers: a dict (unique keys) without
`Integer` keys. -/
structure SymbolValues (values : Dict Expr ℝ) : Prop where
  unique : values.keys.Nodup
  noInteger : ∀ n, values.get? (Expr.integer n) = none

end Verif.Spec
