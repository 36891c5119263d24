import Mathlib.Analysis.Calculus.FDeriv.Basic
import Verif.Spec.Real
import Verif.Model.Diff

/-!
# The value of an expression as a function of several symbols (C81)
-/

namespace Verif.Spec
open Expr

/-- `{**values, x0: q0, x1: q1, ...}`: the symbols named `x` have the values `q`, the others those
of `values`. -/
def atPoint (values : Dict Expr ℝ) {n : ℕ} (x : Fin n → String) (q : Fin n → ℝ) : Dict Expr ℝ :=
  (List.finRange n).foldl (fun d i => d.set (symbol (x i)) (q i)) values

/-- `e.eval_f64({**values, x0: q0, x1: q1, ...})` in exact arithmetic. -/
noncomputable def valueAtPoint (values : Dict Expr ℝ) {n : ℕ} (x : Fin n → String) (e : Expr)
    (q : Fin n → ℝ) : PyM ℝ :=
  e.evalF64 realOps (some (atPoint values x q))

/-- The points at which `e` has a value. -/
def domainIn (values : Dict Expr ℝ) {n : ℕ} (x : Fin n → String) (e : Expr) : Set (Fin n → ℝ) :=
  {q | ∃ v, valueAtPoint values x e q = .ok v}

/-- `F` is the function of the symbols `x` that `e` denotes. -/
def DenotesIn (values : Dict Expr ℝ) {n : ℕ} (x : Fin n → String) (e : Expr)
    (F : (Fin n → ℝ) → ℝ) : Prop :=
  ∀ q v, valueAtPoint values x e q = .ok v → F q = v

/-- `a` are the values at `q` of `e.diff(x0)`, `e.diff(x1)`, ... -/
def PartialsAt (values : Dict Expr ℝ) {n : ℕ} (x : Fin n → String) (e : Expr) (q a : Fin n → ℝ) :
    Prop :=
  ∀ i, ∃ d, e.diff (symbol (x i)) = .ok d ∧ valueAtPoint values x d q = .ok (a i)

end Verif.Spec
