import Verif.Spec.Tree
import Verif.Model.Functions
import Verif.Spec.Operators

/-!
# What `eval_f64` computes

The value of an expression for given numbers, directly from the expression; and the ways in
which a single subexpression can fail.
-/

namespace Verif.Spec
open Expr
variable {F : Type} [HasNone F]

/-- No number is given for `t` (a given `None` counts as nothing). -/
def NotGiven (values : Expr → Option F) (t : Expr) : Prop :=
  ∀ v, values t = some v → HasNone.isNone v = true

mutual
/-- `F64Value A values e v`: with the given numbers `e` is `v`. -/
inductive F64Value (A : FloatOps F) (values : Expr → Option F) : Expr → F → Prop
  | given {t v} : t.children = [] → values t = some v → HasNone.isNone v = false →
      F64Value A values t v
  | integer {n v} : NotGiven values (integer n) → A.ofInt n = .ok v →
      F64Value A values (integer n) v
  | sum {args vs v} : F64Values A values args vs → A.fsum vs = .ok v →
      F64Value A values (app "Add" args) v
  | product {args vs v} : F64Values A values args vs → A.prod vs = .ok v →
      F64Value A values (app "Mul" args) v
  | power {b c vb vc v} : F64Value A values b vb → F64Value A values c vc →
      A.pow vb vc = .ok v → F64Value A values (app "pow" [b, c]) v
  | sine {a va v} : F64Value A values a va → A.sin va = .ok v → F64Value A values (app "sin" [a]) v
  | cosine {a va v} : F64Value A values a va → A.cos va = .ok v →
      F64Value A values (app "cos" [a]) v
/-- Pointwise. -/
inductive F64Values (A : FloatOps F) (values : Expr → Option F) : List Expr → List F → Prop
  | nil : F64Values A values [] []
  | cons {e es v vs} : F64Value A values e v → F64Values A values es vs →
      F64Values A values (e :: es) (v :: vs)
end

/-- `F64Fails A values t err`: `t`, all of whose arguments (if any) have values, has none itself,
because of `err`. -/
inductive F64Fails (A : FloatOps F) (values : Expr → Option F) : Expr → PyErr → Prop
  | atom {a} : NotGiven values (.atom a) → a.atomType ≠ Ty.integer →
      F64Fails A values (.atom a) .noEvaluationRule
  | integer {n err} : NotGiven values (integer n) → A.ofInt n = .error err →
      F64Fails A values (integer n) err
  | unknown {h args vs} : (∀ name ∈ ["Add", "Mul", "pow", "sin", "cos"], h ≠ function name) →
      F64Values A values args vs → F64Fails A values (.node (h :: args)) .noEvaluationRule
  | powArity {args vs} : args.length ≠ 2 → F64Values A values args vs →
      F64Fails A values (app "pow" args) .typeError
  | unaryArity {name args vs} : name = "sin" ∨ name = "cos" → args.length ≠ 1 →
      F64Values A values args vs → F64Fails A values (app name args) .typeError
  | sum {args vs err} : F64Values A values args vs → A.fsum vs = .error err →
      F64Fails A values (app "Add" args) err
  | product {args vs err} : F64Values A values args vs → A.prod vs = .error err →
      F64Fails A values (app "Mul" args) err
  | power {b c vb vc err} : F64Value A values b vb → F64Value A values c vc →
      A.pow vb vc = .error err → F64Fails A values (app "pow" [b, c]) err
  | sine {a va err} : F64Value A values a va → A.sin va = .error err →
      F64Fails A values (app "sin" [a]) err
  | cosine {a va err} : F64Value A values a va → A.cos va = .error err →
      F64Fails A values (app "cos" [a]) err

/-- Integers made from ints, and nothing degenerate: expressions as `Integer(n)`, `Symbol(s)`,
`Function(s)` and calls make them. -/
def Wellformed (e : Expr) : Prop :=
  ¬ ArgSub e (.node []) ∧ ∀ s, ¬ ArgSub e (.atom ⟨Ty.integer, .str s⟩)

end Verif.Spec
