import Verif.Model.Expr

/-!
# Specification of the arithmetic operators
-/

namespace Verif.Spec

/-- The expression an operand stands for: itself, or the integer; nothing for other
objects. -/
def operand : PyObj → Option Expr
  | .expr e => some e
  | .int n => some (.atom ⟨Ty.integer, .int n⟩)
  | .other _ => none

/-- The integer `-1`. -/
def minusOne : Expr := .atom ⟨Ty.integer, .int (-1)⟩

/-- `name(args…)` for the function called `name`. -/
def app (name : String) (args : List Expr) : Expr :=
  .node (.atom ⟨Ty.function, .str name⟩ :: args)

/-- The documented result of each operator. -/
def documented : BinOp → Expr → Expr → Expr
  | .add, a, b => app "Add" [a, b]
  | .sub, a, b => app "Add" [a, app "Mul" [minusOne, b]]
  | .mul, a, b => app "Mul" [a, b]
  | .truediv, a, b => app "Mul" [a, app "pow" [b, minusOne]]
  | .pow, a, b => app "pow" [a, b]

/-- The operand is an expression. -/
def IsExpr (a : PyObj) : Prop := ∃ e, a = .expr e

end Verif.Spec
