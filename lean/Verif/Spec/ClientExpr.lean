import Verif.Spec.ClientEval
import Verif.Model.ClientExpr

/-!
# `Expr` objects in handles and in values
-/

namespace Verif.Store

/-- The handle has the wrapped expression as its value. -/
def SymAt {K : Type} (vals : List (Ex K)) (cls h : Nat) (t : Tree K) : Prop :=
  vals[h]? = some (.sym cls t)

/-- The handle has the `Expr` as its value. -/
def ExprAt (vals : List (Ex Val)) (h : Nat) (e : Expr) : Prop := SymAt vals Prog.exprCls h e

/-- A Python object handed to the API, in handles and in values. -/
def ObjAt (vals : List (Ex Val)) : Prog.ObjH → PyObj → Prop
  | .expr h, .expr e => ExprAt vals h e
  | .int n, .int m => n = m
  | .other n, .other m => n = m
  | _, _ => False

/-- The constants of simplecas. -/
structure ConstsAt (vals : List (Ex Val)) (c : Prog.ConstsH) : Prop where
  zero : ExprAt vals c.zero (Expr.integer 0)
  one : ExprAt vals c.one (Expr.integer 1)
  negone : ExprAt vals c.negone (Expr.integer (-1))
  x : ExprAt vals c.x (Expr.symbol "x")
  y : ExprAt vals c.y (Expr.symbol "y")
  f : ExprAt vals c.f (Expr.function "f")
  g : ExprAt vals c.g (Expr.function "g")
  pow : ExprAt vals c.pow (Expr.function "pow")
  sin : ExprAt vals c.sin (Expr.function "sin")
  cos : ExprAt vals c.cos (Expr.function "cos")
  add : ExprAt vals c.add (Expr.function "Add")
  mul : ExprAt vals c.mul (Expr.function "Mul")
  list : ExprAt vals c.list (Expr.function "List")

/-- The import of simplecas: the constants, and a differentiator with the rules of simplecas. -/
structure SimplecasAt (vals : List (Ex Val)) (m : Prog.SimplecasH) : Prop where
  consts : ConstsAt vals m.consts
  diff : DiffAt vals m.diff builtinDiff

variable {V : Type} [PyVal V Val]

/-- The object that the handle refers to, if it still refers to one, is an `Expr` that wraps a `Tree`
that stands for the expression. -/
def IsExpr (heap : Nat → Option (Obj V)) (hs : List (Option Nat)) (h : Nat) (e : Expr) : Prop :=
  ∀ i, held hs h = some i → ∃ j, heap i = some (.sym Prog.exprCls j) ∧ Stands heap j e

/-- How a program that returns an `Expr` ended and what it should compute. -/
def ExprOutcome (heap : Nat → Option (Obj V)) (hs : List (Option Nat)) : PyM Nat → PyM Expr → Prop
  | .ok h, .ok e => IsExpr heap hs h e
  | .error e, .error e' => e = e'
  | _, _ => False

end Verif.Store
