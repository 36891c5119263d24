import Verif.Model.Sym

/-!
# Model of src/protosym/simplecas/functions.py and the evaluators of expr.py
-/

namespace Verif

namespace Expr
/-- `a = Expr.new_wild("a")`: simplecas/expr.py:566, functions.py:30. -/
def wa : Expr := wild "a"
/-- `b = Expr.new_wild("b")`: simplecas/expr.py:567, functions.py:31. -/
def wb : Expr := wild "b"
end Expr

open Expr

/-- The float primitives used by `eval_f64`: `float`, `math.fsum`, `math.prod`, `math.pow`,
`math.sin`, `math.cos`.  They are parameters of the model: theorems are about every
arithmetic or about exact real arithmetic, never about a particular libm. -/
structure FloatOps (F : Type) where
  ofInt : Int → PyM F
  fsum : List F → PyM F
  prod : List F → PyM F
  pow : F → F → PyM F
  sin : F → PyM F
  cos : F → PyM F

/-- `float(value)` where the value of an `Integer` atom is an int (anything else cannot
occur in an `Integer` made from an int; `float(str)` may parse or raise `ValueError`, the
model raises). -/
def FloatOps.fromVal {F : Type} (A : FloatOps F) : Val → PyM F
  | .int n => A.ofInt n
  | .str _ => .error .valueError

/-- The rules of `eval_f64`: functions.py:40-52, in order. -/
def f64Rules {F : Type} (A : FloatOps F) : List (Pattern × PyFn F × List Expr) :=
  [(.atomValue Ty.integer wa, .func1 A.fromVal, [wa]),
   (.sym (addH.call [star wa]), .opN A.fsum, [wa]),
   (.sym (mulH.call [star wa]), .opN A.prod, [wa]),
   (.sym (pow wa wb), .op2 (arity2 A.pow), [wa, wb]),
   (.sym (sin wa), .op1 (arity1 A.sin), [wa]),
   (.sym (cos wa), .op1 (arity1 A.cos), [wa])]

/-- The evaluator `eval_f64`: simplecas/expr.py:534 with functions.py:40-52. -/
def evalF64 {F : Type} (A : FloatOps F) : Evaluator PyM Val F := evaluatorOf (f64Rules A)

/-- `Expr.eval_f64(values)`: simplecas/expr.py:330-354. -/
def Expr.evalF64 {F : Type} [HasNone F] (A : FloatOps F) (e : Expr)
    (values : Option (Dict Expr F) := none) : PyM F :=
  symEvalCall (Verif.evalF64 A) e values

/-- `str(value)` of an int or a str. -/
def valStr : Val → String
  | .int n => toString n
  | .str s => s

mutual
/-- `Tree.__str__`: core/tree.py:164-172 with `Atom.__str__`: core/atom.py:180-182.  The
degenerate `Tree()` has no `value`: `AttributeError`. -/
def treeStr : Tree Val → PyM String
  | .atom a => .ok (valStr a.value)
  | .node [] => .error .attributeError
  | .node (head :: args) => do
    let argstrs ← treeStrList args
    let h ← treeStr head
    return h ++ "(" ++ String.intercalate ", " argstrs ++ ")"
/-- `map(str, args)` -/
def treeStrList : List (Tree Val) → PyM (List String)
  | [] => .ok []
  | t :: ts => do
    let s ← treeStr t
    let ss ← treeStrList ts
    return s :: ss
end

/-- `repr_call`: functions.py:61. -/
def reprCall (head : Expr) (args : List String) : PyM String := do
  let h ← treeStr head
  return h ++ "(" ++ String.intercalate ", " args ++ ")"

/-- The rules of `eval_repr`: functions.py:60-76, in order.  `str` on an int and on a str
value are both `valStr`. -/
def reprRules : List (Pattern × PyFn String × List Expr) :=
  [(.headRule wa wb, .headOp reprCall, [wa, wb]),
   (.atomRule wa, .atomFunc treeStr, [wa]),
   (.atomValue Ty.integer wa, .func1 (fun v => .ok (valStr v)), [wa]),
   (.atomValue Ty.symbol wa, .func1 (fun v => .ok (valStr v)), [wa]),
   (.atomValue Ty.function wa, .func1 (fun v => .ok (valStr v)), [wa]),
   (.sym (addH.call [star wa]),
      .opN (fun args => .ok ("(" ++ String.intercalate " + " args ++ ")")), [wa]),
   (.sym (mulH.call [star wa]),
      .opN (fun args => .ok ("(" ++ String.intercalate "*" args ++ ")")), [wa]),
   (.sym (pow wa wb), .op2 (arity2 (fun b e => .ok (b ++ "**" ++ e))), [wa, wb])]

/-- The evaluator `eval_repr`: simplecas/expr.py:535 with functions.py:60-76. -/
def evalRepr : Evaluator PyM Val String := evaluatorOf reprRules

/-- `Expr.__repr__`, `Expr.__str__`, `Expr.eval_repr`: simplecas/expr.py:155-161, 259-261. -/
def Expr.repr (e : Expr) : PyM String := symEvalCall evalRepr e

/-- The rules of `eval_latex`: functions.py:84-98, in order. -/
def latexRules : List (Pattern × PyFn String × List Expr) :=
  [(.headRule wa wb, .headOp reprCall, [wa, wb]),
   (.atomValue Ty.integer wa, .func1 (fun v => .ok (valStr v)), [wa]),
   (.atomValue Ty.symbol wa, .func1 (fun v => .ok (valStr v)), [wa]),
   (.atomValue Ty.function wa, .func1 (fun v => .ok (valStr v)), [wa]),
   (.sym (addH.call [star wa]),
      .opN (fun args => .ok ("(" ++ String.intercalate " + " args ++ ")")), [wa]),
   (.sym (mulH.call [star wa]),
      .opN (fun args => .ok ("(" ++ String.intercalate " \\times " args ++ ")")), [wa]),
   (.sym (pow wa wb), .op2 (arity2 (fun b e => .ok (b ++ "^{" ++ e ++ "}"))), [wa, wb]),
   (.sym (sin wa), .op1 (arity1 (fun a => .ok ("\\sin(" ++ a ++ ")"))), [wa]),
   (.sym (cos wa), .op1 (arity1 (fun a => .ok ("\\cos(" ++ a ++ ")"))), [wa])]

/-- The evaluator `eval_latex`: simplecas/expr.py:536 with functions.py:84-98. -/
def evalLatex : Evaluator PyM Val String := evaluatorOf latexRules

/-- `Expr.eval_latex`: simplecas/expr.py:263-274. -/
def Expr.latex (e : Expr) : PyM String := symEvalCall evalLatex e

/-- The rules of `count_ops_tree`: simplecas/expr.py:569-574. -/
def countOpsRules : List (Pattern × PyFn Nat × List Expr) :=
  [(.atomRule wa, .atomFunc (fun _ => .ok 1), [wa]),
   (.headRule wa wb, .headOp (fun _ counts => .ok (1 + counts.sum)), [wa, wb])]

/-- `Expr.count_ops_tree`: simplecas/expr.py:356-361. -/
def countOpsTree (e : Expr) : PyM Nat := symEvalCall (evaluatorOf countOpsRules) e

end Verif
