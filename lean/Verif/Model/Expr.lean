import Verif.Model.Evaluate

/-!
# Model of src/protosym/simplecas/expr.py: atoms, operators, xreplace

An `Expr` wraps a `Tree` and is unique per tree (core/sym.py:134-158, store layer), so that
an `Expr` is modelled by its tree.
-/

namespace Verif

/-- Atom values used by simplecas: Python `int` and `str`.  (`bool` is a subclass of `int`
with `True == 1`; the model identifies them, see `Model/Store.lean` for what this hides.) -/
inductive Val where
  | int (n : Int)
  | str (s : String)
deriving DecidableEq, Repr

/-- Expressions of simplecas. -/
abbrev Expr := Tree Val

namespace Ty
/-- core/sym.py:36 -/
def wild : AtomType := ⟨0, "Wild"⟩
/-- core/sym.py:434 -/
def star : AtomType := ⟨1, "Star"⟩
/-- simplecas/expr.py:538 -/
def integer : AtomType := ⟨2, "Integer"⟩
/-- simplecas/expr.py:539 -/
def symbol : AtomType := ⟨3, "Symbol"⟩
/-- simplecas/expr.py:540 -/
def function : AtomType := ⟨4, "Function"⟩
end Ty

namespace Expr
/-- `Integer(n)`: simplecas/expr.py:538 with core/sym.py:56-59. -/
def integer (n : Int) : Expr := .atom ⟨Ty.integer, .int n⟩
/-- `Symbol(s)`: simplecas/expr.py:539. -/
def symbol (s : String) : Expr := .atom ⟨Ty.symbol, .str s⟩
/-- `Function(s)`: simplecas/expr.py:540. -/
def function (s : String) : Expr := .atom ⟨Ty.function, .str s⟩
/-- `Expr.new_wild(s)`: core/sym.py:205-216. -/
def wild (s : String) : Expr := .atom ⟨Ty.wild, .str s⟩
/-- simplecas/expr.py:542 -/
def zero : Expr := integer 0
/-- simplecas/expr.py:543 -/
def one : Expr := integer 1
/-- simplecas/expr.py:544 -/
def negone : Expr := integer (-1)
/-- simplecas/expr.py:546 -/
def x : Expr := symbol "x"
/-- simplecas/expr.py:547 -/
def y : Expr := symbol "y"
/-- simplecas/expr.py:549 -/
def f : Expr := function "f"
/-- simplecas/expr.py:550 -/
def g : Expr := function "g"
/-- simplecas/expr.py:552 -/
def powH : Expr := function "pow"
/-- simplecas/expr.py:553 -/
def sinH : Expr := function "sin"
/-- simplecas/expr.py:554 -/
def cosH : Expr := function "cos"
/-- simplecas/expr.py:555 -/
def addH : Expr := function "Add"
/-- simplecas/expr.py:556 -/
def mulH : Expr := function "Mul"
/-- simplecas/expr.py:557 -/
def listH : Expr := function "List"

/-- `Add(a, b)` with `Expr.__call__`: simplecas/expr.py:171-175. -/
def add (a b : Expr) : Expr := addH.call [a, b]
/-- `Mul(a, b)` -/
def mul (a b : Expr) : Expr := mulH.call [a, b]
/-- `Pow(a, b)` -/
def pow (a b : Expr) : Expr := powH.call [a, b]
/-- `sin(a)` -/
def sin (a : Expr) : Expr := sinH.call [a]
/-- `cos(a)` -/
def cos (a : Expr) : Expr := cosH.call [a]
end Expr

/-- A Python object handed to the simplecas API: an `Expr`, an `int`, or anything else
(`other n`; objects that do not themselves implement arithmetic with `Expr`). -/
inductive PyObj where
  | expr (e : Expr)
  | int (n : Int)
  | other (tag : Nat)
deriving DecidableEq

/-- `expressify`: simplecas/expr.py:32-73. -/
def expressify : PyObj → PyM Expr
  | .expr e => .ok e
  | .int n => .ok (Expr.integer n)
  | .other _ => .error .expressify

/-- `expressify_other`: simplecas/expr.py:76-88; `none` is Python's `NotImplemented`.  Only
`ExpressifyError` is caught. -/
def expressifyOther (method : Expr → Expr → Expr) (self : Expr) (other : PyObj) :
    PyM (Option Expr) :=
  match other with
  | .expr e => .ok (some (method self e))
  | other =>
    match expressify other with
    | .ok e => .ok (some (method self e))
    | .error .expressify => .ok none
    | .error err => .error err

/-- The arithmetic operators. -/
inductive BinOp where
  | add | sub | mul | truediv | pow
deriving DecidableEq, Repr

/-- The bodies of `__add__`, `__sub__`, `__mul__`, `__truediv__`, `__pow__`:
simplecas/expr.py:209-252. -/
def BinOp.method : BinOp → Expr → Expr → Expr
  | .add, self, other => Expr.add self other
  | .sub, self, other => Expr.add self (Expr.mul Expr.negone other)
  | .mul, self, other => Expr.mul self other
  | .truediv, self, other => Expr.mul self (Expr.pow other Expr.negone)
  | .pow, self, other => Expr.pow self other

/-- The bodies of `__radd__`, `__rsub__`, `__rmul__`, `__rtruediv__`, `__rpow__`:
simplecas/expr.py:214-257. -/
def BinOp.rmethod : BinOp → Expr → Expr → Expr
  | .add, self, other => Expr.add other self
  | .sub, self, other => Expr.add other (Expr.mul Expr.negone self)
  | .mul, self, other => Expr.mul other self
  | .truediv, self, other => Expr.mul other (Expr.pow self Expr.negone)
  | .pow, self, other => Expr.pow other self

/-- Python's dispatch of `a <op> b` when at least one operand is an `Expr`: the left
operand's method first (an `int` or foreign object returns `NotImplemented` for an `Expr`),
then the right operand's reflected method; `TypeError` when both decline.  With no `Expr`
among the operands no protosym code runs; the model then returns `TypeError` too. -/
def pyBinOp (op : BinOp) (a b : PyObj) : PyM Expr :=
  let declined : PyM Expr := .error .typeError
  match a, b with
  | .expr a, b => do
    match ← expressifyOther op.method a b with
    | some r => return r
    | none => declined
  | a, .expr b => do
    match ← expressifyOther op.rmethod b a with
    | some r => return r
    | none => declined
  | _, _ => declined

/-- `__pos__`: simplecas/expr.py:201-203. -/
def pyPos (a : Expr) : Expr := a

/-- `__neg__`: simplecas/expr.py:205-207. -/
def pyNeg (a : Expr) : Expr := Expr.mul Expr.negone a

/-- `Expr.__call__`: simplecas/expr.py:171-175. -/
def Expr.pyCall (self : Expr) (args : List PyObj) : PyM Expr := do
  let args ← args.mapM expressify
  return self.call args

/-- `ExprFunction`: simplecas/expr.py:510-522. -/
def exprFunctionNew (expr : PyObj) (params : List PyObj) : PyM (SubsFunc Val) := do
  let exprRep ← expressify expr
  let paramsRep ← params.mapM expressify
  SubsFunc.new exprRep paramsRep

/-- `ExprFunction.__call__`: simplecas/expr.py:524-531. -/
def exprFunctionCall (func : SubsFunc Val) (args : List PyObj) : PyM Expr := do
  let argsRep ← args.mapM expressify
  func.call argsRep

/-- `Expr.as_function`: simplecas/expr.py:190-199. -/
def asFunction (self : Expr) (args : List PyObj) : PyM (SubsFunc Val) :=
  exprFunctionNew (.expr self) args

/-- `Expr.xreplace`: simplecas/expr.py:177-188. -/
def xreplace (self : Expr) (reps : Dict PyObj PyObj) : PyM Expr := do
  let func ← asFunction self reps.keys
  exprFunctionCall func reps.vals

/-- `functools.reduce(fn, args)` for a function that does not raise: `TypeError` on the
empty sequence. -/
def pyReduce {α : Type} (fn : α → α → α) : List α → PyM α
  | [] => .error .typeError
  | a :: as => .ok (as.foldl fn a)

/-- The transformer `bin_expand`: simplecas/expr.py:559-561. -/
def binExpandTransformer : Evaluator PyM Val Expr :=
  (Transformer.new.addOpN Expr.addH (pyReduce Expr.add)).addOpN Expr.mulH (pyReduce Expr.mul)

/-- `Expr.bin_expand`: simplecas/expr.py:470-480. -/
def binExpand (e : Expr) : PyM Expr := binExpandTransformer.call e

/-- `Expr.count_ops_graph`: simplecas/expr.py:363-419. -/
def countOpsGraph (e : Expr) : Nat := (topologicalSort false [] e).length

end Verif
