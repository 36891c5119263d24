import Verif.Model.ClientEval
import Verif.Model.Sym

/-!
# core/sym.py and simplecas/expr.py as programs on objects

The `Expr` layer as programs of `Model/Client.lean`: an `Expr` is an object that refers to a `Tree`
(`rep`), found in a store of its own (sym.py:134-158).  Handles stand for `Expr` objects here; `rep`
gives handles of `Tree`s.

`lit` makes the Python objects for the `int` and `str` values that the code itself uses.
-/

namespace Verif.Store.Prog
variable {V K T : Type}

/-! ### core/sym.py -/

/-- `expr.rep`: sym.py:136, 154. -/
def rep (h : Nat) : Prog V K Nat :=
  .look h (fun o =>
    match o with
    | .sym _ t => .ret t
    | _ => .raise .attributeError)

/-- `cls(tree)`: sym.py:138-158. -/
def wrap (cls t : Nat) : Prog V K Nat := .make (.sym cls t) .ret

/-- `SymAtomType.__call__` (sym.py:56-59) and `Sym.new_wild` (sym.py:205-216). -/
def newAtom (cls : Nat) (ty : AtomType) (v : V) : Prog V K Nat :=
  .make (.atom ty v) (fun a => .make (.treeAtom a) (fun t => wrap cls t))

/-- `Sym.head`: sym.py:160-163. -/
def symHead (cls h : Nat) : Prog V K Nat := do
  let t ← rep h
  let cs ← children t
  let head ← ofPy (pyGet cs 0)
  wrap cls head

/-- `Sym.args`: sym.py:165-169. -/
def symArgs (cls h : Nat) : Prog V K (List Nat) := do
  let t ← rep h
  let cs ← children t
  each (wrap cls) (cs.drop 1)

/-- `{e.rep: v for e, v in values.items()}`: sym.py:600. -/
def repKeys : List (Nat × T) → Prog V K (List (Nat × T)) :=
  each (fun p => do return (← rep p.1, p.2))

/-- `SymEvaluator.__call__`: sym.py:596-601; `values` are the pairs of the dictionary (none for
`values=None`). -/
def symEval [HasNone T] (ev : EvalH V K T) (expr : Nat) (values : List (Nat × T)) : Prog V K T := do
  let valuesRep ← repKeys values
  let t ← rep expr
  ev.call t valuesRep.reverse

/-- `SymDifferentiator.__init__`: sym.py:621-634. -/
def differentiator (add mul zero one : Nat) : Prog V K DiffH := do
  let z ← rep zero
  let o ← rep one
  let a ← rep add
  let m ← rep mul
  return ⟨z, o, a, m, [], []⟩

/-- `args_lhs.count(sym_r)`: sym.py:656. -/
def count (h : Nat) : List Nat → Prog V K Nat
  | [] => .ret 0
  | h' :: hs => do
    let b ← eq h' h
    let n ← count h hs
    return if b then n + 1 else n

/-- `args_lhs.index(sym_r)`: sym.py:658 (the number is there). -/
def index (h : Nat) : List Nat → Prog V K Nat
  | [] => .ret 0
  | h' :: hs => do
    if ← eq h' h then return 0
    else
      let n ← index h hs
      return n + 1

/-- `SymDifferentiator.__setitem__`: sym.py:643-661. -/
def setDiffRule (p : DiffH) (expr sym dexpr : Nat) : Prog V K DiffH := do
  let exprR ← rep expr
  let dexprR ← rep dexpr
  let symR ← rep sym
  let cs ← children exprR
  let head ← ofPy (pyGet cs 0)
  let argsLhs := cs.drop 1
  let n ← count symR argsLhs
  if n ≠ 1 then .raise .typeError
  else
    let i ← index symR argsLhs
    let rhsfunc ← subsNew dexprR argsLhs
    return { p with diffRules := (head, i, rhsfunc) :: p.diffRules }

/-- `SymDifferentiator.add_distributive_rule`: sym.py:636-641. -/
def addDistributive (p : DiffH) (head : Nat) : Prog V K DiffH := do
  let h ← rep head
  return { p with distributive := h :: p.distributive }

/-- `SymDifferentiator.__call__`: sym.py:663-669. -/
def symDiff (cls : Nat) (p : DiffH) (expr sym : Nat) (ntimes : Int) : Prog V K Nat := do
  let d ← rep expr
  let s ← rep sym
  let d ← diffTimes p s ntimes.toNat d
  wrap cls d

/-! ### simplecas/expr.py -/

/-- The class `Expr` (simplecas/expr.py:91) among the subclasses of `Sym`. -/
def exprCls : Nat := 0

/-- A Python object handed to the API: an `Expr`, an `int`, anything else. -/
inductive ObjH where
  | expr (h : Nat)
  | int (n : Int)
  | other (tag : Nat)

/-- The constants at simplecas/expr.py:542-557. -/
structure ConstsH where
  zero : Nat
  one : Nat
  negone : Nat
  x : Nat
  y : Nat
  f : Nat
  g : Nat
  pow : Nat
  sin : Nat
  cos : Nat
  add : Nat
  mul : Nat
  list : Nat

variable (lit : Val → V)

/-- `expressify`: simplecas/expr.py:32-73. -/
def expressify : ObjH → Prog V Val Nat
  | .expr h => .ret h
  | .int n => newAtom exprCls Ty.integer (lit (.int n))
  | .other _ => .raise .expressify

/-- `expressify(obj).rep`. -/
def expressRep (o : ObjH) : Prog V Val Nat := do
  let e ← expressify lit o
  rep e

/-- `Expr.__call__`: simplecas/expr.py:171-175. -/
def exprCall (self : Nat) (args : List ObjH) : Prog V Val Nat := do
  let argsExpr ← each (expressify lit) args
  let argsRep ← each rep argsExpr
  let f ← rep self
  let t ← call f argsRep
  wrap exprCls t

/-- `f(a, b)` for `Expr`s. -/
def exprCall2 (f a b : Nat) : Prog V Val Nat := exprCall lit f [.expr a, .expr b]

/-- The bodies of `__add__`, `__sub__`, `__mul__`, `__truediv__`, `__pow__`:
simplecas/expr.py:209-252. -/
def method (c : ConstsH) (op : BinOp) (self other : Nat) : Prog V Val Nat :=
  match op with
  | .add => exprCall2 lit c.add self other
  | .sub => do
    let m ← exprCall2 lit c.mul c.negone other
    exprCall2 lit c.add self m
  | .mul => exprCall2 lit c.mul self other
  | .truediv => do
    let p ← exprCall2 lit c.pow other c.negone
    exprCall2 lit c.mul self p
  | .pow => exprCall2 lit c.pow self other

/-- The bodies of `__radd__`, `__rsub__`, `__rmul__`, `__rtruediv__`, `__rpow__`:
simplecas/expr.py:214-257. -/
def rmethod (c : ConstsH) (op : BinOp) (self other : Nat) : Prog V Val Nat :=
  match op with
  | .add => exprCall2 lit c.add other self
  | .sub => do
    let m ← exprCall2 lit c.mul c.negone self
    exprCall2 lit c.add other m
  | .mul => exprCall2 lit c.mul other self
  | .truediv => do
    let p ← exprCall2 lit c.pow self c.negone
    exprCall2 lit c.mul other p
  | .pow => exprCall2 lit c.pow other self

/-- Python's dispatch of `a <op> b` with `expressify_other` (simplecas/expr.py:76-88), as `pyBinOp` of
`Model/Expr.lean`: an operand that `expressify` rejects makes both methods decline. -/
def binOp (c : ConstsH) (op : BinOp) : ObjH → ObjH → Prog V Val Nat
  | .expr a, .expr b => method lit c op a b
  | .expr a, .int n => do
    let b ← expressify lit (.int n)
    method lit c op a b
  | .int n, .expr b => do
    let a ← expressify lit (.int n)
    rmethod lit c op b a
  | _, _ => .raise .typeError

/-- `__neg__`: simplecas/expr.py:205-207. -/
def neg (c : ConstsH) (a : Nat) : Prog V Val Nat := exprCall2 lit c.mul c.negone a

/-- `ExprFunction.__init__`: simplecas/expr.py:518-522. -/
def exprFunction (expr : ObjH) (params : List ObjH) : Prog V Val SubsH := do
  let e ← expressRep lit expr
  let ps ← each (expressRep lit) params
  subsNew e ps

/-- `ExprFunction.__call__`: simplecas/expr.py:524-531. -/
def callExprFunction (f : SubsH) (args : List ObjH) : Prog V Val Nat := do
  let argsRep ← each (expressRep lit) args
  let t ← subsCall f argsRep
  wrap exprCls t

/-- `Expr.xreplace`: simplecas/expr.py:177-199; `reps` are the pairs of the dictionary. -/
def xreplace (self : Nat) (reps : List (ObjH × ObjH)) : Prog V Val Nat := do
  let f ← exprFunction lit (.expr self) (reps.map Prod.fst)
  callExprFunction lit f (reps.map Prod.snd)

/-- The loop of `Expr.diff`: simplecas/expr.py:464-466. -/
def exprDiffLoop (p : DiffH) (sym : Nat) : Nat → Nat → Prog V Val Nat
  | 0, deriv => .ret deriv
  | n + 1, deriv => do
    let d ← symDiff exprCls p deriv sym 1
    exprDiffLoop p sym n d

/-- `Expr.diff(sym, ntimes)`: simplecas/expr.py:421-468. -/
def exprDiff (p : DiffH) (self sym : Nat) (ntimes : Int) : Prog V Val Nat :=
  exprDiffLoop p sym ntimes.toNat self

/-- `reduce(f, args)` for a `Tree` `f`, after the first argument. -/
def reduceLoop (f acc : Nat) : List Nat → Prog V K Nat
  | [] => .ret acc
  | a :: as => do
    let acc ← call f [acc, a]
    reduceLoop f acc as

/-- `reduce(f, args)` for a `Tree` `f`: simplecas/expr.py:560-561. -/
def reduceCall (f : Nat) : List Nat → Prog V K Nat
  | [] => .raise .typeError
  | a :: as => reduceLoop f a as

/-- The transformer `bin_expand`: simplecas/expr.py:559-561; `add` and `mul` are `Add.rep` and
`Mul.rep`. -/
def binExpander (add mul : Nat) : EvalH V K Nat :=
  (transformerNew.addOp add (reduceCall add)).addOp mul (reduceCall mul)

/-- `Expr.bin_expand`: simplecas/expr.py:470-480. -/
def exprBinExpand (c : ConstsH) (self : Nat) : Prog V Val Nat := do
  let add ← rep c.add
  let mul ← rep c.mul
  let t ← rep self
  let r ← (binExpander add mul).call t []
  wrap exprCls r

/-- `Expr.count_ops_graph`: simplecas/expr.py:363-419. -/
def exprCountOps (self : Nat) : Prog V Val Nat := do
  let t ← rep self
  let subexpressions ← sort false [] t
  return subexpressions.length

/-- What the import of simplecas/expr.py makes: the constants and the differentiator. -/
structure SimplecasH where
  consts : ConstsH
  diff : DiffH

/-- The constants: simplecas/expr.py:542-557. -/
def makeConsts : Prog V Val ConstsH := do
  let zero ← newAtom exprCls Ty.integer (lit (.int 0))
  let one ← newAtom exprCls Ty.integer (lit (.int 1))
  let negone ← newAtom exprCls Ty.integer (lit (.int (-1)))
  let x ← newAtom exprCls Ty.symbol (lit (.str "x"))
  let y ← newAtom exprCls Ty.symbol (lit (.str "y"))
  let f ← newAtom exprCls Ty.function (lit (.str "f"))
  let g ← newAtom exprCls Ty.function (lit (.str "g"))
  let pow ← newAtom exprCls Ty.function (lit (.str "pow"))
  let sin ← newAtom exprCls Ty.function (lit (.str "sin"))
  let cos ← newAtom exprCls Ty.function (lit (.str "cos"))
  let add ← newAtom exprCls Ty.function (lit (.str "Add"))
  let mul ← newAtom exprCls Ty.function (lit (.str "Mul"))
  let list ← newAtom exprCls Ty.function (lit (.str "List"))
  return ⟨zero, one, negone, x, y, f, g, pow, sin, cos, add, mul, list⟩

/-- The differentiator: simplecas/expr.py:566-567, 580-585. -/
def makeDiff (c : ConstsH) : Prog V Val DiffH := do
  let a ← newAtom exprCls Ty.wild (lit (.str "a"))
  let b ← newAtom exprCls Ty.wild (lit (.str "b"))
  let p ← differentiator c.add c.mul c.zero c.one
  let cosA ← exprCall lit c.cos [.expr a]
  let sinA ← exprCall lit c.sin [.expr a]
  let p ← setDiffRule p sinA a cosA
  let sinA ← exprCall lit c.sin [.expr a]
  let negSin ← neg lit c sinA
  let cosA ← exprCall lit c.cos [.expr a]
  let p ← setDiffRule p cosA a negSin
  let bm1 ← binOp lit c .add (.expr b) (.int (-1))
  let power ← binOp lit c .pow (.expr a) (.expr bm1)
  let rhs ← binOp lit c .mul (.expr b) (.expr power)
  let ab ← binOp lit c .pow (.expr a) (.expr b)
  let p ← setDiffRule p ab a rhs
  addDistributive p c.list

/-- `import protosym.simplecas.expr`: simplecas/expr.py:534-585 without the evaluators. -/
def importSimplecas : Prog V Val SimplecasH := do
  let c ← makeConsts lit
  let d ← makeDiff lit c
  return ⟨c, d⟩

end Verif.Store.Prog
