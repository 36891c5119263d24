import Verif.Model.ClientExpr
import Verif.Model.Functions
import Verif.Model.SymPy
import Verif.Model.Compile

/-!
# Evaluation rules as programs on objects

`SymEvaluator.__setitem__` of core/sym.py and the rule tables of simplecas/functions.py as programs of
`Model/Client.lean`: patterns are `Expr` objects, the arguments of a pattern and of a rule are compared
by identity, the rules are found by the identity of the head.

The callables of the rules are functions on plain data (numbers, strings); one that is given an
expression (`AtomFunc`, `HeadOp`) reads the whole of it.
-/

namespace Verif.Store

/-- What simplecas calls: the arithmetic of floats, SymPy, and LLVM with ctypes and numpy. -/
structure Libs (F : Type) where
  floats : FloatOps F
  sympy : SymPyLib
  platform : Platform F

namespace Prog
variable {V T : Type}

/-- An `Evaluator` (evaluate.py:43-96) whose rules are functions on plain data.  The dictionaries are
lists of pairs, newest first; the keys of `operations` are handles of `Tree`s. -/
structure EvalD (T : Type) where
  atoms : List (AtomType × (Val → PyM T))
  operations : List (Nat × (List T → PyM T))
  genericOp : Expr → List T → PyM T
  genericAtom : Expr → PyM T

/-- `Evaluator()`: evaluate.py:91-96 with 31-40. -/
def EvalD.new : EvalD T where
  atoms := []
  operations := []
  genericOp := fun _ _ => .error .noEvaluationRule
  genericAtom := fun _ => .error .noEvaluationRule

/-- The evaluator as one whose rules are programs: those that get an expression read it first. -/
def EvalD.toH (d : EvalD T) : EvalH V Val T where
  atoms := d.atoms.map (fun p => (p.1, fun v => ofPy (p.2 v)))
  operations := d.operations.map (fun p => (p.1, fun as => ofPy (p.2 as)))
  genericOp := fun h as => do
    let t ← readTree h
    ofPy (d.genericOp t as)
  genericAtom := fun h => do
    let t ← readTree h
    ofPy (d.genericAtom t)

/-- What may stand between the brackets of `evaluator[pattern] = call`: an expression, `Integer[a]`
(sym.py:66-71), `AtomRule[a]` (sym.py:394-409), `HeadRule(a, b)` (sym.py:412-427). -/
inductive PatternH where
  | sym (e : Nat)
  | atomValue (ty : AtomType) (wild : Nat)
  | atomRule (wild : Nat)
  | headRule (head args : Nat)

/-- The `args` attribute of each kind of pattern (that of an expression is a property: sym.py:165-169). -/
def PatternH.args : PatternH → Prog V Val (List Nat)
  | .sym e => symArgs exprCls e
  | .atomValue _ w => .ret [w]
  | .atomRule w => .ret [w]
  | .headRule h as => .ret [h, as]

/-- `star(wild)`: sym.py:437-439; `st` is the `Tree` `Star`. -/
def star (st wild : Nat) : Prog V Val Nat := do
  let w ← rep wild
  let t ← call st [w]
  wrap exprCls t

/-- `s == t` for tuples of `Expr`s: element by element, each by identity. -/
def sameArgs : List Nat → List Nat → Prog V Val Bool
  | [], [] => .ret true
  | a :: as, b :: bs => .same a b (fun s => if s then sameArgs as bs else .ret false)
  | _, _ => .ret false

/-- `WildCall`: sym.py:267-272. -/
structure WildCallH (T : Type) where
  op : PyFn T
  args : List Nat

/-- The wrappers' `__call__`, e.g. `f64_cos(a)`: sym.py:299, 316, 333, 350, 367, 390. -/
def wildCall (f : PyFn T) (args : List Nat) : Prog V Val (WildCallH T) :=
  if args.length = f.arity then .ret ⟨f, args⟩ else .raise .typeError

/-- The signature check: sym.py:550-555. -/
def checkSignature (st : Nat) (pattern : PatternH) (call : WildCallH T) : Prog V Val Unit :=
  match call.op with
  | .opN _ =>
    match call.args with
    | [callarg] => do
      let args ← pattern.args
      let s ← star st callarg
      if ← sameArgs args [s] then return ()
      else .raise .badRule
    | _ => .raise .valueError
  | _ => do
    let args ← pattern.args
    if ← sameArgs args call.args then return ()
    else .raise .badRule

/-- `SymEvaluator.add_op`: sym.py:577-590. -/
def addOp (d : EvalD T) (head : Nat) (op : PyFn T) : Prog V Val (EvalD T) :=
  match op with
  | .op1 f | .op2 f | .opN f => do
    let h ← rep head
    return { d with operations := (h, f) :: d.operations }
  | _ => .raise .badRule

/-- `SymEvaluator.__setitem__`: sym.py:529-575, with the evaluator after the assignment as the result. -/
def setItem (st : Nat) (d : EvalD T) (pattern : PatternH) (call : WildCallH T) :
    Prog V Val (EvalD T) := do
  checkSignature st pattern call
  match pattern with
  | .atomRule _ =>
    match call.op with
    | .atomFunc f => return { d with genericAtom := f }
    | _ => .raise .badRule
  | .headRule _ _ =>
    match call.op with
    | .headOp f => return { d with genericOp := f }
    | _ => .raise .badRule
  | .atomValue ty _ =>
    match call.op with
    | .func1 f => return { d with atoms := (ty, f) :: d.atoms }
    | _ => .raise .badRule
  | .sym e =>
    match call.op with
    | .op1 _ | .op2 _ | .opN _ => do
      let head ← symHead exprCls e
      addOp d head call.op
    | _ => .raise .badRule

/-- `ev[pattern] = f(*args)`. -/
def rule (st : Nat) (d : EvalD T) (pattern : PatternH) (f : PyFn T) (args : List Nat) :
    Prog V Val (EvalD T) := do
  let call ← wildCall f args
  setItem st d pattern call

variable (lit : Val → V)

/-- `Star`: sym.py:434. -/
def makeStar : Prog V Val Nat :=
  .make (.atom Ty.star (lit (.str "Star"))) (fun a => .make (.treeAtom a) .ret)

/-- `ev[head(star(a))] = f(a)`. -/
def ruleN (st : Nat) (d : EvalD T) (head a : Nat) (f : List T → PyM T) : Prog V Val (EvalD T) := do
  let s ← star st a
  let p ← exprCall lit head [.expr s]
  rule st d (.sym p) (.opN f) [a]

/-- `ev[head(a)] = f(a)`. -/
def rule1 (st : Nat) (d : EvalD T) (head a : Nat) (f : List T → PyM T) : Prog V Val (EvalD T) := do
  let p ← exprCall lit head [.expr a]
  rule st d (.sym p) (.op1 f) [a]

/-- `ev[a**b] = f(a, b)`. -/
def rulePow (c : ConstsH) (st : Nat) (d : EvalD T) (a b : Nat) (f : List T → PyM T) :
    Prog V Val (EvalD T) := do
  let p ← binOp lit c .pow (.expr a) (.expr b)
  rule st d (.sym p) (.op2 f) [a, b]

/-- `eval_f64`: simplecas/expr.py:534 with functions.py:40-52. -/
def makeF64 {F : Type} (A : FloatOps F) (c : ConstsH) (st a b : Nat) : Prog V Val (EvalD F) := do
  let d ← rule st EvalD.new (.atomValue Ty.integer a) (.func1 A.fromVal) [a]
  let d ← ruleN lit st d c.add a A.fsum
  let d ← ruleN lit st d c.mul a A.prod
  let d ← rulePow lit c st d a b (arity2 A.pow)
  let d ← rule1 lit st d c.sin a (arity1 A.sin)
  rule1 lit st d c.cos a (arity1 A.cos)

/-- `eval_repr`: simplecas/expr.py:535 with functions.py:60-76. -/
def makeRepr (c : ConstsH) (st a b : Nat) : Prog V Val (EvalD String) := do
  let d ← rule st EvalD.new (.headRule a b) (.headOp reprCall) [a, b]
  let d ← rule st d (.atomRule a) (.atomFunc treeStr) [a]
  let d ← rule st d (.atomValue Ty.integer a) (.func1 (fun v => .ok (valStr v))) [a]
  let d ← rule st d (.atomValue Ty.symbol a) (.func1 (fun v => .ok (valStr v))) [a]
  let d ← rule st d (.atomValue Ty.function a) (.func1 (fun v => .ok (valStr v))) [a]
  let d ← ruleN lit st d c.add a (fun args => .ok ("(" ++ String.intercalate " + " args ++ ")"))
  let d ← ruleN lit st d c.mul a (fun args => .ok ("(" ++ String.intercalate "*" args ++ ")"))
  rulePow lit c st d a b (arity2 (fun b e => .ok (b ++ "**" ++ e)))

/-- `eval_latex`: simplecas/expr.py:536 with functions.py:84-98. -/
def makeLatex (c : ConstsH) (st a b : Nat) : Prog V Val (EvalD String) := do
  let d ← rule st EvalD.new (.headRule a b) (.headOp reprCall) [a, b]
  let d ← rule st d (.atomValue Ty.integer a) (.func1 (fun v => .ok (valStr v))) [a]
  let d ← rule st d (.atomValue Ty.symbol a) (.func1 (fun v => .ok (valStr v))) [a]
  let d ← rule st d (.atomValue Ty.function a) (.func1 (fun v => .ok (valStr v))) [a]
  let d ← ruleN lit st d c.add a (fun args => .ok ("(" ++ String.intercalate " + " args ++ ")"))
  let d ← ruleN lit st d c.mul a (fun args => .ok ("(" ++ String.intercalate " \\times " args ++ ")"))
  let d ← rulePow lit c st d a b (arity2 (fun b e => .ok (b ++ "^{" ++ e ++ "}")))
  let d ← rule1 lit st d c.sin a (arity1 (fun a => .ok ("\\sin(" ++ a ++ ")")))
  rule1 lit st d c.cos a (arity1 (fun a => .ok ("\\cos(" ++ a ++ ")")))

/-- `eval_to_sympy`: sympy_conversions.py:31-55. -/
def makeToSympy (L : SymPyLib) (c : ConstsH) (st a b : Nat) : Prog V Val (EvalD SExpr) := do
  let d ← rule st EvalD.new (.atomValue Ty.integer a) (.func1 L.fromInt) [a]
  let d ← rule st d (.atomValue Ty.symbol a) (.func1 (fromStr L.symbol)) [a]
  let d ← rule st d (.atomValue Ty.function a) (.func1 (fromStr L.function)) [a]
  let d ← ruleN lit st d c.add a L.add
  let d ← ruleN lit st d c.mul a L.mul
  let d ← rulePow lit c st d a b (arity2 L.pow)
  let d ← rule1 lit st d c.sin a (arity1 L.sin)
  let d ← rule1 lit st d c.cos a (arity1 L.cos)
  let d ← ruleN lit st d c.list a L.tuple
  rule st d (.headRule a b) (.headOp L.undefCall) [a, b]

/-- `count_ops_tree`: simplecas/expr.py:569-574. -/
def makeCountOps (st a b : Nat) : Prog V Val (EvalD Nat) := do
  let d ← rule st EvalD.new (.atomRule a) (.atomFunc (fun _ => .ok 1)) [a]
  rule st d (.headRule a b) (.headOp (fun _ counts => .ok (1 + counts.sum))) [a, b]

/-- What the import of `protosym.simplecas` makes: the `Tree` `Star`, the constants, the differentiator
and the evaluators. -/
structure FullH (F : Type) where
  star : Nat
  base : SimplecasH
  f64 : EvalD F
  repr : EvalD String
  latex : EvalD String
  countOps : EvalD Nat
  sympy : EvalD SExpr

/-- `import protosym.simplecas`: sym.py:434, simplecas/expr.py:534-585, functions.py:30-98; and of
`protosym.simplecas.sympy_conversions` (simplified: the code imports that at the first conversion). -/
def importFull {F : Type} (A : Libs F) : Prog V Val (FullH F) := do
  let st ← makeStar lit
  let m ← importSimplecas lit
  let a ← newAtom exprCls Ty.wild (lit (.str "a"))
  let b ← newAtom exprCls Ty.wild (lit (.str "b"))
  let countOps ← makeCountOps st a b
  let f64 ← makeF64 lit A.floats m.consts st a b
  let repr ← makeRepr lit m.consts st a b
  let latex ← makeLatex lit m.consts st a b
  let sympy ← makeToSympy lit A.sympy m.consts st a b
  return ⟨st, m, f64, repr, latex, countOps, sympy⟩

end Prog

end Verif.Store
