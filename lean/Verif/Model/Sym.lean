import Verif.Model.Expr

/-!
# Model of src/protosym/core/sym.py: evaluation rules given as patterns

`Sym` wraps a tree (sym.py:134-158, store layer); an `Expr` is modelled by its tree.
-/

namespace Verif
variable {T : Type}

/-- `Star`: sym.py:434. -/
def Expr.starH : Expr := .atom ⟨Ty.star, .str "Star"⟩

/-- `star(wild)`: sym.py:437-439. -/
def star (wild : Expr) : Expr := Expr.starH.call [wild]

/-- `Sym.args`: sym.py:165-169. -/
def Expr.args (e : Expr) : List Expr := e.children.drop 1

/-- `Sym.head`: sym.py:160-163; `IndexError` on an atomic expression. -/
def Expr.head (e : Expr) : PyM Expr := pyGet e.children 0

/-- The wrappers around callables: `PyOp1` (sym.py:286-300), `PyOp2` (303-317), `PyOpN`
(320-334), `PyFunc1` (337-351), `AtomFunc` (354-368), `HeadOp` (371-391). -/
inductive PyFn (T : Type) where
  | op1 (f : List T → PyM T)
  | op2 (f : List T → PyM T)
  | opN (f : List T → PyM T)
  | func1 (f : Val → PyM T)
  | atomFunc (f : Expr → PyM T)
  | headOp (f : Expr → List T → PyM T)

/-- `WildCall`: sym.py:267-272. -/
structure WildCall (T : Type) where
  op : PyFn T
  args : List Expr

/-- The number of parameters of the wrappers' `__call__` (after `self`): sym.py:299, 316,
333, 350, 367, 390. -/
def PyFn.arity : PyFn T → Nat
  | .op1 _ => 1
  | .op2 _ => 2
  | .opN _ => 1
  | .func1 _ => 1
  | .atomFunc _ => 1
  | .headOp _ => 2

/-- The wrappers' `__call__`, e.g. `f64_cos(a)`: `TypeError` for a wrong number of
arguments. -/
def PyFn.call (f : PyFn T) (args : List Expr) : PyM (WildCall T) :=
  if args.length = f.arity then .ok ⟨f, args⟩ else .error .typeError

/-- What may stand between the brackets of `evaluator[pattern] = call`: an expression,
`Integer[a]` (`SymAtomValue`: sym.py:66-71), `AtomRule[a]` (`AtomRuleType`: 394-409),
`HeadRule(a, b)` (`HeadRuleType`: 412-427). -/
inductive Pattern where
  | sym (e : Expr)
  | atomValue (ty : AtomType) (wild : Expr)
  | atomRule (wild : Expr)
  | headRule (head args : Expr)
deriving DecidableEq

/-- The `args` attribute of each kind of pattern. -/
def Pattern.args : Pattern → List Expr
  | .sym e => e.args
  | .atomValue _ w => [w]
  | .atomRule w => [w]
  | .headRule h as => [h, as]

/-- Code that may raise and mutates an evaluator; what was mutated before an exception stays
mutated. -/
abbrev EvM (T : Type) := ExceptT PyErr (StateM (Evaluator PyM Val T))

/-- Raise. -/
def EvM.raise {α : Type} (e : PyErr) : EvM T α := throw e

/-- Mutate the evaluator. -/
def EvM.modify (g : Evaluator PyM Val T → Evaluator PyM Val T) : EvM T Unit :=
  fun ev => (.ok (), g ev)

/-- Raise what a pure computation raises. -/
def EvM.lift {α : Type} (r : PyM α) : EvM T α := fun ev => (r, ev)

/-- `SymEvaluator.add_op`: sym.py:577-590. -/
def addOp (head : Expr) (op : PyFn T) : EvM T Unit :=
  match op with
  | .op1 f => EvM.modify (fun ev => ev.addOp1 head f)
  | .op2 f => EvM.modify (fun ev => ev.addOp2 head f)
  | .opN f => EvM.modify (fun ev => ev.addOpN head f)
  | _ => EvM.raise .badRule

/-- The signature check of `SymEvaluator.__setitem__`: sym.py:550-555.  The unpacking
`(callarg,) = call.args` raises `ValueError` unless there is exactly one argument. -/
def checkSignature (pattern : Pattern) (call : WildCall T) : PyM Unit :=
  match call.op with
  | .opN _ =>
    match call.args with
    | [callarg] => if pattern.args ≠ [star callarg] then .error .badRule else .ok ()
    | _ => .error .valueError
  | _ => if pattern.args ≠ call.args then .error .badRule else .ok ()

/-- `SymEvaluator.__setitem__`: sym.py:529-575.  `none` stands for an object that is not a
`WildCall`. -/
def setItem (pattern : Pattern) (call : Option (WildCall T)) : EvM T Unit :=
  match call with
  | none => EvM.raise .badRule
  | some call => do
    EvM.lift (checkSignature pattern call)
    match pattern with
    | .atomRule _ =>
      match call.op with
      | .atomFunc f => EvM.modify (fun ev => ev.addAtomGeneric f)
      | _ => EvM.raise .badRule
    | .headRule _ _ =>
      match call.op with
      | .headOp f => EvM.modify (fun ev => ev.addOpGeneric f)
      | _ => EvM.raise .badRule
    | .atomValue ty _ =>
      match call.op with
      | .func1 f => EvM.modify (fun ev => ev.addAtom ty f)
      | _ => EvM.raise .badRule
    | .sym e =>
      match call.op with
      | .op1 _ | .op2 _ | .opN _ => do
        let head ← EvM.lift e.head
        addOp head call.op
      | _ => EvM.raise .badRule

/-- `SymEvaluator.__call__`: sym.py:596-601.  `values=None` gives the empty dict.  The
comprehension `{e.rep: v for e, v in values.items()}` is the identity on modelled
expressions. -/
def symEvalCall [HasNone T] (ev : Evaluator PyM Val T) (expr : Expr)
    (values : Option (Dict Expr T) := none) : PyM T :=
  match values with
  | none => ev.call expr (some Dict.empty)
  | some values => ev.call expr (some (Dict.ofPairs values.items))

/-- Execute a sequence of rule assignments `ev[pattern] = f(args)`, as module
initialisation code does, on a new evaluator. -/
def installRules : List (Pattern × PyFn T × List Expr) → EvM T Unit
  | [] => fun ev => (.ok (), ev)
  | (pattern, f, args) :: rest => do
    let call ← EvM.lift (f.call args)
    setItem pattern (some call)
    installRules rest

/-- The evaluator left behind by module initialisation code. -/
def evaluatorOf (rules : List (Pattern × PyFn T × List Expr)) : Evaluator PyM Val T :=
  (installRules rules Evaluator.new).2

end Verif
