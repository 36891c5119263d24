import Verif.Model.Expr

/-!
# Model of src/protosym/core/differentiate.py and `SymDifferentiator` (core/sym.py)
-/

namespace Verif
variable {V : Type}

/-- `DiffProperties`: differentiate.py:27-44.  `distributive` is a Python set (used through
`add` and `in` only). -/
structure DiffProps (V : Type) where
  zero : Tree V
  one : Tree V
  add : Tree V
  mul : Tree V
  distributive : List (Tree V)
  diffRules : Dict (Tree V × Nat) (SubsFunc V)

variable [DecidableEq V]

/-- `add_distributive`: differentiate.py:38-40. -/
def DiffProps.addDistributive (p : DiffProps V) (head : Tree V) : DiffProps V :=
  { p with distributive := head :: p.distributive }

/-- `add_diff_rule`: differentiate.py:42-44. -/
def DiffProps.addDiffRule (p : DiffProps V) (head : Tree V) (argnum : Nat) (func : SubsFunc V) :
    DiffProps V :=
  { p with diffRules := p.diffRules.set (head, argnum) func }

/-- The loop of `product_rule_forward`: differentiate.py:104-117; `n` is the enumeration
counter. -/
def productRuleLoop (args : List (Tree V)) (zero mul : Tree V) (n : Nat)
    (terms : List (Tree V)) : List (Tree V) → List (Tree V)
  | [] => terms
  | diffArg :: rest =>
    if diffArg ≠ zero then
      let term := mul.call (args.take n ++ [diffArg] ++ args.drop (n + 1))
      productRuleLoop args zero mul (n + 1) (terms ++ [term]) rest
    else productRuleLoop args zero mul (n + 1) terms rest

/-- `product_rule_forward`: differentiate.py:104-117. -/
def productRuleForward (args diffArgs : List (Tree V)) (zero mul : Tree V) : List (Tree V) :=
  productRuleLoop args zero mul 0 [] diffArgs

/-- The loop of `chain_rule_forward`: differentiate.py:120-138. -/
def chainRuleLoop (func : Tree V) (args : List (Tree V)) (zero one mul : Tree V)
    (diffRules : Dict (Tree V × Nat) (SubsFunc V)) (n : Nat) (terms : List (Tree V)) :
    List (Tree V) → PyM (List (Tree V))
  | [] => .ok terms
  | diffArg :: rest =>
    if diffArg ≠ zero then do
      let pdiff ← diffRules.getItem (func, n)
      let diffTerm ← pdiff.call args
      let diffTerm := if diffArg ≠ one then mul.call [diffTerm, diffArg] else diffTerm
      chainRuleLoop func args zero one mul diffRules (n + 1) (terms ++ [diffTerm]) rest
    else chainRuleLoop func args zero one mul diffRules (n + 1) terms rest

/-- `chain_rule_forward`: differentiate.py:120-138. -/
def chainRuleForward (func : Tree V) (args diffArgs : List (Tree V)) (zero one mul : Tree V)
    (diffRules : Dict (Tree V × Nat) (SubsFunc V)) : PyM (List (Tree V)) :=
  chainRuleLoop func args zero one mul diffRules 0 [] diffArgs

/-- `set(diff_args) == {zero}`: differentiate.py:75. -/
def isZeroSet (zero : Tree V) (diffArgs : List (Tree V)) : Bool :=
  !diffArgs.isEmpty && diffArgs.all (fun d => d = zero)

/-- The body of the loop of `diff_forward`, without the two `append`s:
differentiate.py:73-93. -/
def diffStep (p : DiffProps V) (func : Tree V) (args diffArgs : List (Tree V)) :
    PyM (Tree V) := do
  let diffTerms ←
    if func ∈ p.distributive then pure [func.call diffArgs]
    else if isZeroSet p.zero diffArgs then pure []
    else if func = p.add then pure (diffArgs.filter (fun da => da ≠ p.zero))
    else if func = p.mul then pure (productRuleForward args diffArgs p.zero p.mul)
    else chainRuleForward func args diffArgs p.zero p.one p.mul p.diffRules
  match diffTerms with
  | [] => return p.zero
  | [t] => return t
  | ts => return p.add.call ts

/-- The loop of `diff_forward`: differentiate.py:68-96. -/
def diffLoop (p : DiffProps V) (stack diffStack : List (Tree V)) :
    List (Tree V × List Nat) → PyM (List (Tree V))
  | [] => .ok diffStack
  | (func, indices) :: rest => do
    let args ← indices.mapM (fun i => pyGet stack i)
    let diffArgs ← indices.mapM (fun i => pyGet diffStack i)
    let expr := func.call args
    let derivative ← diffStep p func args diffArgs
    diffLoop p (stack ++ [expr]) (diffStack ++ [derivative]) rest

/-- `diff_forward(expression, sym, prop)`: differentiate.py:47-101. -/
def diffForward (expression sym : Tree V) (p : DiffProps V) : PyM (Tree V) := do
  let graph ← forwardGraph expression
  let diffStack := graph.atoms.map (fun expr => if expr = sym then p.one else p.zero)
  let diffStack ← diffLoop p graph.atoms diffStack graph.operations
  pyLast diffStack

/-- `SymDifferentiator.__init__`: sym.py:621-634. -/
def SymDifferentiator.new (add mul zero one : Expr) : DiffProps Val :=
  ⟨zero, one, add, mul, [], Dict.empty⟩

/-- `SymDifferentiator.__setitem__`: sym.py:643-661 for a two-element tuple key (lines
645-646 raise `TypeError` for anything else).  `expr_r.children[0]` raises `IndexError` on an
atomic pattern. -/
def SymDifferentiator.setItem (p : DiffProps Val) (expr sym dexpr : Expr) :
    PyM (DiffProps Val) := do
  let head ← pyGet expr.children 0
  let argsLhs := expr.children.drop 1
  if argsLhs.count sym ≠ 1 then .error .typeError
  else do
    let index := argsLhs.idxOf sym
    let rhsfunc ← SubsFunc.new dexpr argsLhs
    return p.addDiffRule head index rhsfunc

/-- `range(ntimes)` iterations of a step that may raise. -/
def iterPy {α : Type} (f : α → PyM α) : Nat → α → PyM α
  | 0, a => .ok a
  | n + 1, a => do iterPy f n (← f a)

/-- `SymDifferentiator.__call__`: sym.py:663-669. `range(ntimes)` is empty for negative
`ntimes`. -/
def SymDifferentiator.call (p : DiffProps Val) (expr sym : Expr) (ntimes : Int := 1) : PyM Expr :=
  iterPy (fun d => diffForward d sym p) ntimes.toNat expr

/-- The rule assignments at simplecas/expr.py:580-585. -/
def builtinDiffM : PyM (DiffProps Val) := do
  let a := Expr.wild "a"
  let b := Expr.wild "b"
  let p := SymDifferentiator.new Expr.addH Expr.mulH Expr.zero Expr.one
  let p ← SymDifferentiator.setItem p (Expr.sin a) a (Expr.cos a)
  let p ← SymDifferentiator.setItem p (Expr.cos a) a (pyNeg (Expr.sin a))
  let p ← SymDifferentiator.setItem p (Expr.pow a b) a
    (Expr.mul b (Expr.pow a (Expr.add b Expr.negone)))
  return p.addDistributive Expr.listH

/-- The differentiator `diff` of simplecas: simplecas/expr.py:580-585. -/
def builtinDiff : DiffProps Val :=
  match builtinDiffM with
  | .ok p => p
  | .error _ => SymDifferentiator.new Expr.addH Expr.mulH Expr.zero Expr.one

/-- `Expr.diff(sym, ntimes)`: simplecas/expr.py:421-468. -/
def Expr.diff (self sym : Expr) (ntimes : Int := 1) (p : DiffProps Val := builtinDiff) : PyM Expr :=
  iterPy (fun deriv => SymDifferentiator.call p deriv sym 1) ntimes.toNat self

end Verif
