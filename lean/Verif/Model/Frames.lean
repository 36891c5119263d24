import Verif.Model.Diff
import Verif.Model.Functions
import Verif.Model.Repr
import Verif.Model.SymPy
import Verif.Model.LLVM

/-!
# The algorithms with Python's recursion limit

The same functions as in the other files, written once more with the number of frames that the
interpreter still allows on its stack.  Every call of a function written in Python takes a frame until
it returns; when there is none left the call raises `RecursionError`.  What the interpreter and its
library take is a parameter (`FrameUse`), because it differs between the versions of Python.

Calls of functions written in C (`math.sin`, `list`, `dict.get`, `object.__new__`, `hash` of a tree or of
an int or str) take no frame, unless they call back (`repr`, `str`, `map`: `FrameUse.slot`).

`Props/Frames.lean` proves that with enough frames the results are those of the functions without a
limit.
-/

namespace Verif

/-- What a Python interpreter takes for things that are not calls of protosym's functions. -/
structure FrameUse where
  /-- a list, set or dict comprehension: 1 before Python 3.12 -/
  comp : Nat
  /-- `WeakValueDictionary.get` and `setdefault`, written in Python, with all they call -/
  weak : Nat
  /-- `repr(obj)`, `str(obj)`, `format(obj)` calling the method of `obj`: 1 before Python 3.12, which counted
  calls from C in the same way -/
  slot : Nat

/-- A Python computation that is allowed so many more frames; `none` is `RecursionError`. -/
def Framed (α : Type) : Type := Nat → Option (PyM α)

namespace Framed

/-- Returning a value. -/
def ret {α : Type} (a : α) : Framed α := fun _ => some (.ok a)

/-- One computation after the other on the same stack; an exception ends both. -/
def andThen {α β : Type} (x : Framed α) (f : α → Framed β) : Framed β := fun n =>
  match x n with
  | none => none
  | some (.error e) => some (.error e)
  | some (.ok a) => f a n

/-- `do` notation. -/
instance : Monad Framed where
  pure := ret
  bind := andThen

/-- Raising an exception takes no frame. -/
instance : MonadExceptOf PyErr Framed where
  throw e := fun _ => some (.error e)
  tryCatch x f := fun n =>
    match x n with
    | some (.error e) => f e n
    | r => r

/-- Run a computation `k` frames further up the stack. -/
def frames {α : Type} (k : Nat) (x : Framed α) : Framed α := fun n =>
  if k ≤ n then x (n - k) else none

/-- The body of a function written in Python. -/
abbrev frame {α : Type} (x : Framed α) : Framed α := frames 1 x

/-- A computation in the current frame. -/
def here {α : Type} (x : PyM α) : Framed α := fun _ => some x

/-- Something outside the model that takes `k` frames and gives them back. -/
def outside (k : Nat) : Framed Unit := frames k (ret ())

end Framed

open Framed

section Core
variable {V : Type}

/-- `Tree.__new__` (tree.py:118-132): the lookup, the generator expression and the `setdefault`. -/
def framedTree (c : FrameUse) (children : List (Tree V)) : Framed (Tree V) := frame do
  outside c.weak
  outside 1
  outside c.weak
  return .node children

/-- `Tree.__call__` (tree.py:152-154). -/
def framedCall (c : FrameUse) (head : Tree V) (args : List (Tree V)) : Framed (Tree V) :=
  frame (framedTree c (head :: args))

/-- `Tr` and `Tree.atom` (tree.py:134-150, 175-178). -/
def framedTr (c : FrameUse) (a : Atom V) : Framed (Tree V) := frame <| frame do
  outside c.weak
  outside c.weak
  return .atom a

/-- `AtomType.__call__` and `Atom.__new__` (atom.py:91-93, 151-174). -/
def framedAtom (c : FrameUse) (ty : AtomType) (v : V) : Framed (Atom V) := frame <| frame do
  outside c.weak
  outside c.weak
  return ⟨ty, v⟩

/-- `Sym.__new__` (sym.py:138-158); a `Sym` is modelled by its tree. -/
def framedSym (c : FrameUse) (t : Tree V) : Framed (Tree V) := frame do
  outside c.weak
  outside c.weak
  return t

variable [DecidableEq V]

/-- One turn of the loops at tree.py:273-283, as `topoStep`: `get_children` is a function. -/
def framedTopoStep (heads : Bool) (s : TopoState V) : Framed (Option (TopoState V)) :=
  match s.stack with
  | [] => return none
  | (top, children) :: rest =>
    match pyPop children with
    | some (child, children') =>
      if child ∈ s.seen then
        return some { s with stack := (top, children') :: rest }
      else do
        let grandchildren ← frame (ret (getChildren heads child))
        return some { s with seen := child :: s.seen,
                             stack := (child, grandchildren) :: (top, children') :: rest }
    | none =>
      return some { s with stack := rest, out := s.out ++ [top] }

theorem framedTopoStep_cases (heads : Bool) (s : TopoState V) (n : Nat) :
    framedTopoStep heads s n = none ∨ framedTopoStep heads s n = some (.ok (topoStep heads s)) := by
  unfold framedTopoStep topoStep
  split
  · rename_i h; simp only [h]; exact Or.inr rfl
  · rename_i top children rest h
    simp only [h]
    split
    · rename_i child children' h'
      simp only [h']
      split
      · exact Or.inr rfl
      · show andThen _ _ n = none ∨ andThen _ _ n = _
        unfold andThen frame frames
        split
        · rename_i h''
          split at h''
          · cases h''
          · exact Or.inl rfl
        · rename_i h''
          split at h'' <;> cases h''
        · rename_i a h''
          split at h''
          · cases h''; exact Or.inr rfl
          · cases h''
    · rename_i h'
      simp only [h']; exact Or.inr rfl

/-- The `while stack` loop (tree.py:273-285). -/
def framedTopoRun (heads : Bool) (s : TopoState V) (n : Nat) : Option (PyM (List (Tree V))) :=
  match _h : framedTopoStep heads s n with
  | none => none
  | some (.error e) => some (.error e)
  | some (.ok none) => some (.ok s.out)
  | some (.ok (some s')) => framedTopoRun heads s' n
termination_by topoMeasure s
decreasing_by
  apply topoStep_measure (heads := heads)
  rcases framedTopoStep_cases heads s n with h | h
  · rw [h] at _h; cases _h
  · rw [h] at _h
    exact Except.ok.inj (Option.some.inj _h)

/-- `topological_sort` (tree.py:201-285). -/
def framedSort (heads : Bool) (exclude : List (Tree V)) (e : Tree V) : Framed (List (Tree V)) := frame do
  if e ∈ exclude then fun n => framedTopoRun heads ⟨exclude, [], []⟩ n
  else do
    let children ← frame (ret (getChildren heads e))
    fun n => framedTopoRun heads ⟨exclude, [(e, children)], []⟩ n

/-- `topological_split` (tree.py:288-335). -/
def framedSplit (exclude : List (Tree V)) (e : Tree V) : Framed (Split V) := frame do
  let subexpressions ← framedSort false exclude e
  return subexpressions.foldl splitStep ⟨[], [], []⟩

/-- The loop of `forward_graph` (tree.py:389-394). -/
def framedForwardLoop (c : FrameUse) (index : Nat) (indices : Dict (Tree V) Nat)
    (operations : List (Tree V × List Nat)) :
    List (Tree V) → Framed (List (Tree V × List Nat))
  | [] => return operations
  | subexpr :: rest => do
    let head ← here (pyGet subexpr.children 0)
    let args := subexpr.children.drop 1
    let argIndices ← frames c.comp (here (args.mapM (fun e => indices.getItem e)))
    framedForwardLoop c (index + 1) (indices.set subexpr index) (operations ++ [(head, argIndices)]) rest

/-- `forward_graph` (tree.py:338-396); `ForwardGraph.__init__` is written by `dataclass`. -/
def framedGraph (c : FrameUse) (e : Tree V) : Framed (ForwardGraph V) := frame do
  let s ← framedSplit [] e
  let numAtoms := s.atoms.length
  let indices := Dict.ofPairs (s.atoms.zip (List.range numAtoms))
  let operations ← framedForwardLoop c numAtoms indices [] s.nodes
  frame (ret ⟨s.atoms, s.heads, operations⟩)

/-- The loop at tree.py:499-503. -/
def framedSubsOpsLoop (c : FrameUse) (index : Nat) (indices : Dict (Tree V) Nat)
    (operations : List (List Nat)) : List (Tree V) → Framed (List (List Nat))
  | [] => return operations
  | node :: rest => do
    let indices := indices.set node index
    let childIndices ← frames c.comp (here (node.children.mapM (fun c => indices.getItem c)))
    framedSubsOpsLoop c (index + 1) indices (operations ++ [childIndices]) rest

/-- `SubsFunc.__new__(expr, args)` (tree.py:458-510). -/
def framedSubsNew (c : FrameUse) (expr : Tree V) (args : List (Tree V)) : Framed (SubsFunc V) := frame do
  let subexpressions ← framedSort true args expr
  let s := subexpressions.foldl subsStep ⟨[], [], args, []⟩
  let atoms ← (if s.atoms ≠ [] ∧ s.nodes = [] then ret [expr]
    else frames c.comp (ret (s.atoms.filter (fun a => a ∈ s.nodeChildren))))
  let numArgs := args.length
  let numArgsAtoms := numArgs + atoms.length
  let indices := Dict.ofPairs (args.zip (List.range numArgs))
  let indices := indices.update (atoms.zip (List.range' numArgs atoms.length))
  let operations ← framedSubsOpsLoop c numArgsAtoms indices [] s.nodes
  return ⟨numArgs, atoms, operations⟩

omit [DecidableEq V] in
/-- The loop at tree.py:521-523. -/
def framedSubsCallLoop (c : FrameUse) (stack : List (Tree V)) : List (List Nat) → Framed (List (Tree V))
  | [] => return stack
  | indices :: rest => do
    let children ← frames c.comp (here (indices.mapM (fun i => pyGet stack i)))
    let t ← framedTree c children
    framedSubsCallLoop c (stack ++ [t]) rest

omit [DecidableEq V] in
/-- `SubsFunc.__call__` and `SubsFunc.call` (tree.py:509-525). -/
def framedSubsCall (c : FrameUse) (f : SubsFunc V) (args : List (Tree V)) : Framed (Tree V) :=
  frame <| frame do
    if args.length ≠ f.nargs then throw PyErr.typeError
    let stack ← framedSubsCallLoop c (args ++ f.atoms) f.operations
    here (pyLast stack)

section Eval
variable {T : Type}

/-- The value of one atom in `eval_forward` (evaluate.py:175-179). -/
def framedLeaf [HasNone T] (ev : Evaluator Framed V T) (values : Dict (Tree V) T) (atom : Tree V) :
    Framed T :=
  match values.get? atom with
  | some v => if HasNone.isNone v then frame (ev.evalAtom atom) else return v
  | none => frame (ev.evalAtom atom)

/-- The first loop of `eval_forward` (evaluate.py:174-180). -/
def framedAtomsLoop [HasNone T] (ev : Evaluator Framed V T) (values : Dict (Tree V) T) (stack : List T) :
    List (Tree V) → Framed (List T)
  | [] => return stack
  | atom :: rest => do
    let value ← framedLeaf ev values atom
    framedAtomsLoop ev values (stack ++ [value]) rest

/-- The second loop of `eval_forward` (evaluate.py:183-185). -/
def framedOpsLoop (c : FrameUse) (ev : Evaluator Framed V T) (stack : List T) :
    List (Tree V × List Nat) → Framed (List T)
  | [] => return stack
  | (head, indices) :: rest => do
    let argvals ← frames c.comp (here (indices.mapM (fun i => pyGet stack i)))
    let value ← frame (ev.evalOperation head argvals)
    framedOpsLoop c ev (stack ++ [value]) rest

/-- `eval_forward` (evaluate.py:167-189).  The rules are computations with frames of their own. -/
def framedEval [HasNone T] (c : FrameUse) (ev : Evaluator Framed V T) (expr : Tree V)
    (values : Dict (Tree V) T) : Framed T := frame do
  let graph ← framedGraph c expr
  let stack ← framedAtomsLoop ev values [] graph.atoms
  let stack ← framedOpsLoop c ev stack graph.operations
  here (pyLast stack)

/-- `Evaluator.__call__` and `evaluate` (evaluate.py:148-150, 191-195). -/
def framedEvaluate [HasNone T] (c : FrameUse) (ev : Evaluator Framed V T) (expr : Tree V)
    (values : Dict (Tree V) T) : Framed T :=
  frame (frame (framedEval c ev expr values))

mutual
/-- `eval_recursive` (evaluate.py:152-165). -/
def framedEvalRecursive (c : FrameUse) (ev : Evaluator Framed V T) (values : Dict (Tree V) T) :
    Tree V → Framed T
  | .atom a => frame <|
    match values.get? (.atom a) with
    | some v => ret v
    | none => frame (ev.evalAtom (.atom a))
  | .node [] => frame <|
    match values.get? (.node []) with
    | some v => ret v
    | none => frame (ev.evalAtom (.node []))
  | .node (head :: args) => frame <|
    match values.get? (.node (head :: args)) with
    | some v => ret v
    | none => do
      let argvals ← frames c.comp (framedEvalRecursiveList c ev values args)
      frame (ev.evalOperation head argvals)
/-- The list comprehension at evaluate.py:164. -/
def framedEvalRecursiveList (c : FrameUse) (ev : Evaluator Framed V T) (values : Dict (Tree V) T) :
    List (Tree V) → Framed (List T)
  | [] => return []
  | t :: ts => do
    let v ← framedEvalRecursive c ev values t
    let vs ← framedEvalRecursiveList c ev values ts
    return v :: vs
end

/-- `Transformer.__init__` (evaluate.py:255-260): two lambdas. -/
def framedTransformer (c : FrameUse) : Evaluator Framed V (Tree V) :=
  (Evaluator.new.addAtomGeneric (fun atom => frame (ret atom))).addOpGeneric
    (fun head args => frame (framedCall c head args))

end Eval

/-- The loop of `product_rule_forward` (differentiate.py:104-117). -/
def framedProductLoop (c : FrameUse) (args : List (Tree V)) (zero mul : Tree V) (n : Nat)
    (terms : List (Tree V)) : List (Tree V) → Framed (List (Tree V))
  | [] => return terms
  | diffArg :: rest => do
    if diffArg ≠ zero then
      let term ← framedCall c mul (args.take n ++ [diffArg] ++ args.drop (n + 1))
      framedProductLoop c args zero mul (n + 1) (terms ++ [term]) rest
    else framedProductLoop c args zero mul (n + 1) terms rest

/-- The loop of `chain_rule_forward` (differentiate.py:120-138). -/
def framedChainLoop (c : FrameUse) (func : Tree V) (args : List (Tree V)) (zero one mul : Tree V)
    (diffRules : Dict (Tree V × Nat) (SubsFunc V)) (n : Nat) (terms : List (Tree V)) :
    List (Tree V) → Framed (List (Tree V))
  | [] => return terms
  | diffArg :: rest => do
    if diffArg ≠ zero then
      let pdiff ← here (diffRules.getItem (func, n))
      let diffTerm ← framedSubsCall c pdiff args
      let diffTerm ← (if diffArg ≠ one then framedCall c mul [diffTerm, diffArg] else ret diffTerm)
      framedChainLoop c func args zero one mul diffRules (n + 1) (terms ++ [diffTerm]) rest
    else framedChainLoop c func args zero one mul diffRules (n + 1) terms rest

/-- The terms of the derivative of one operation (differentiate.py:73-86). -/
def framedDiffTerms (c : FrameUse) (p : DiffProps V) (func : Tree V) (args diffArgs : List (Tree V)) :
    Framed (List (Tree V)) :=
  if func ∈ p.distributive then do
    let t ← framedCall c func diffArgs
    ret [t]
  else if isZeroSet p.zero diffArgs then ret []
  else if func = p.add then frames c.comp (ret (diffArgs.filter (fun da => da ≠ p.zero)))
  else if func = p.mul then frame (framedProductLoop c args p.zero p.mul 0 [] diffArgs)
  else frame (framedChainLoop c func args p.zero p.one p.mul p.diffRules 0 [] diffArgs)

/-- The body of the loop of `diff_forward` (differentiate.py:73-93). -/
def framedDiffStep (c : FrameUse) (p : DiffProps V) (func : Tree V) (args diffArgs : List (Tree V)) :
    Framed (Tree V) := do
  let diffTerms ← framedDiffTerms c p func args diffArgs
  match diffTerms with
  | [] => return p.zero
  | [t] => return t
  | ts => framedCall c p.add ts

/-- The loop of `diff_forward` (differentiate.py:68-96). -/
def framedDiffLoop (c : FrameUse) (p : DiffProps V) (stack diffStack : List (Tree V)) :
    List (Tree V × List Nat) → Framed (List (Tree V))
  | [] => return diffStack
  | (func, indices) :: rest => do
    let args ← frames c.comp (here (indices.mapM (fun i => pyGet stack i)))
    let diffArgs ← frames c.comp (here (indices.mapM (fun i => pyGet diffStack i)))
    let expr ← framedCall c func args
    let derivative ← framedDiffStep c p func args diffArgs
    framedDiffLoop c p (stack ++ [expr]) (diffStack ++ [derivative]) rest

/-- `diff_forward(expression, sym, prop)` (differentiate.py:47-101). -/
def framedDiff (c : FrameUse) (expression sym : Tree V) (p : DiffProps V) : Framed (Tree V) := frame do
  let graph ← framedGraph c expression
  let diffStack ← frames c.comp
    (ret (graph.atoms.map (fun expr => if expr = sym then p.one else p.zero)))
  let diffStack ← framedDiffLoop c p graph.atoms diffStack graph.operations
  here (pyLast diffStack)

/-- `for _ in range(ntimes)`. -/
def framedIter {α : Type} (f : α → Framed α) : Nat → α → Framed α
  | 0, a => return a
  | n + 1, a => do
    let b ← f a
    framedIter f n b

end Core

/-! ### simplecas -/

/-- `SymDifferentiator.__call__` (sym.py:663-669). -/
def framedSymDiff (c : FrameUse) (p : DiffProps Val) (expr sym : Expr) (ntimes : Int) : Framed Expr :=
  frame do
    let d ← framedIter (fun d => framedDiff c d sym p) ntimes.toNat expr
    framedSym c d

/-- `Expr.diff(sym, ntimes)` (simplecas/expr.py:421-468). -/
def framedExprDiff (c : FrameUse) (p : DiffProps Val) (self sym : Expr) (ntimes : Int) : Framed Expr :=
  frame (framedIter (fun d => framedSymDiff c p d sym 1) ntimes.toNat self)

/-- `SymAtomType.__call__` (sym.py:56-59): `Integer(n)`, `Symbol(name)`, `Function(name)`. -/
def framedAtomExpr (c : FrameUse) (ty : AtomType) (v : Val) : Framed Expr := frame do
  let a ← framedAtom c ty v
  let t ← framedTr c a
  framedSym c t

/-- `expressify` (simplecas/expr.py:32-73). -/
def framedExpressify (c : FrameUse) (obj : PyObj) : Framed Expr := frame <|
  match obj with
  | .expr e => ret e
  | .int n => framedAtomExpr c Ty.integer (.int n)
  | .other _ => here (.error .expressify)

/-- A comprehension over `expressify`. -/
def framedExpressifyAll (c : FrameUse) : List PyObj → Framed (List Expr)
  | [] => return []
  | o :: os => do
    let e ← framedExpressify c o
    let es ← framedExpressifyAll c os
    return e :: es

/-- `Expr.__call__` (simplecas/expr.py:171-175). -/
def framedExprCall (c : FrameUse) (self : Expr) (args : List PyObj) : Framed Expr := frame do
  let args ← frames c.comp (framedExpressifyAll c args)
  outside c.comp
  let t ← framedCall c self args
  framedSym c t

/-- The bodies of the operator methods (simplecas/expr.py:209-257). -/
def framedMethod (c : FrameUse) : BinOp → Expr → Expr → Framed Expr
  | .add, a, b => frame (framedExprCall c Expr.addH [.expr a, .expr b])
  | .sub, a, b => frame do
    let m ← framedExprCall c Expr.mulH [.expr Expr.negone, .expr b]
    framedExprCall c Expr.addH [.expr a, .expr m]
  | .mul, a, b => frame (framedExprCall c Expr.mulH [.expr a, .expr b])
  | .truediv, a, b => frame do
    let m ← framedExprCall c Expr.powH [.expr b, .expr Expr.negone]
    framedExprCall c Expr.mulH [.expr a, .expr m]
  | .pow, a, b => frame (framedExprCall c Expr.powH [.expr a, .expr b])

/-- The operand of an operator (simplecas/expr.py:80-84); `none` if `ExpressifyError` was caught. -/
def framedOperand (c : FrameUse) : PyObj → Framed (Option Expr)
  | .expr e => ret (some e)
  | other =>
    tryCatch (do let e ← framedExpressify c other; return some e)
      (fun err => if err = .expressify then ret none else throw err)

/-- `expressify_method` (simplecas/expr.py:79-86) around an operator method; `none` is
`NotImplemented`. -/
def framedOther (c : FrameUse) (method : Expr → Framed Expr) (other : PyObj) :
    Framed (Option Expr) := frame do
  let other ← framedOperand c other
  match other with
  | none => return none
  | some e => do
    let r ← method e
    return some r

/-- `a <op> b` with at least one `Expr`, dispatched as in `pyBinOp`. -/
def framedBinOp (c : FrameUse) (op : BinOp) (a b : PyObj) : Framed Expr :=
  match a, b with
  | .expr a, b => do
    match ← framedOther c (fun e => framedMethod c op a e) b with
    | some r => return r
    | none => throw .typeError
  | a, .expr b => do
    match ← framedOther c (fun e => framedMethod c op e b) a with
    | some r => return r
    | none => throw .typeError
  | _, _ => throw .typeError

/-- `Expr.__neg__` (simplecas/expr.py:205-207). -/
def framedNeg (c : FrameUse) (a : Expr) : Framed Expr :=
  frame (framedExprCall c Expr.mulH [.expr Expr.negone, .expr a])

/-- `ExprFunction.__init__` (simplecas/expr.py:517-522). -/
def framedFunctionNew (c : FrameUse) (expr : PyObj) (params : List PyObj) : Framed (SubsFunc Val) :=
  frame do
    let exprRep ← framedExpressify c expr
    let paramsRep ← frames c.comp (framedExpressifyAll c params)
    framedSubsNew c exprRep paramsRep

/-- `ExprFunction.__call__` and `call` (simplecas/expr.py:524-531). -/
def framedFunctionCall (c : FrameUse) (func : SubsFunc Val) (args : List PyObj) : Framed Expr :=
  frame do
    let argsRep ← frames c.comp (framedExpressifyAll c args)
    let t ← frame (framedSubsCall c func argsRep)
    framedSym c t

/-- `Expr.as_function` (simplecas/expr.py:190-199). -/
def framedAsFunction (c : FrameUse) (self : Expr) (args : List PyObj) : Framed (SubsFunc Val) :=
  frame (framedFunctionNew c (.expr self) args)

/-- `Expr.xreplace` (simplecas/expr.py:177-188). -/
def framedXreplace (c : FrameUse) (self : Expr) (reps : Dict PyObj PyObj) : Framed Expr := frame do
  let func ← framedAsFunction c self reps.keys
  framedFunctionCall c func reps.vals

/-- `reduce(head, args)` (simplecas/expr.py:560-561); `reduce` is written in C. -/
def framedReduceLoop (c : FrameUse) (head acc : Expr) : List Expr → Framed Expr
  | [] => return acc
  | a :: rest => do
    let t ← framedCall c head [acc, a]
    framedReduceLoop c head t rest

/-- The lambdas at simplecas/expr.py:560-561. -/
def framedReduce (c : FrameUse) (head : Expr) : List Expr → Framed Expr
  | [] => frame (throw .typeError)
  | a :: rest => frame (framedReduceLoop c head a rest)

/-- The transformer `bin_expand` (simplecas/expr.py:559-561). -/
def framedBinExpander (c : FrameUse) : Evaluator Framed Val Expr :=
  ((framedTransformer c).addOpN Expr.addH (framedReduce c Expr.addH)).addOpN
    Expr.mulH (framedReduce c Expr.mulH)

/-- `bin_expand(tree)` (simplecas/expr.py:559, evaluate.py:191-195). -/
def framedBinExpandTree (c : FrameUse) (e : Expr) : Framed Expr :=
  framedEvaluate c (framedBinExpander c) e Dict.empty

/-- `Expr.bin_expand` (simplecas/expr.py:470-480). -/
def framedBinExpand (c : FrameUse) (e : Expr) : Framed Expr := frame do
  let t ← framedBinExpandTree c e
  framedSym c t

/-- `Expr.count_ops_graph` (simplecas/expr.py:363-419). -/
def framedCountOpsGraph (e : Expr) : Framed Nat := frame do
  let l ← framedSort false [] e
  return l.length

mutual
/-- `Tree.__str__` (tree.py:164-172) with `Atom.__str__` (atom.py:180-182), called by `str` or `format`. -/
def framedStr (c : FrameUse) : Tree Val → Framed String
  | .atom a => frames c.slot <| frame <| frames c.slot <| frame <| outside c.slot >>= fun _ =>
    ret (valStr a.value)
  | .node [] => frames c.slot <| frame (throw .attributeError)
  | .node (head :: args) => frames c.slot <| frame do
    let argstrs ← framedStrList c args
    let h ← framedStr c head
    return h ++ "(" ++ String.intercalate ", " argstrs ++ ")"
/-- `map(str, args)` -/
def framedStrList (c : FrameUse) : List (Tree Val) → Framed (List String)
  | [] => return []
  | t :: ts => do
    let s ← framedStr c t
    let ss ← framedStrList c ts
    return s :: ss
end

mutual
/-- `Tree.__repr__` (tree.py:156-162) with `Atom.__repr__` and `AtomType.__repr__` (atom.py:87-89,
176-178), called by `repr`. -/
def framedRepr (c : FrameUse) (printable : Char → Bool) : Tree Val → Framed String
  | .atom a => frames c.slot <| frame <| frames c.slot <| frame do
    frames c.slot (frame (ret ()))
    outside c.slot
    return "Tr(" ++ a.repr printable ++ ")"
  | .node [] => frames c.slot <| frame (throw .attributeError)
  | .node (t :: ts) => frames c.slot <| frame do
    let argstrs ← framedReprList c printable (t :: ts)
    return "Tree(" ++ String.intercalate ", " argstrs ++ ")"
/-- `map(repr, self.children)` -/
def framedReprList (c : FrameUse) (printable : Char → Bool) : List (Tree Val) → Framed (List String)
  | [] => return []
  | t :: ts => do
    let s ← framedRepr c printable t
    let ss ← framedReprList c printable ts
    return s :: ss
end

section Evaluators
variable {T : Type}

/-- A rule for a head that takes `k` frames. -/
def framedOp (k : Nat) : OpFunc PyM T → OpFunc Framed T
  | .star f => .star (fun vs => frames k (here (f vs)))
  | .seq f => .seq (fun vs => frames k (here (f vs)))

/-- An evaluator whose rules for types of atoms and for heads take at most `k` frames each and whose
fallback rules are given. -/
def framedRules {V : Type} (k : Nat) (ev : Evaluator PyM V T)
    (genericOperation : Tree V → List T → Framed T) (genericAtom : Tree V → Framed T) :
    Evaluator Framed V T where
  atoms := ⟨ev.atoms.items.map (fun p => (p.1, fun v => frames k (here (p.2 v))))⟩
  operations := ⟨ev.operations.items.map (fun p => (p.1, framedOp k p.2))⟩
  genericOperationFunc := genericOperation
  genericAtomFunc := genericAtom

/-- `_generic_operation_error` (evaluate.py:31-34): the message contains the `repr` of the head. -/
def framedOperationError (c : FrameUse) (printable : Char → Bool) (head : Expr) (_ : List T) :
    Framed T := frame do
  let _ ← framedRepr c printable head
  throw .noEvaluationRule

/-- `_generic_atom_error` (evaluate.py:37-40). -/
def framedAtomError (c : FrameUse) (printable : Char → Bool) (atom : Expr) : Framed T := frame do
  let _ ← framedRepr c printable atom
  throw .noEvaluationRule

/-- `values_rep` (sym.py:598-600). -/
def framedValues (c : FrameUse) : Option (Dict Expr T) → Framed (Dict Expr T)
  | none => ret Dict.empty
  | some values => frames c.comp (ret (Dict.ofPairs values.items))

/-- `SymEvaluator.__call__` (sym.py:596-601), called by a method of `Expr` (simplecas/expr.py:259-361). -/
def framedSymEval [HasNone T] (c : FrameUse) (ev : Evaluator Framed Val T) (expr : Expr)
    (values : Option (Dict Expr T)) : Framed T := frame <| frame do
  let valuesRep ← framedValues c values
  framedEvaluate c ev expr valuesRep

end Evaluators

/-- `Expr.eval_f64(values)` (simplecas/expr.py:330-354): the rules are functions written in C. -/
def framedEvalF64 {F : Type} [HasNone F] (c : FrameUse) (printable : Char → Bool) (A : FloatOps F)
    (e : Expr) (values : Option (Dict Expr F)) : Framed F :=
  framedSymEval c (framedRules 0 (evalF64 A) (framedOperationError c printable)
    (framedAtomError c printable)) e values

/-- `repr_call` (functions.py:61): a lambda that formats the head. -/
def framedReprCall (c : FrameUse) (head : Expr) (args : List String) : Framed String := frame do
  let h ← framedStr c head
  return h ++ "(" ++ String.intercalate ", " args ++ ")"

/-- `Expr.eval_repr` (simplecas/expr.py:259-261): the rules are lambdas; `AtomRule` calls `str`. -/
def framedEvalRepr (c : FrameUse) (e : Expr) : Framed String :=
  framedSymEval c (framedRules 1 evalRepr (framedReprCall c) (framedStr c)) e none

/-- `repr(e)` and `str(e)`: `Expr.__repr__` and `Expr.__str__` (simplecas/expr.py:155-161), called from C. -/
def framedExprRepr (c : FrameUse) (e : Expr) : Framed String :=
  frames c.slot (frame (framedEvalRepr c e))

/-- `Expr.eval_latex` (simplecas/expr.py:263-274). -/
def framedExprLatex (c : FrameUse) (printable : Char → Bool) (e : Expr) : Framed String :=
  framedSymEval c (framedRules 1 evalLatex (framedReprCall c) (framedAtomError c printable)) e none

/-- `Expr.count_ops_tree` (simplecas/expr.py:356-361, 569-574): two lambdas. -/
def framedCountOpsTree (c : FrameUse) (e : Expr) : Framed Nat :=
  framedSymEval c (framedRules 1 (evaluatorOf countOpsRules)
    (fun _ counts => frame (ret (1 + counts.sum))) (fun _ => frame (ret 1))) e none

/-! ### Code generation -/

/-- `argnames` (lambdification.py:41): a comprehension that formats the parameters. -/
def framedLlvmArgnames (c : FrameUse) : List Expr → Framed (List (Expr × String))
  | [] => return []
  | s :: rest => do
    let name ← framedStr c s
    let pairs ← framedLlvmArgnames c rest
    return (s, quoteName name) :: pairs

/-- The loop body over `graph.atoms` (lambdification.py:44-50): `_double_to_hex` is a function; the
message of the exception contains the `repr` of the atom. -/
def framedLlvmAtom (c : FrameUse) (printable : Char → Bool) (symargs : List Expr)
    (argnames : Dict Expr String) (a : Expr) : Framed String :=
  if a ∈ symargs then here (argnames.getItem a)
  else
    match a with
    | .atom at' =>
      if at'.atomType = Ty.integer then frame (here (doubleToHex at'.value))
      else do
        let _ ← framedRepr c printable a
        throw .llvmNotImplemented
    | .node _ => throw .attributeError

/-- The loop over `graph.atoms` (lambdification.py:43-50). -/
def framedLlvmAtoms (c : FrameUse) (printable : Char → Bool) (symargs : List Expr)
    (argnames : Dict Expr String) : List Expr → Framed (List String)
  | [] => return []
  | a :: rest => do
    let i ← framedLlvmAtom c printable symargs argnames a
    let is ← framedLlvmAtoms c printable symargs argnames rest
    return i :: is

/-- The instruction for one operation (lambdification.py:62-74). -/
def framedLlvmLine (c : FrameUse) (printable : Char → Bool) (identifier : String) (func : Expr)
    (argids : List String) : Framed Instr :=
  if func ∈ [Expr.addH, Expr.mulH, Expr.powH, Expr.sinH, Expr.cosH] then
    here (llvmLine identifier func argids)
  else do
    let _ ← framedRepr c printable func
    throw .llvmNotImplemented

/-- The loop over the operations (lambdification.py:55-76). -/
def framedLlvmOps (c : FrameUse) (printable : Char → Bool) (identifiers : List String)
    (instructions : List Instr) : List (Expr × List Nat) → Framed (List String × List Instr)
  | [] => return (identifiers, instructions)
  | (func, indices) :: rest => do
    let identifier := regName instructions.length
    let identifiers := identifiers ++ [identifier]
    let argids ← frames c.comp (here (indices.mapM (fun i => pyGet identifiers i)))
    let line ← framedLlvmLine c printable identifier func argids
    framedLlvmOps c printable identifiers (instructions ++ [line]) rest

/-- `_to_llvm_f64` (lambdification.py:35-82). -/
def framedLlvmCode (c : FrameUse) (printable : Char → Bool) (symargs : List Expr) (e : Expr) :
    Framed IRFunction := frame do
  let expression ← framedBinExpandTree c e
  let graph ← framedGraph c expression
  let pairs ← frames c.comp (framedLlvmArgnames c symargs)
  let argnames := Dict.ofPairs pairs
  let identifiers ← framedLlvmAtoms c printable symargs argnames graph.atoms
  let params ← frames 1 (here (symargs.mapM argnames.getItem))
  let (identifiers, instructions) ← framedLlvmOps c printable identifiers [] graph.operations
  let last ← here (pyLast identifiers)
  return ⟨false, params, instructions ++ [.ret last]⟩

/-- `Expr.to_llvm_ir(symargs)` (simplecas/expr.py:482-507). -/
def framedToLlvm (c : FrameUse) (printable : Char → Bool) (symargs : List Expr) (e : Expr) :
    Framed IRFunction := frame do
  outside c.comp
  framedLlvmCode c printable symargs e

/-! ### Recursion: conversion from SymPy -/

/-- The lookup and the update of the cache around a computation (sympy_conversions.py:90-92, 101-102).
Simplification: `hash` and `==` of SymPy objects take no frame. -/
def framedWithCache (cache : Dict SExpr Expr) (s : SExpr)
    (compute : Framed (Expr × Dict SExpr Expr)) : Framed (Expr × Dict SExpr Expr) :=
  match cache.get? s with
  | some ret => return (ret, cache)
  | none => do
    let (ret, cache) ← compute
    return (ret, cache.set s ret)

/-- The end of `_from_sympy_cache_args` (sympy_conversions.py:107-122). -/
def framedFromSympyBuild (c : FrameUse) (k : SKind) (args : List Expr) : Framed Expr :=
  match k with
  | .add => framedExprCall c Expr.addH (args.map .expr)
  | .mul => framedExprCall c Expr.mulH (args.map .expr)
  | .pow => framedExprCall c Expr.powH (args.map .expr)
  | .sin => framedExprCall c Expr.sinH (args.map .expr)
  | .cos => framedExprCall c Expr.cosH (args.map .expr)
  | .tuple => framedExprCall c Expr.listH (args.map .expr)
  | .undef name => do
    let f ← framedAtomExpr c Ty.function (.str name)
    framedExprCall c f (args.map .expr)
  | .other _ => throw .notImplementedError

mutual
/-- `_from_sympy_cache(expr, cache)` and `_from_sympy_cache_args` (sympy_conversions.py:89-122).
Simplification: the attributes of SymPy objects are read without taking a frame. -/
def framedFromSympyCache (c : FrameUse) : SExpr → Dict SExpr Expr → Framed (Expr × Dict SExpr Expr)
  | .int n, cache => frame (framedWithCache cache (.int n) (do
    let e ← framedAtomExpr c Ty.integer (.int n)
    return (e, cache)))
  | .sym name a, cache => frame (framedWithCache cache (.sym name a) (do
    let e ← framedAtomExpr c Ty.symbol (.str name)
    return (e, cache)))
  | .cls name, cache => frame (framedWithCache cache (.cls name) (frame (throw .typeError)))
  | .leaf id, cache => frame (framedWithCache cache (.leaf id) (throw .notImplementedError))
  | .app k as, cache => frame
    (framedWithCache cache (.app k as)
      (if as.isEmpty then throw .notImplementedError
      else frame do
        let (args, cache) ← frames c.comp (framedFromSympyCacheList c as cache)
        let ret ← framedFromSympyBuild c k args
        return (ret, cache)))
/-- The comprehension at sympy_conversions.py:106. -/
def framedFromSympyCacheList (c : FrameUse) : List SExpr → Dict SExpr Expr →
    Framed (List Expr × Dict SExpr Expr)
  | [], cache => return ([], cache)
  | s :: ss, cache => do
    let (e, cache) ← framedFromSympyCache c s cache
    let (es, cache) ← framedFromSympyCacheList c ss cache
    return (e :: es, cache)
end

/-- `Expr.from_sympy` and `from_sympy(expr)` (simplecas/expr.py:303-328, sympy_conversions.py:72-74). -/
def framedFromSympy (c : FrameUse) (s : SExpr) : Framed Expr := frame <| frame do
  let (e, _) ← framedFromSympyCache c s Dict.empty
  return e

end Verif
