import Verif.Model.Diff
import Verif.Model.Evaluate

/-!
# The algorithms with a step counter

The same functions as in `Model/Tree.lean`, `Model/Evaluate.lean` and `Model/Diff.lean`, written a
second time with a counter.  The price of the Python operations is this.

* One step pays for one turn of a loop, with the constant work in it: comparing two trees (identity),
  `in`, `add`, `[...]` and `[...] = ...` on a set or dictionary of trees (the hash of a tree is its
  identity), `append`, `pop` and indexing of a list.
* Copying, slicing, reversing, unpacking a sequence or making a set, list or dictionary of it costs
  one step for each element.
* `Tree(*children)` costs one step and one for each child (the lookup hashes the tuple of children).
* A rule called by an evaluator costs whatever the rule says.

`Props/Time.lean` proves that the results are those of the functions without the counter.
-/

namespace Verif

/-- A Python computation and the number of steps it took: until it returned, or until it raised. -/
structure Timed (α : Type) where
  result : PyM α
  steps : Nat

namespace Timed

/-- Take `n` steps. -/
def tick (n : Nat) : Timed Unit := ⟨.ok (), n⟩

/-- A computation that takes no step of its own (the steps are charged beside it). -/
def free {α : Type} (x : PyM α) : Timed α := ⟨x, 0⟩

/-- One computation after the other; an exception ends both. -/
def andThen {α β : Type} (x : Timed α) (f : α → Timed β) : Timed β :=
  match x.result with
  | .ok a => ⟨(f a).result, x.steps + (f a).steps⟩
  | .error e => ⟨.error e, x.steps⟩

/-- `do` notation for timed computations. -/
instance : Monad Timed where
  pure a := ⟨.ok a, 0⟩
  bind := andThen

/-- Raising takes no step of its own. -/
instance : MonadExceptOf PyErr Timed where
  throw e := ⟨.error e, 0⟩
  tryCatch x f :=
    match x.result with
    | .ok _ => x
    | .error e => ⟨(f e).result, x.steps + (f e).steps⟩

end Timed

open Timed
variable {V : Type} [DecidableEq V]

/-- `get_children` (tree.py:255-260): the slice, the list and its reversal, with its price. -/
def timedGetChildren (heads : Bool) (t : Tree V) : List (Tree V) × Nat :=
  (getChildren heads t, 1 + (getChildren heads t).length)

/-- One turn of the loops at tree.py:273-283, as `topoStep`, with its price. -/
def timedTopoStep (heads : Bool) (s : TopoState V) : Option (TopoState V × Nat) :=
  match s.stack with
  | [] => none
  | (top, children) :: rest =>
    match pyPop children with
    | some (child, children') =>
      if child ∈ s.seen then
        some ({ s with stack := (top, children') :: rest }, 1)
      else
        let (grandchildren, n) := timedGetChildren heads child
        some ({ s with seen := child :: s.seen,
                       stack := (child, grandchildren) :: (top, children') :: rest }, 1 + n)
    | none =>
      some ({ s with stack := rest, out := s.out ++ [top] }, 1)

theorem timedTopoStep_fst (heads : Bool) (s : TopoState V) :
    (timedTopoStep heads s).map Prod.fst = topoStep heads s := by
  unfold timedTopoStep topoStep
  split
  · rename_i h; simp [h]
  · rename_i top children rest h
    simp only [h]
    split
    · rename_i c cs h'
      simp only [h']
      split <;> rfl
    · rename_i h'
      simp only [h']; rfl

/-- The `while stack` loop (tree.py:273-285); the last test of the condition is a step. -/
def timedTopoRun (heads : Bool) (s : TopoState V) : List (Tree V) × Nat :=
  match _h : timedTopoStep heads s with
  | none => (s.out, 1)
  | some (s', n) =>
    let (out, steps) := timedTopoRun heads s'
    (out, n + steps)
termination_by topoMeasure s
decreasing_by
  apply topoStep_measure (heads := heads)
  rw [← timedTopoStep_fst, _h]; rfl

/-- `topological_sort` (tree.py:201-285); `set(exclude)` is paid for by `exclude.length`. -/
def timedSort (heads : Bool) (exclude : List (Tree V)) (e : Tree V) : Timed (List (Tree V)) := do
  tick exclude.length
  if e ∈ exclude then
    let (out, n) := timedTopoRun heads ⟨exclude, [], []⟩
    tick n
    return out
  else
    let (children, n) := timedGetChildren heads e
    tick n
    let (out, n) := timedTopoRun heads ⟨exclude, [(e, children)], []⟩
    tick n
    return out

/-- The loop of `topological_split` (tree.py:327-333). -/
def timedSplitLoop (s : Split V) : List (Tree V) → Timed (Split V)
  | [] => return s
  | t :: rest => do
    tick 1
    timedSplitLoop (splitStep s t) rest

/-- `topological_split` (tree.py:288-335). -/
def timedSplit (exclude : List (Tree V)) (e : Tree V) : Timed (Split V) := do
  let subexpressions ← timedSort false exclude e
  timedSplitLoop ⟨[], [], []⟩ subexpressions

/-- The loop of `forward_graph` (tree.py:389-394): the turn, the slice `children[1:]` and the
comprehension. -/
def timedForwardLoop (index : Nat) (indices : Dict (Tree V) Nat)
    (operations : List (Tree V × List Nat)) :
    List (Tree V) → Timed (List (Tree V × List Nat))
  | [] => return operations
  | subexpr :: rest => do
    tick 1
    let head ← free (pyGet subexpr.children 0)
    let args := subexpr.children.drop 1
    tick args.length
    tick args.length
    let argIndices ← free (args.mapM (fun e => indices.getItem e))
    timedForwardLoop (index + 1) (indices.set subexpr index) (operations ++ [(head, argIndices)]) rest

/-- `forward_graph` (tree.py:338-396). -/
def timedGraph (e : Tree V) : Timed (ForwardGraph V) := do
  let s ← timedSplit [] e
  let numAtoms := s.atoms.length
  tick numAtoms
  let indices := Dict.ofPairs (s.atoms.zip (List.range numAtoms))
  let operations ← timedForwardLoop numAtoms indices [] s.nodes
  return ⟨s.atoms, s.heads, operations⟩

/-- The classification loop of `SubsFunc.__new__` (tree.py:469-484): the turn, `set(children)`, the
intersection with `has_args`, and for a node the `update` of `node_children`. -/
def timedSubsLoop (s : SubsState V) : List (Tree V) → Timed (SubsState V)
  | [] => return s
  | t :: rest => do
    tick 1
    tick t.children.length
    tick t.children.length
    if t.children.any (fun c => c ∈ s.hasArgs) then
      tick t.children.length
    timedSubsLoop (subsStep s t) rest

/-- The loop at tree.py:499-503. -/
def timedSubsOpsLoop (index : Nat) (indices : Dict (Tree V) Nat)
    (operations : List (List Nat)) : List (Tree V) → Timed (List (List Nat))
  | [] => return operations
  | node :: rest => do
    tick 1
    let indices := indices.set node index
    tick node.children.length
    let childIndices ← free (node.children.mapM (fun c => indices.getItem c))
    timedSubsOpsLoop (index + 1) indices (operations ++ [childIndices]) rest

/-- `SubsFunc.__new__(expr, args)` (tree.py:458-510). -/
def timedSubsNew (expr : Tree V) (args : List (Tree V)) : Timed (SubsFunc V) := do
  tick args.length
  let subexpressions ← timedSort true args expr
  tick args.length
  let s ← timedSubsLoop ⟨[], [], args, []⟩ subexpressions
  tick s.atoms.length
  let atoms :=
    if s.atoms ≠ [] ∧ s.nodes = [] then [expr]
    else s.atoms.filter (fun a => a ∈ s.nodeChildren)
  let numArgs := args.length
  let numArgsAtoms := numArgs + atoms.length
  tick args.length
  let indices := Dict.ofPairs (args.zip (List.range numArgs))
  tick atoms.length
  tick atoms.length
  let indices := indices.update (atoms.zip (List.range' numArgs atoms.length))
  let operations ← timedSubsOpsLoop numArgsAtoms indices [] s.nodes
  return ⟨numArgs, atoms, operations⟩

omit [DecidableEq V] in
/-- The loop at tree.py:521-523: the turn, the comprehension and `Tree(*children)`. -/
def timedSubsCallLoop (stack : List (Tree V)) : List (List Nat) → Timed (List (Tree V))
  | [] => return stack
  | indices :: rest => do
    tick 1
    tick indices.length
    let children ← free (indices.mapM (fun i => pyGet stack i))
    tick (1 + children.length)
    timedSubsCallLoop (stack ++ [Tree.node children]) rest

omit [DecidableEq V] in
/-- `SubsFunc.call(args)` (tree.py:512-525). -/
def timedSubsCall (f : SubsFunc V) (args : List (Tree V)) : Timed (Tree V) := do
  tick 1
  if args.length ≠ f.nargs then throw PyErr.typeError
  tick (args.length + f.atoms.length)
  let stack ← timedSubsCallLoop (args ++ f.atoms) f.operations
  free (pyLast stack)

section Eval
variable {T : Type}

/-- The first loop of `eval_forward` (evaluate.py:174-180). -/
def timedAtomsLoop [HasNone T] (ev : Evaluator Timed V T) (values : Dict (Tree V) T) (stack : List T) :
    List (Tree V) → Timed (List T)
  | [] => return stack
  | atom :: rest => do
    tick 1
    let value ← ev.evalLeaf values atom
    timedAtomsLoop ev values (stack ++ [value]) rest

/-- The second loop of `eval_forward` (evaluate.py:183-185).  `op_func(*argvals)` unpacks the
values; a rule called with the list does not, which is counted as if it did. -/
def timedOpsLoop (ev : Evaluator Timed V T) (stack : List T) :
    List (Tree V × List Nat) → Timed (List T)
  | [] => return stack
  | (head, indices) :: rest => do
    tick 1
    tick indices.length
    let argvals ← free (indices.mapM (fun i => pyGet stack i))
    tick argvals.length
    let value ← ev.evalOperation head argvals
    timedOpsLoop ev (stack ++ [value]) rest

/-- `eval_forward` (evaluate.py:167-189), with rules that count their own steps. -/
def timedEval [HasNone T] (ev : Evaluator Timed V T) (expr : Tree V) (values : Dict (Tree V) T) : Timed T := do
  let graph ← timedGraph expr
  let stack ← timedAtomsLoop ev values [] graph.atoms
  let stack ← timedOpsLoop ev stack graph.operations
  free (pyLast stack)

mutual
/-- `eval_recursive` (evaluate.py:152-165): one step for each call and one for each argument. -/
def timedEvalRecursive (ev : Evaluator Timed V T) (values : Dict (Tree V) T) : Tree V → Timed T
  | .atom a => do
    tick 1
    match values.get? (.atom a) with
    | some v => return v
    | none => ev.evalAtom (.atom a)
  | .node [] => do
    tick 1
    match values.get? (.node []) with
    | some v => return v
    | none => ev.evalAtom (.node [])
  | .node (head :: args) => do
    tick 1
    match values.get? (.node (head :: args)) with
    | some v => return v
    | none => do
      tick args.length
      let argvals ← timedEvalRecursiveList ev values args
      tick argvals.length
      ev.evalOperation head argvals
/-- The list comprehension at evaluate.py:164. -/
def timedEvalRecursiveList (ev : Evaluator Timed V T) (values : Dict (Tree V) T) :
    List (Tree V) → Timed (List T)
  | [] => return []
  | c :: cs => do
    let v ← timedEvalRecursive ev values c
    let vs ← timedEvalRecursiveList ev values cs
    return v :: vs
end

end Eval

/-- `product_rule_forward` (differentiate.py:104-117): a turn for each argument, and for each term
the two slices, the unpacking and `Tree(mul, ...)`. -/
def timedProductLoop (args : List (Tree V)) (zero mul : Tree V) (n : Nat)
    (terms : List (Tree V)) : List (Tree V) → Timed (List (Tree V))
  | [] => return terms
  | diffArg :: rest => do
    tick 1
    if diffArg ≠ zero then
      let factors := args.take n ++ [diffArg] ++ args.drop (n + 1)
      tick factors.length
      tick (1 + (factors.length + 1))
      timedProductLoop args zero mul (n + 1) (terms ++ [mul.call factors]) rest
    else timedProductLoop args zero mul (n + 1) terms rest

/-- `chain_rule_forward` (differentiate.py:120-138): a turn for each argument; for each term the
unpacking and the call of the rule, and `Tree(mul, diff_term, diff_arg)`. -/
def timedChainLoop (func : Tree V) (args : List (Tree V)) (zero one mul : Tree V)
    (diffRules : Dict (Tree V × Nat) (SubsFunc V)) (n : Nat) (terms : List (Tree V)) :
    List (Tree V) → Timed (List (Tree V))
  | [] => return terms
  | diffArg :: rest => do
    tick 1
    if diffArg ≠ zero then
      let pdiff ← free (diffRules.getItem (func, n))
      tick args.length
      let diffTerm ← timedSubsCall pdiff args
      tick (1 + 3)
      let diffTerm := if diffArg ≠ one then mul.call [diffTerm, diffArg] else diffTerm
      timedChainLoop func args zero one mul diffRules (n + 1) (terms ++ [diffTerm]) rest
    else timedChainLoop func args zero one mul diffRules (n + 1) terms rest

/-- The terms of the derivative of one operation (differentiate.py:73-86): a call of the head for a
distributive one, otherwise `set(diff_args)` and the case that applies. -/
def timedDiffTerms (p : DiffProps V) (func : Tree V) (args diffArgs : List (Tree V)) :
    Timed (List (Tree V)) :=
  if func ∈ p.distributive then do
    tick (1 + (diffArgs.length + 1))
    return [func.call diffArgs]
  else do
    tick diffArgs.length
    if isZeroSet p.zero diffArgs then return []
    else if func = p.add then
      tick diffArgs.length
      return diffArgs.filter (fun da => da ≠ p.zero)
    else if func = p.mul then timedProductLoop args p.zero p.mul 0 [] diffArgs
    else timedChainLoop func args p.zero p.one p.mul p.diffRules 0 [] diffArgs

/-- The body of the loop of `diff_forward` (differentiate.py:73-93). -/
def timedDiffStep (p : DiffProps V) (func : Tree V) (args diffArgs : List (Tree V)) :
    Timed (Tree V) := do
  let diffTerms ← timedDiffTerms p func args diffArgs
  match diffTerms with
  | [] => return p.zero
  | [t] => return t
  | ts => do
    tick (1 + (ts.length + 1))
    return p.add.call ts

/-- The loop of `diff_forward` (differentiate.py:68-96). -/
def timedDiffLoop (p : DiffProps V) (stack diffStack : List (Tree V)) :
    List (Tree V × List Nat) → Timed (List (Tree V))
  | [] => return diffStack
  | (func, indices) :: rest => do
    tick 1
    tick indices.length
    let args ← free (indices.mapM (fun i => pyGet stack i))
    tick indices.length
    let diffArgs ← free (indices.mapM (fun i => pyGet diffStack i))
    tick (1 + (args.length + 1))
    let expr := func.call args
    let derivative ← timedDiffStep p func args diffArgs
    timedDiffLoop p (stack ++ [expr]) (diffStack ++ [derivative]) rest

/-- `diff_forward(expression, sym, prop)` (differentiate.py:47-101). -/
def timedDiff (expression sym : Tree V) (p : DiffProps V) : Timed (Tree V) := do
  let graph ← timedGraph expression
  tick graph.atoms.length
  tick graph.atoms.length
  let diffStack := graph.atoms.map (fun expr => if expr = sym then p.one else p.zero)
  let diffStack ← timedDiffLoop p graph.atoms diffStack graph.operations
  free (pyLast diffStack)

/-- `reduce(head, args)` (simplecas/expr.py:560-561): a turn and `Tree(head, a, b)` for each argument
but the first. -/
def timedReduceLoop (head acc : Expr) : List Expr → Timed Expr
  | [] => return acc
  | a :: rest => do
    tick 1
    tick (1 + 3)
    timedReduceLoop head (Tree.node [head, acc, a]) rest

/-- `reduce(head, args)` (simplecas/expr.py:560-561). -/
def timedReduce (head : Expr) : List Expr → Timed Expr
  | [] => throw .typeError
  | a :: rest => timedReduceLoop head a rest

/-- The transformer `bin_expand` (simplecas/expr.py:559-561, evaluate.py:198-260); the default rule
for a head is `Tree(head, *args)`. -/
def timedBinExpander : Evaluator Timed Val Expr :=
  (((Evaluator.new.addAtomGeneric (fun atom => pure atom)).addOpGeneric
    (fun head args => do
      tick (1 + (args.length + 1))
      return head.call args)).addOpN Expr.addH (timedReduce Expr.addH)).addOpN
        Expr.mulH (timedReduce Expr.mulH)

/-- `Expr.bin_expand` (simplecas/expr.py:470-480). -/
def timedBinExpand (e : Expr) : Timed Expr := timedEval timedBinExpander e Dict.empty

end Verif
