import Verif.Model.Diff

/-!
# Model of the mutable containers in src/protosym/core/tree.py, evaluate.py, differentiate.py

The same functions as in `Model/Tree.lean`, `Model/Evaluate.lean` and `Model/Diff.lean`, but Python's
lists, sets and dicts are objects in a heap, referenced by address, that can be shared and changed;
the functions of an evaluator may do what they like with the containers they can reach.
`Props/Containers.lean` proves that the functions on values describe these.

Tuples (`expr.children`, `*args`) and the short-lived results of comprehensions that are only read
once are values; everything that the code binds to a name is an object.
-/

namespace Verif.Mem
variable {V T : Type}

/-- A `SubsFunc` object: tree.py:413-456 with references to its two lists. -/
structure Subs where
  nargs : Nat
  atoms : Nat
  operations : Nat
deriving DecidableEq

/-- A `ForwardGraph` object: tree.py:399-410 with references to its list, set and list. -/
structure Graph where
  atoms : Nat
  heads : Nat
  operations : Nat
deriving DecidableEq

/-- What a Python list holds here: an expression, an `int`, a value (`_T`), a pair of an expression
and a list, or a list. -/
inductive Cell (V T : Type) where
  | tree (t : Tree V)
  | int (n : Nat)
  | val (v : T)
  | op (t : Tree V) (r : Nat)
  | ref (r : Nat)
deriving DecidableEq

/-- A mutable Python object: a list, a set of expressions (used through `add`, `update` and `in`
only), a dict `indices`, a dict of values, a dict of differentiation rules. -/
inductive Obj (V T : Type) where
  | list (cells : List (Cell V T))
  | set (ts : List (Tree V))
  | index (d : Dict (Tree V) Nat)
  | vals (d : Dict (Tree V) T)
  | rules (d : Dict (Tree V × Nat) Subs)
deriving DecidableEq

/-- The mutable objects, by address, and the addresses of those that code outside of the library
can reach. -/
structure Heap (V T : Type) where
  objs : List (Obj V T)
  user : List Nat
deriving DecidableEq

/-- A computation that reads and changes the heap and may raise.  What it did before raising stays
done. -/
def M (V T α : Type) := Heap V T → PyM α × Heap V T

namespace M
variable {α β : Type}
/-- Return. -/
protected def pure (a : α) : M V T α := fun h => (.ok a, h)
/-- Sequence. -/
protected def bind (x : M V T α) (f : α → M V T β) : M V T β := fun h =>
  match x h with
  | (.ok a, h') => f a h'
  | (.error e, h') => (.error e, h')
instance : Monad (M V T) where
  pure := M.pure
  bind := M.bind
/-- Computations that do not touch the heap. -/
def lift (x : PyM α) : M V T α := fun h => (x, h)
/-- A new object. -/
def alloc (o : Obj V T) : M V T Nat := fun h => (.ok h.objs.length, { h with objs := h.objs ++ [o] })
/-- Change an object. -/
def write (r : Nat) (o : Obj V T) : M V T Unit := fun h => (.ok (), { h with objs := h.objs.set r o })
/-- Code outside of the library gets hold of an object. -/
def give (r : Nat) : M V T Unit := fun h => (.ok (), { h with user := r :: h.user })
/-- The contents of a list. -/
def readList (r : Nat) : M V T (List (Cell V T)) := fun h =>
  match h.objs[r]? with
  | some (.list l) => (.ok l, h)
  | _ => (.error .typeError, h)
/-- The contents of a set. -/
def readSet (r : Nat) : M V T (List (Tree V)) := fun h =>
  match h.objs[r]? with
  | some (.set l) => (.ok l, h)
  | _ => (.error .typeError, h)
/-- The contents of a dict `indices`. -/
def readIndex (r : Nat) : M V T (Dict (Tree V) Nat) := fun h =>
  match h.objs[r]? with
  | some (.index d) => (.ok d, h)
  | _ => (.error .typeError, h)
/-- The contents of a dict of values. -/
def readVals (r : Nat) : M V T (Dict (Tree V) T) := fun h =>
  match h.objs[r]? with
  | some (.vals d) => (.ok d, h)
  | _ => (.error .typeError, h)
/-- The contents of a dict of rules. -/
def readRules (r : Nat) : M V T (Dict (Tree V × Nat) Subs) := fun h =>
  match h.objs[r]? with
  | some (.rules d) => (.ok d, h)
  | _ => (.error .typeError, h)
/-- `l.append(c)` -/
def append (r : Nat) (c : Cell V T) : M V T Unit := do
  let l ← readList r
  write r (.list (l ++ [c]))
/-- `l.pop()`, `none` if `l` is empty. -/
def pop (r : Nat) : M V T (Option (Cell V T)) := do
  let l ← readList r
  match pyPop l with
  | none => return none
  | some (c, l') => do
    write r (.list l')
    return some c
/-- `s.add(t)` -/
def addSet (r : Nat) (t : Tree V) : M V T Unit := do
  let l ← readSet r
  write r (.set (t :: l))
/-- `s.update(ts)` -/
def updateSet (r : Nat) (ts : List (Tree V)) : M V T Unit := do
  let l ← readSet r
  write r (.set (ts ++ l))
/-- The expression in a cell. -/
def asTree : Cell V T → M V T (Tree V)
  | .tree t => return t
  | _ => lift (.error .typeError)
/-- The number in a cell. -/
def asInt : Cell V T → M V T Nat
  | .int n => return n
  | _ => lift (.error .typeError)
/-- The value in a cell. -/
def asVal : Cell V T → M V T T
  | .val v => return v
  | _ => lift (.error .typeError)
/-- The expressions in a list. -/
def readTrees (r : Nat) : M V T (List (Tree V)) := do
  (← readList r).mapM asTree
/-- The numbers in a list. -/
def readInts (r : Nat) : M V T (List Nat) := do
  (← readList r).mapM asInt
/-- The values in a list. -/
def readValues (r : Nat) : M V T (List T) := do
  (← readList r).mapM asVal
/-- The expressions in a set or list, for `set(...)`. -/
def readIterable (r : Nat) : M V T (List (Tree V)) := fun h =>
  match h.objs[r]? with
  | some (.set l) => (.ok l, h)
  | _ => readTrees r h
/-- A new list of expressions. -/
def newTrees (l : List (Tree V)) : M V T Nat := alloc (.list (l.map .tree))
/-- `for k, c in enumerate(l): body(k, c)`.  The iterator looks at the list at every step.  The
first number counts down from the length of the list at the start; a list that has become longer
by then is reported (`user 0`; no theorem is about that case). -/
def forLoop (r : Nat) (body : Nat → Cell V T → M V T Unit) : Nat → Nat → M V T Unit
  | 0, k => do
    let l ← readList r
    if k < l.length then lift (.error (.user 0)) else return ()
  | n + 1, k => do
    let l ← readList r
    match l[k]? with
    | none => return ()
    | some c => do
      body k c
      forLoop r body n (k + 1)
/-- A `for` loop over a list. -/
def forList (r : Nat) (body : Nat → Cell V T → M V T Unit) : M V T Unit := do
  let l ← readList r
  forLoop r body l.length 0
end M
open M
variable [DecidableEq V]

/-- `get_children` in `topological_sort`: tree.py:255-260; a new list. -/
def getChildren (heads : Bool) (t : Tree V) : M V T Nat :=
  newTrees (Verif.getChildren heads t)

/-- The loops of `topological_sort`: tree.py:273-283.  As in `topoStep`, an iteration of the inner
loop that finds a seen child is followed by one of the outer loop on the same frame.  The last
argument bounds the number of iterations; `topologicalSort` passes enough (`C65_topological_sort`:
it never raises). -/
def sortLoop (heads : Bool) (seen expressions stack : Nat) : Nat → M V T Unit
  | 0 => lift (.error (.user 0))
  | n + 1 => do
    match (← readList stack).getLast? with
    | none => return ()
    | some (.op top children) => do
      match ← pop children with
      | some c => do
        let child ← asTree c
        if child ∈ (← readSet seen) then sortLoop heads seen expressions stack n
        else do
          addSet seen child
          let cs ← getChildren heads child
          append stack (.op child cs)
          sortLoop heads seen expressions stack n
      | none => do
        let _ ← pop stack
        append expressions (.tree top)
        sortLoop heads seen expressions stack n
    | some _ => lift (.error .typeError)

omit [DecidableEq V] in
/-- The set `seen`: tree.py:262-265; a new set. -/
def newSeen (exclude : Option Nat) : M V T Nat :=
  match exclude with
  | some r => do
    let ts ← readIterable r
    alloc (.set ts)
  | none => alloc (.set [])

/-- The stack at the start: tree.py:268-271. -/
def newStack (heads : Bool) (seen : Nat) (e : Tree V) : M V T Nat := do
  let stack ← alloc (.list [])
  if e ∉ (← readSet seen) then do
    let cs ← getChildren heads e
    alloc (.list [.op e cs])
  else return stack

/-- `topological_sort(expression, heads=heads, exclude=exclude)`: tree.py:201-285. -/
def topologicalSort (heads : Bool) (exclude : Option Nat) (e : Tree V) : M V T Nat := do
  let seen ← newSeen exclude
  let expressions ← alloc (.list [])
  let stack ← newStack heads seen e
  sortLoop heads seen expressions stack (2 * e.size)
  return expressions

/-- The loop body at tree.py:327-333. -/
def splitBody (atoms heads nodes : Nat) (_ : Nat) (c : Cell V T) : M V T Unit := do
  let subexpr ← asTree c
  match subexpr.children with
  | [] => append atoms (.tree subexpr)
  | h :: _ => do
    addSet heads h
    append nodes (.tree subexpr)

/-- `topological_split(expr, exclude=exclude)`: tree.py:288-335. -/
def topologicalSplit (exclude : Option Nat) (e : Tree V) : M V T (Nat × Nat × Nat) := do
  let subexpressions ← topologicalSort false exclude e
  let atoms ← alloc (.list [])
  let heads ← alloc (.set [])
  let nodes ← alloc (.list [])
  forList subexpressions (splitBody atoms heads nodes)
  return (atoms, heads, nodes)

/-- The loop body at tree.py:389-394. -/
def forwardBody (numAtoms indices operations : Nat) (k : Nat) (c : Cell V T) : M V T Unit := do
  let subexpr ← asTree c
  let head ← lift (pyGet subexpr.children 0)
  let args := subexpr.children.drop 1
  let d ← readIndex indices
  let is ← lift (args.mapM (fun e => d.getItem e))
  let argIndices ← alloc (.list (is.map .int))
  append operations (.op head argIndices)
  write indices (.index (d.set subexpr (numAtoms + k)))

/-- `forward_graph(expr)`: tree.py:338-396. -/
def forwardGraph (e : Tree V) : M V T Graph := do
  let (atoms, heads, nodes) ← topologicalSplit none e
  let numAtoms := (← readList atoms).length
  let operations ← alloc (.list [])
  let indices ← alloc (.index (Dict.ofPairs ((← readTrees atoms).zip (List.range numAtoms))))
  forList nodes (forwardBody numAtoms indices operations)
  return ⟨atoms, heads, operations⟩

namespace Subs

/-- The loop body at tree.py:469-484. -/
def classify (atoms nodes hasArgs nodeChildren : Nat) (_ : Nat) (c : Cell V T) : M V T Unit := do
  let subexpr ← asTree c
  let children := subexpr.children
  if children ≠ [] then do
    let childrenSet ← alloc (.set children)
    let cs ← readSet childrenSet
    let hs ← readSet hasArgs
    if cs.any (fun c => c ∈ hs) then do
      addSet hasArgs subexpr
      updateSet nodeChildren cs
      append nodes (.tree subexpr)
    else append atoms (.tree subexpr)
  else append atoms (.tree subexpr)

/-- The loop body at tree.py:499-503. -/
def opsBody (numArgsAtoms indices operations : Nat) (k : Nat) (c : Cell V T) : M V T Unit := do
  let node ← asTree c
  let d ← readIndex indices
  write indices (.index (d.set node (numArgsAtoms + k)))
  let d ← readIndex indices
  let is ← lift (node.children.mapM (fun c => d.getItem c))
  let childIndices ← alloc (.list (is.map .int))
  append operations (.ref childIndices)

/-- The pruned list of atoms: tree.py:486-491; a new list. -/
def prune (expr : Tree V) (atoms nodes nodeChildren : Nat) : M V T Nat := do
  let as ← readTrees atoms
  let ns ← readList nodes
  if as ≠ [] ∧ ns.length = 0 then newTrees [expr]
  else do
    let nc ← readSet nodeChildren
    newTrees (as.filter (fun a => a ∈ nc))

/-- `SubsFunc.__new__(expr, args)`: tree.py:458-510; `args` is a list. -/
def new (expr : Tree V) (args : Nat) : M V T Subs := do
  let exclude ← alloc (.set (← readTrees args))
  let subexpressions ← topologicalSort true (some exclude) expr
  let atoms ← alloc (.list [])
  let nodes ← alloc (.list [])
  let hasArgs ← alloc (.set (← readTrees args))
  let nodeChildren ← alloc (.set [])
  forList subexpressions (classify atoms nodes hasArgs nodeChildren)
  let atoms ← prune expr atoms nodes nodeChildren
  let ps ← readTrees args
  let as ← readTrees atoms
  let numArgs := ps.length
  let numArgsAtoms := numArgs + as.length
  let indices ← alloc (.index (Dict.ofPairs (ps.zip (List.range numArgs))))
  let d ← readIndex indices
  write indices (.index (d.update (as.zip (List.range' numArgs as.length))))
  let operations ← alloc (.list [])
  forList nodes (opsBody numArgsAtoms indices operations)
  return ⟨numArgs, atoms, operations⟩

/-- The loop body at tree.py:521-523. -/
def callBody (stack : Nat) (_ : Nat) (c : Cell V T) : M V T Unit :=
  match c with
  | .ref indices => do
    let is ← readInts indices
    let st ← readTrees stack
    let cs ← lift (is.mapM (fun i => pyGet st i))
    let children ← newTrees cs
    let cs ← readTrees children
    append stack (.tree (.node cs))
  | _ => lift (.error .typeError)

/-- `SubsFunc.call(args)`: tree.py:512-525; `args` is a tuple.  `list(args) + self.atoms` is a new
list. -/
def call (f : Subs) (args : List (Tree V)) : M V T (Tree V) := do
  if args.length ≠ f.nargs then lift (.error .typeError)
  else do
    let as ← readTrees f.atoms
    let stack ← newTrees (args ++ as)
    forList f.operations (callBody stack)
    lift (pyLast (← readTrees stack))

end Subs

/-- The pairs `(func, star_args)` of evaluate.py:87: `star f` is called as `f(*argvals)`, `seq f` with
the list `argvals` itself. -/
inductive OpFunc (V T : Type) where
  | star (f : List T → M V T T)
  | seq (f : Nat → M V T T)

/-- `Evaluator`: evaluate.py:43-96, with functions that may change the containers they can reach.  (Its
own two dicts are values: the functions do not add rules to the evaluator while it runs.) -/
structure Evaluator (V T : Type) where
  atoms : Dict AtomType (V → M V T T)
  operations : Dict (Tree V) (OpFunc V T)
  genericOperationFunc : Tree V → Nat → M V T T
  genericAtomFunc : Tree V → M V T T

namespace Evaluator

omit [DecidableEq V] in
/-- `eval_atom`: evaluate.py:124-130. -/
def evalAtom (ev : Evaluator V T) (atom : Tree V) : M V T T := do
  let atomValue ← lift atom.value
  match ev.atoms.get? atomValue.atomType with
  | none => ev.genericAtomFunc atom
  | some func => func atomValue.value

/-- `eval_operation`: evaluate.py:132-146.  A function that is passed the list `argvals` can reach it
from then on. -/
def evalOperation (ev : Evaluator V T) (head : Tree V) (argvals : Nat) : M V T T :=
  match ev.operations.get? head with
  | none => do
    give argvals
    ev.genericOperationFunc head argvals
  | some (.star f) => do
    let vs ← readValues argvals
    f vs
  | some (.seq f) => do
    give argvals
    f argvals

/-- The value of one atom in `eval_forward`: evaluate.py:175-179. -/
def evalLeaf [HasNone T] (ev : Evaluator V T) (values : Nat) (atom : Tree V) : M V T T := do
  let d ← readVals values
  match d.get? atom with
  | some v => if HasNone.isNone v then ev.evalAtom atom else return v
  | none => ev.evalAtom atom

/-- The body of the first loop of `eval_forward`: evaluate.py:174-180. -/
def atomsBody [HasNone T] (ev : Evaluator V T) (values stack : Nat) (_ : Nat) (c : Cell V T) :
    M V T Unit := do
  let atom ← asTree c
  let value ← ev.evalLeaf values atom
  append stack (.val value)

/-- The body of the second loop of `eval_forward`: evaluate.py:183-185. -/
def opsBody (ev : Evaluator V T) (stack : Nat) (_ : Nat) (c : Cell V T) : M V T Unit :=
  match c with
  | .op head indices => do
    let is ← readInts indices
    let st ← readValues stack
    let vs ← lift (is.mapM (fun i => pyGet st i))
    let argvals ← alloc (.list (vs.map .val))
    let v ← ev.evalOperation head argvals
    append stack (.val v)
  | _ => lift (.error .typeError)

/-- `eval_forward`: evaluate.py:167-189. -/
def evalForward [HasNone T] (ev : Evaluator V T) (expr : Tree V) (values : Nat) : M V T T := do
  let graph ← forwardGraph expr
  let stack ← alloc (.list [])
  forList graph.atoms (ev.atomsBody values stack)
  forList graph.operations (ev.opsBody stack)
  lift (pyLast (← readValues stack))

/-- `values_rep`: sym.py:598-600; a new dict. -/
def newValues (values : Option Nat) : M V T Nat :=
  match values with
  | none => alloc (.vals Dict.empty)
  | some r => do
    let d ← readVals r
    alloc (.vals (Dict.ofPairs d.items))

/-- `SymEvaluator.__call__`: sym.py:596-601. -/
def symCall [HasNone T] (ev : Evaluator V T) (expr : Tree V) (values : Option Nat) : M V T T := do
  let valuesRep ← newValues values
  ev.evalForward expr valuesRep

end Evaluator

/-- `DiffProperties`: differentiate.py:27-44 with references to its set and its dict. -/
structure Props (V : Type) where
  zero : Tree V
  one : Tree V
  add : Tree V
  mul : Tree V
  distributive : Nat
  diffRules : Nat

/-- The loop body of `product_rule_forward`: differentiate.py:112-116. -/
def productBody (args : Nat) (zero mul : Tree V) (terms : Nat) (n : Nat) (c : Cell V T) :
    M V T Unit := do
  let diffArg ← asTree c
  if diffArg ≠ zero then do
    let as ← readTrees args
    append terms (.tree (mul.call (as.take n ++ [diffArg] ++ as.drop (n + 1))))
  else return ()

/-- `product_rule_forward`: differentiate.py:104-117. -/
def productRule (args diffArgs : Nat) (zero mul : Tree V) : M V T Nat := do
  let terms ← alloc (.list [])
  forList diffArgs (productBody args zero mul terms)
  return terms

/-- The loop body of `chain_rule_forward`: differentiate.py:131-137. -/
def chainBody (func : Tree V) (args : Nat) (zero one mul : Tree V) (diffRules terms : Nat) (n : Nat)
    (c : Cell V T) : M V T Unit := do
  let diffArg ← asTree c
  if diffArg ≠ zero then do
    let d ← readRules diffRules
    let pdiff ← lift (d.getItem (func, n))
    let as ← readTrees args
    let diffTerm ← pdiff.call as
    let diffTerm := if diffArg ≠ one then mul.call [diffTerm, diffArg] else diffTerm
    append terms (.tree diffTerm)
  else return ()

/-- `chain_rule_forward`: differentiate.py:120-138. -/
def chainRule (func : Tree V) (args diffArgs : Nat) (zero one mul : Tree V) (diffRules : Nat) :
    M V T Nat := do
  let terms ← alloc (.list [])
  forList diffArgs (chainBody func args zero one mul diffRules terms)
  return terms

omit [DecidableEq V] in
/-- The derivative made of `diff_terms`: differentiate.py:88-93. -/
def sumTerms (p : Props V) : List (Tree V) → Tree V
  | [] => p.zero
  | [t] => t
  | ts => p.add.call ts

/-- The list `diff_terms`: differentiate.py:73-86. -/
def newTerms (p : Props V) (func : Tree V) (args diffArgs : Nat) : M V T Nat := do
  let das ← readTrees diffArgs
  if func ∈ (← readSet p.distributive) then newTrees [func.call das]
  else if isZeroSet p.zero das then newTrees []
  else if func = p.add then newTrees (das.filter (fun da => da ≠ p.zero))
  else if func = p.mul then productRule args diffArgs p.zero p.mul
  else chainRule func args diffArgs p.zero p.one p.mul p.diffRules

/-- The loop body of `diff_forward`: differentiate.py:68-96. -/
def diffBody (p : Props V) (stack diffStack : Nat) (_ : Nat) (c : Cell V T) : M V T Unit :=
  match c with
  | .op func indices => do
    let is ← readInts indices
    let st ← readTrees stack
    let args ← newTrees (← lift (is.mapM (fun i => pyGet st i)))
    let dst ← readTrees diffStack
    let diffArgs ← newTrees (← lift (is.mapM (fun i => pyGet dst i)))
    let expr := func.call (← readTrees args)
    let diffTerms ← newTerms p func args diffArgs
    let derivative := sumTerms p (← readTrees diffTerms)
    append stack (.tree expr)
    append diffStack (.tree derivative)
  | _ => lift (.error .typeError)

/-- `diff_forward(expression, sym, prop)`: differentiate.py:47-101. -/
def diffForward (expression sym : Tree V) (p : Props V) : M V T (Tree V) := do
  let graph ← forwardGraph expression
  let as ← readTrees graph.atoms
  let stack ← newTrees as
  let st ← readTrees stack
  let diffStack ← newTrees (st.map (fun expr => if expr = sym then p.one else p.zero))
  forList graph.operations (diffBody p stack diffStack)
  lift (pyLast (← readTrees diffStack))

namespace Props

/-- `DiffProperties(zero=..., one=..., add=..., mul=...)`: differentiate.py:27-36: a new set and a new
dict; `SymDifferentiator.__init__`: sym.py:621-634. -/
def new (add mul zero one : Tree V) : M V T (Props V) := do
  let distributive ← alloc (.set [])
  let diffRules ← alloc (.rules Dict.empty)
  return ⟨zero, one, add, mul, distributive, diffRules⟩

/-- `add_distributive`: differentiate.py:38-40; sym.py:636-641. -/
def addDistributive (p : Props V) (head : Tree V) : M V T Unit :=
  addSet p.distributive head

/-- `SymDifferentiator.__setitem__`: sym.py:643-661 with `add_diff_rule`: differentiate.py:42-44;
`list(args_lhs)` is a new list. -/
def setItem (p : Props V) (expr sym dexpr : Tree V) : M V T Unit := do
  let head ← lift (pyGet expr.children 0)
  let argsLhs := expr.children.drop 1
  if argsLhs.count sym ≠ 1 then lift (.error .typeError)
  else do
    let index := argsLhs.idxOf sym
    let args ← newTrees argsLhs
    let rhsfunc ← Subs.new dexpr args
    let d ← readRules p.diffRules
    write p.diffRules (.rules (d.set (head, index) rhsfunc))

/-- `range(ntimes)` iterations: sym.py:667-668. -/
def iterate (p : Props V) (sym : Tree V) : Nat → Tree V → M V T (Tree V)
  | 0, e => return e
  | n + 1, e => do
    let d ← diffForward e sym p
    iterate p sym n d

/-- `SymDifferentiator.__call__`: sym.py:663-669. -/
def call (p : Props V) (expr sym : Tree V) (ntimes : Int) : M V T (Tree V) :=
  iterate p sym ntimes.toNat expr

end Props

end Verif.Mem
