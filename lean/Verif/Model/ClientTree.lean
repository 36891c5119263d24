import Verif.Model.Client

/-!
# core/tree.py and core/differentiate.py as programs on objects

The functions of `Model/Tree.lean` and `Model/Diff.lean` written as programs of `Model/Client.lean`:
where those compare structures these compare objects, and where those build values these call the
constructors.  Handles stand for `Tree` objects.
-/

namespace Verif.Store.Prog
variable {V K : Type}

/-- `x == y`. -/
def eq (h h' : Nat) : Prog V K Bool := .same h h' .ret

/-- `x in s` for a set (or list) of objects: some element is the same object. -/
def mem (h : Nat) : List Nat → Prog V K Bool
  | [] => .ret false
  | h' :: hs => .same h h' (fun b => if b then .ret true else mem h hs)

/-- `Tree(*children)`: tree.py:118-132. -/
def tree (cs : List Nat) : Prog V K Nat := .make (.tree cs) .ret

/-- `f(*args)`: tree.py:152-154. -/
def call (f : Nat) (args : List Nat) : Prog V K Nat := tree (f :: args)

/-- `expr.children` (tree.py:112, 128, 146): an attribute of `Tree`s only. -/
def children (h : Nat) : Prog V K (List Nat) :=
  .look h (fun o =>
    match o with
    | .tree cs => .ret cs
    | .treeAtom _ => .ret []
    | _ => .raise .attributeError)

/-- A list comprehension or a loop that collects results. -/
def each {α β : Type} (f : α → Prog V K β) : List α → Prog V K (List β)
  | [] => .ret []
  | a :: as => do
    let b ← f a
    let bs ← each f as
    return b :: bs

/-- `[a for a in as if f(a)]`. -/
def keep {α : Type} (f : α → Prog V K Bool) : List α → Prog V K (List α)
  | [] => .ret []
  | a :: as => do
    let b ← f a
    let r ← keep f as
    return if b then a :: r else r

/-- Is `f(a)` true for some `a`? -/
def anyOf {α : Type} (f : α → Prog V K Bool) : List α → Prog V K Bool
  | [] => .ret false
  | a :: as => do
    let b ← f a
    let r ← anyOf f as
    return b || r

/-- A dictionary whose keys are objects: the pairs, newest first (an assignment to a key that is
there hides the old pair).  `d.get(x)`. -/
def lookup {β : Type} (h : Nat) : List (Nat × β) → Prog V K (Option β)
  | [] => .ret none
  | (h', b) :: d => .same h' h (fun s => if s then .ret (some b) else lookup h d)

/-- `d[x]`: `KeyError` when absent. -/
def getItem {β : Type} (d : List (Nat × β)) (h : Nat) : Prog V K β := do
  match ← lookup h d with
  | some b => .ret b
  | none => .raise .keyError

/-! ### `topological_sort`, `topological_split`, `forward_graph` -/

/-- `get_children`: tree.py:255-260. -/
def getChildren (heads : Bool) (h : Nat) : Prog V K (List Nat) := do
  let cs ← children h
  return (if heads then cs else cs.drop 1).reverse

/-- The variables of the loop of `topological_sort`: tree.py:262-283. -/
structure SortState where
  seen : List Nat
  stack : List (Nat × List Nat)
  out : List Nat

/-- One turn of the loops at tree.py:273-283, as `topoStep`. -/
def sortBody (heads : Bool) (s : SortState) : Prog V K (SortState ⊕ List Nat) :=
  match s.stack with
  | [] => .ret (.inr s.out)
  | (top, children) :: rest =>
    match pyPop children with
    | some (child, children') => do
      if ← mem child s.seen then
        return .inl { s with stack := (top, children') :: rest }
      else
        let grandchildren ← getChildren heads child
        return .inl { s with seen := child :: s.seen,
                             stack := (child, grandchildren) :: (top, children') :: rest }
    | none => .ret (.inl { s with stack := rest, out := s.out ++ [top] })

/-- `topological_sort(expression, heads=heads, exclude=exclude)`: tree.py:201-285. -/
def sort (heads : Bool) (exclude : List Nat) (e : Nat) : Prog V K (List Nat) := do
  let excluded ← mem e exclude
  if excluded then
    .loop (sortBody heads) ⟨exclude, [], []⟩ .ret
  else
    let cs ← getChildren heads e
    .loop (sortBody heads) ⟨exclude, [(e, cs)], []⟩ .ret

/-- The result of `topological_split`. -/
structure SplitH where
  atoms : List Nat
  heads : List Nat
  nodes : List Nat

/-- The loop at tree.py:327-333. -/
def splitLoop (s : SplitH) : List Nat → Prog V K SplitH
  | [] => .ret s
  | subexpr :: rest => do
    match ← children subexpr with
    | [] => splitLoop { s with atoms := s.atoms ++ [subexpr] } rest
    | h :: _ => splitLoop { s with heads := h :: s.heads, nodes := s.nodes ++ [subexpr] } rest

/-- `topological_split(expr, exclude=exclude)`: tree.py:288-335. -/
def split (exclude : List Nat) (e : Nat) : Prog V K SplitH := do
  let subexpressions ← sort false exclude e
  splitLoop ⟨[], [], []⟩ subexpressions

/-- `ForwardGraph`: tree.py:399-410. -/
structure GraphH where
  atoms : List Nat
  heads : List Nat
  operations : List (Nat × List Nat)

/-- `dict(zip(keys, range(start, ...)))` in front of the dictionary `d` (`d.update(...)`). -/
def indexed (keys : List Nat) (start : Nat) (d : List (Nat × Nat)) : List (Nat × Nat) :=
  (keys.zip (List.range' start keys.length)).reverse ++ d

/-- The loop at tree.py:389-394. -/
def forwardLoop (index : Nat) (indices : List (Nat × Nat)) (operations : List (Nat × List Nat)) :
    List Nat → Prog V K (List (Nat × List Nat))
  | [] => .ret operations
  | subexpr :: rest => do
    let cs ← children subexpr
    let head ← ofPy (pyGet cs 0)
    let argIndices ← each (getItem indices) (cs.drop 1)
    forwardLoop (index + 1) ((subexpr, index) :: indices) (operations ++ [(head, argIndices)]) rest

/-- `forward_graph(expr)`: tree.py:338-396. -/
def graph (e : Nat) : Prog V K GraphH := do
  let s ← split [] e
  let operations ← forwardLoop s.atoms.length (indexed s.atoms 0 []) [] s.nodes
  return ⟨s.atoms, s.heads, operations⟩

/-! ### `SubsFunc` -/

/-- `SubsFunc`: tree.py:413-456. -/
structure SubsH where
  nargs : Nat
  atoms : List Nat
  operations : List (List Nat)

/-- The variables of the loop at tree.py:463-484. -/
structure SubsStateH where
  atoms : List Nat
  nodes : List Nat
  hasArgs : List Nat
  nodeChildren : List Nat

/-- The loop at tree.py:469-484. -/
def subsLoop (s : SubsStateH) : List Nat → Prog V K SubsStateH
  | [] => .ret s
  | subexpr :: rest => do
    let cs ← children subexpr
    if cs = [] then
      subsLoop { s with atoms := s.atoms ++ [subexpr] } rest
    else
      if ← anyOf (fun c => mem c s.hasArgs) cs then
        subsLoop { s with hasArgs := subexpr :: s.hasArgs,
                          nodeChildren := cs ++ s.nodeChildren,
                          nodes := s.nodes ++ [subexpr] } rest
      else
        subsLoop { s with atoms := s.atoms ++ [subexpr] } rest

/-- The loop at tree.py:499-503. -/
def subsOpsLoop (index : Nat) (indices : List (Nat × Nat)) (operations : List (List Nat)) :
    List Nat → Prog V K (List (List Nat))
  | [] => .ret operations
  | node :: rest => do
    let cs ← children node
    let childIndices ← each (getItem ((node, index) :: indices)) cs
    subsOpsLoop (index + 1) ((node, index) :: indices) (operations ++ [childIndices]) rest

/-- The atoms that are kept: tree.py:486-491. -/
def subsAtoms (expr : Nat) (s : SubsStateH) : Prog V K (List Nat) :=
  if s.atoms ≠ [] ∧ s.nodes = [] then .ret [expr]
  else keep (fun a => mem a s.nodeChildren) s.atoms

/-- `SubsFunc.__new__(expr, args)`: tree.py:458-510. -/
def subsNew (expr : Nat) (args : List Nat) : Prog V K SubsH := do
  let subexpressions ← sort true args expr
  let s ← subsLoop ⟨[], [], args, []⟩ subexpressions
  let atoms ← subsAtoms expr s
  let indices := indexed atoms args.length (indexed args 0 [])
  let operations ← subsOpsLoop (args.length + atoms.length) indices [] s.nodes
  return ⟨args.length, atoms, operations⟩

/-- The loop at tree.py:521-523. -/
def subsCallLoop (stack : List Nat) : List (List Nat) → Prog V K (List Nat)
  | [] => .ret stack
  | indices :: rest => do
    let cs ← each (fun i => ofPy (pyGet stack i)) indices
    let t ← tree cs
    subsCallLoop (stack ++ [t]) rest

/-- `SubsFunc.call(args)`: tree.py:512-525. -/
def subsCall (f : SubsH) (args : List Nat) : Prog V K Nat :=
  if args.length ≠ f.nargs then .raise .typeError
  else do
    let stack ← subsCallLoop (args ++ f.atoms) f.operations
    ofPy (pyLast stack)

/-- `SubsFunc(expr, params)(*args)`: tree.py:458-542. -/
def subs (expr : Nat) (params args : List Nat) : Prog V K Nat := do
  let f ← subsNew expr params
  subsCall f args

/-! ### `diff_forward` -/

/-- `DiffProperties`: differentiate.py:27-44.  The keys of `diffRules` are pairs of a head and an
argument number. -/
structure DiffH where
  zero : Nat
  one : Nat
  add : Nat
  mul : Nat
  distributive : List Nat
  diffRules : List (Nat × Nat × SubsH)

/-- `diff_rules[(func, n)]` (differentiate.py:131): the pairs of an object and a number are compared
component by component. -/
def getRule (func n : Nat) : List (Nat × Nat × SubsH) → Prog V K SubsH
  | [] => .raise .keyError
  | (h, m, f) :: d => .same h func (fun s => if s && m == n then .ret f else getRule func n d)

/-- The loop of `product_rule_forward`: differentiate.py:104-117. -/
def productLoop (args : List Nat) (z mul : Nat) (n : Nat) (terms : List Nat) :
    List Nat → Prog V K (List Nat)
  | [] => .ret terms
  | diffArg :: rest => do
    if ← eq diffArg z then productLoop args z mul (n + 1) terms rest
    else
      let term ← call mul (args.take n ++ [diffArg] ++ args.drop (n + 1))
      productLoop args z mul (n + 1) (terms ++ [term]) rest

/-- The loop of `chain_rule_forward`: differentiate.py:120-138. -/
def chainLoop (p : DiffH) (func : Nat) (args : List Nat) (n : Nat) (terms : List Nat) :
    List Nat → Prog V K (List Nat)
  | [] => .ret terms
  | diffArg :: rest => do
    if ← eq diffArg p.zero then chainLoop p func args (n + 1) terms rest
    else
      let pdiff ← getRule func n p.diffRules
      let diffTerm ← subsCall pdiff args
      if ← eq diffArg p.one then chainLoop p func args (n + 1) (terms ++ [diffTerm]) rest
      else
        let diffTerm ← call p.mul [diffTerm, diffArg]
        chainLoop p func args (n + 1) (terms ++ [diffTerm]) rest

/-- `set(diff_args) == {zero}`: differentiate.py:75. -/
def isZeroSet (z : Nat) (diffArgs : List Nat) : Prog V K Bool := do
  let other ← anyOf (fun d => do return !(← eq d z)) diffArgs
  return !diffArgs.isEmpty && !other

/-- The terms of the derivative: differentiate.py:73-86. -/
def diffTerms (p : DiffH) (func : Nat) (args diffArgs : List Nat) : Prog V K (List Nat) := do
  if ← mem func p.distributive then
    let d ← call func diffArgs
    return [d]
  else if ← isZeroSet p.zero diffArgs then return []
  else if ← eq func p.add then keep (fun da => do return !(← eq da p.zero)) diffArgs
  else if ← eq func p.mul then productLoop args p.zero p.mul 0 [] diffArgs
  else chainLoop p func args 0 [] diffArgs

/-- The body of the loop: differentiate.py:73-93. -/
def diffStep (p : DiffH) (func : Nat) (args diffArgs : List Nat) : Prog V K Nat := do
  match ← diffTerms p func args diffArgs with
  | [] => return p.zero
  | [t] => return t
  | ts => call p.add ts

/-- The loop of `diff_forward`: differentiate.py:68-96. -/
def diffLoop (p : DiffH) (stack diffStack : List Nat) :
    List (Nat × List Nat) → Prog V K (List Nat)
  | [] => .ret diffStack
  | (func, indices) :: rest => do
    let args ← each (fun i => ofPy (pyGet stack i)) indices
    let diffArgs ← each (fun i => ofPy (pyGet diffStack i)) indices
    let expr ← call func args
    let derivative ← diffStep p func args diffArgs
    diffLoop p (stack ++ [expr]) (diffStack ++ [derivative]) rest

/-- `[one if expr == sym else zero for expr in stack]`: differentiate.py:66. -/
def seeds (p : DiffH) (sym : Nat) : List Nat → Prog V K (List Nat) :=
  each (fun expr => do return if ← eq expr sym then p.one else p.zero)

/-- `diff_forward(expression, sym, prop)`: differentiate.py:47-101. -/
def diff (p : DiffH) (expression sym : Nat) : Prog V K Nat := do
  let g ← graph expression
  let diffStack ← seeds p sym g.atoms
  let diffStack ← diffLoop p g.atoms diffStack g.operations
  ofPy (pyLast diffStack)

/-- `deriv = diff(deriv, sym)` as often as asked: sym.py:663-669, simplecas/expr.py:463-467. -/
def diffTimes (p : DiffH) (sym : Nat) : Nat → Nat → Prog V K Nat
  | 0, e => .ret e
  | n + 1, e => do
    let d ← diff p e sym
    diffTimes p sym n d

end Verif.Store.Prog
