import Verif.Model.Py

/-!
# Model of src/protosym/core/tree.py (expression layer)

`Tree` objects are hash-consed, so that `==` (identity) is structural equality; that this
is justified is the subject of the store layer (`Model/Store.lean`, property C02), and that the
functions here do on objects what they do on values is property C67 (`Model/ClientTree.lean`).  Here
an expression is an inductive value with structural equality.
-/

namespace Verif

/-- src/protosym/core/atom.py:33-93.  Atom types are compared by identity (`uid`): two atom
types of the same name are different.  The `typ` attribute is never consulted by the code
and is not modelled. -/
structure AtomType where
  uid : Nat
  name : String
deriving DecidableEq, Repr

/-- src/protosym/core/atom.py:96-182 (expression layer): an atom is determined by its type
and its value (up to Python equality of values, see `Model/Store.lean`). -/
structure Atom (V : Type) where
  atomType : AtomType
  value : V
deriving DecidableEq, Repr

/-- src/protosym/core/tree.py:31-172.  `atom` models `Tree.atom(value)` (lines 134-150),
`node` models `Tree(*children)` (lines 118-132).  `node []` is the degenerate `Tree()`,
which Python accepts: it has no children and no `value` attribute. -/
inductive Tree (V : Type) where
  | atom (a : Atom V)
  | node (children : List (Tree V))

namespace Tree
variable {V : Type}

mutual
/-- Decidable equality of trees: Python's `==` on hash-consed trees. -/
def decEq [DecidableEq V] : (s t : Tree V) → Decidable (s = t)
  | .atom a, .atom b =>
    if h : a = b then isTrue (h ▸ rfl) else isFalse (fun e => h (by cases e; rfl))
  | .atom _, .node _ => isFalse (by intro h; cases h)
  | .node _, .atom _ => isFalse (by intro h; cases h)
  | .node cs, .node ds =>
    match decEqList cs ds with
    | isTrue h => isTrue (h ▸ rfl)
    | isFalse h => isFalse (fun e => h (by cases e; rfl))
/-- Equality of lists of trees. -/
def decEqList [DecidableEq V] : (s t : List (Tree V)) → Decidable (s = t)
  | [], [] => isTrue rfl
  | [], _ :: _ => isFalse (by intro h; cases h)
  | _ :: _, [] => isFalse (by intro h; cases h)
  | c :: cs, d :: ds =>
    match decEq c d with
    | isFalse h => isFalse (fun e => h (by cases e; rfl))
    | isTrue h =>
      match decEqList cs ds with
      | isTrue h' => isTrue (h ▸ h' ▸ rfl)
      | isFalse h' => isFalse (fun e => h' (by cases e; rfl))
end

instance [DecidableEq V] : DecidableEq (Tree V) := decEq

/-- `expr.children`: tree.py:112, 128, 146. -/
def children : Tree V → List (Tree V)
  | .atom _ => []
  | .node cs => cs

/-- `expr.value`: tree.py:145.  The slot is only set by `Tree.atom`, so reading it on any
other tree raises `AttributeError`. -/
def value : Tree V → PyM (Atom V)
  | .atom a => .ok a
  | .node _ => .error .attributeError

/-- `f(*args)`: tree.py:152-154, `Tree(self, *args)`. -/
def call (f : Tree V) (args : List (Tree V)) : Tree V := .node (f :: args)

mutual
/-- Number of nodes of the tree form (with multiplicity, heads included). Not protosym
code: used to prove termination. -/
def size : Tree V → Nat
  | .atom _ => 1
  | .node cs => 1 + sizeList cs
/-- Sum of sizes. -/
def sizeList : List (Tree V) → Nat
  | [] => 0
  | c :: cs => size c + sizeList cs
end

end Tree

variable {V : Type}

/-- `get_children` in `topological_sort`: tree.py:255-260. The reversed list of the
children to visit. -/
def getChildren (heads : Bool) (t : Tree V) : List (Tree V) :=
  (if heads then t.children else t.children.drop 1).reverse

/-- State of the `while stack` loop of `topological_sort`: tree.py:262-283.  The top of the
Python stack (`stack[-1]`) is the head of the list. `seen` is a Python set used only through
`add` and `in`. -/
structure TopoState (V : Type) where
  seen : List (Tree V)
  stack : List (Tree V × List (Tree V))
  out : List (Tree V)

/-- One iteration of the loops at tree.py:273-283: either one turn of the inner
`while children` loop (pop a child; if unseen mark it, push it and break) or its `else`
branch (pop the frame and append the expression).  `none` when the stack is empty.
Simplification: a turn of the inner loop that finds a seen child is followed by a turn of
the outer loop on the same frame, which is what the Python inner loop does in place. -/
def topoStep [DecidableEq V] (heads : Bool) (s : TopoState V) : Option (TopoState V) :=
  match s.stack with
  | [] => none
  | (top, children) :: rest =>
    match pyPop children with
    | some (child, children') =>
      if child ∈ s.seen then
        some { s with stack := (top, children') :: rest }
      else
        some { s with seen := child :: s.seen,
                      stack := (child, getChildren heads child) :: (top, children') :: rest }
    | none =>
      some { s with stack := rest, out := s.out ++ [top] }

/-- Termination measure of the loop (not protosym code). -/
def topoMeasure (s : TopoState V) : Nat :=
  (s.stack.map (fun f => 1 + 2 * Tree.sizeList f.2)).sum

theorem Tree.sizeList_append (a b : List (Tree V)) :
    Tree.sizeList (a ++ b) = Tree.sizeList a + Tree.sizeList b := by
  induction a with
  | nil => simp [Tree.sizeList]
  | cons c cs ih => simp [Tree.sizeList, ih]; omega

theorem Tree.sizeList_reverse (a : List (Tree V)) :
    Tree.sizeList a.reverse = Tree.sizeList a := by
  induction a with
  | nil => rfl
  | cons c cs ih => simp [Tree.sizeList, Tree.sizeList_append, ih]; omega

theorem Tree.sizeList_children (t : Tree V) : Tree.sizeList t.children + 1 = t.size := by
  cases t <;> simp [Tree.children, Tree.size, Tree.sizeList]; omega

theorem sizeList_getChildren (heads : Bool) (t : Tree V) :
    Tree.sizeList (getChildren heads t) + 1 ≤ t.size := by
  have h := Tree.sizeList_children t
  unfold getChildren
  rw [Tree.sizeList_reverse]
  split
  · omega
  · cases hc : t.children with
    | nil => simp [Tree.sizeList]; rw [hc] at h; simp [Tree.sizeList] at h; omega
    | cons c cs => rw [hc] at h; simp [Tree.sizeList] at h ⊢; omega

theorem pyPop_some {α : Type} {l : List α} {a : α} {r : List α} (h : pyPop l = some (a, r)) :
    l = r ++ [a] := by
  unfold pyPop at h
  cases hl : l.getLast? with
  | none => simp [hl] at h
  | some b =>
    simp only [hl, Option.some.injEq, Prod.mk.injEq] at h
    obtain ⟨rfl, rfl⟩ := h
    have hne : l ≠ [] := by intro h0; simp [h0] at hl
    rw [List.getLast?_eq_some_getLast hne] at hl
    simp only [Option.some.injEq] at hl
    rw [← hl, List.dropLast_concat_getLast]

theorem topoStep_measure [DecidableEq V] {heads : Bool} {s s' : TopoState V}
    (h : topoStep heads s = some s') : topoMeasure s' < topoMeasure s := by
  unfold topoStep at h
  split at h
  · cases h
  · rename_i top children rest hstack
    split at h
    · rename_i child children' hpop
      have hc := pyPop_some hpop
      split at h
      · cases h
        simp [topoMeasure, hstack, hc, Tree.sizeList_append, Tree.sizeList]
        cases child <;> simp [Tree.size] <;> omega
      · cases h
        have := sizeList_getChildren heads child
        simp [topoMeasure, hstack, hc, Tree.sizeList_append, Tree.sizeList]
        omega
    · cases h
      simp [topoMeasure, hstack]; omega

/-- The `while stack` loop: tree.py:273-285. -/
def topoRun [DecidableEq V] (heads : Bool) (s : TopoState V) : List (Tree V) :=
  match _h : topoStep heads s with
  | none => s.out
  | some s' => topoRun heads s'
termination_by topoMeasure s
decreasing_by exact topoStep_measure (by assumption)

/-- The initial state: tree.py:262-271. -/
def topoInit [DecidableEq V] (heads : Bool) (exclude : List (Tree V)) (e : Tree V) :
    TopoState V :=
  { seen := exclude,
    stack := if e ∈ exclude then [] else [(e, getChildren heads e)],
    out := [] }

/-- `topological_sort(expression, heads=heads, exclude=exclude)`: tree.py:201-285.
`exclude=None` is the empty set (lines 262-265). -/
def topologicalSort [DecidableEq V] (heads : Bool) (exclude : List (Tree V)) (e : Tree V) :
    List (Tree V) :=
  topoRun heads (topoInit heads exclude e)

/-- The result of `topological_split`. `heads` is a Python set: only membership matters. -/
structure Split (V : Type) where
  atoms : List (Tree V)
  heads : List (Tree V)
  nodes : List (Tree V)

/-- The loop body at tree.py:327-333. -/
def splitStep (s : Split V) (subexpr : Tree V) : Split V :=
  match subexpr.children with
  | [] => { s with atoms := s.atoms ++ [subexpr] }
  | h :: _ => { s with heads := h :: s.heads, nodes := s.nodes ++ [subexpr] }

/-- `topological_split(expr, exclude=exclude)`: tree.py:288-335. -/
def topologicalSplit [DecidableEq V] (exclude : List (Tree V)) (e : Tree V) : Split V :=
  (topologicalSort false exclude e).foldl splitStep ⟨[], [], []⟩

/-- `ForwardGraph`: tree.py:399-410. -/
structure ForwardGraph (V : Type) where
  atoms : List (Tree V)
  heads : List (Tree V)
  operations : List (Tree V × List Nat)
deriving DecidableEq

/-- The loop at tree.py:389-394: `index` is the enumeration counter; `subexpr.children[0]`
raises `IndexError` for a childless tree, `indices[e]` raises `KeyError`. -/
def forwardLoop [DecidableEq V] (index : Nat) (indices : Dict (Tree V) Nat)
    (operations : List (Tree V × List Nat)) :
    List (Tree V) → PyM (List (Tree V × List Nat))
  | [] => .ok operations
  | subexpr :: rest => do
    let head ← pyGet subexpr.children 0
    let args := subexpr.children.drop 1
    let argIndices ← args.mapM (fun e => indices.getItem e)
    forwardLoop (index + 1) (indices.set subexpr index) (operations ++ [(head, argIndices)]) rest

/-- `forward_graph(expr)`: tree.py:338-396. -/
def forwardGraph [DecidableEq V] (e : Tree V) : PyM (ForwardGraph V) := do
  let s := topologicalSplit [] e
  let numAtoms := s.atoms.length
  let indices := Dict.ofPairs (s.atoms.zip (List.range numAtoms))
  let operations ← forwardLoop numAtoms indices [] s.nodes
  return ⟨s.atoms, s.heads, operations⟩

/-- `SubsFunc`: tree.py:413-456. -/
structure SubsFunc (V : Type) where
  nargs : Nat
  atoms : List (Tree V)
  operations : List (List Nat)
deriving DecidableEq

/-- State of the classification loop of `SubsFunc.__new__`: tree.py:463-467. -/
structure SubsState (V : Type) where
  atoms : List (Tree V)
  nodes : List (Tree V)
  hasArgs : List (Tree V)
  nodeChildren : List (Tree V)

/-- The loop body at tree.py:469-484. `children_set & has_args` is non-empty iff some child
is in `has_args`. -/
def subsStep [DecidableEq V] (s : SubsState V) (subexpr : Tree V) : SubsState V :=
  let children := subexpr.children
  if children ≠ [] then
    if children.any (fun c => c ∈ s.hasArgs) then
      { s with hasArgs := subexpr :: s.hasArgs,
               nodeChildren := children ++ s.nodeChildren,
               nodes := s.nodes ++ [subexpr] }
    else
      { s with atoms := s.atoms ++ [subexpr] }
  else
    { s with atoms := s.atoms ++ [subexpr] }

/-- The loop at tree.py:499-503. -/
def subsOpsLoop [DecidableEq V] (index : Nat) (indices : Dict (Tree V) Nat)
    (operations : List (List Nat)) : List (Tree V) → PyM (List (List Nat))
  | [] => .ok operations
  | node :: rest => do
    let indices := indices.set node index
    let childIndices ← node.children.mapM (fun c => indices.getItem c)
    subsOpsLoop (index + 1) indices (operations ++ [childIndices]) rest

/-- `SubsFunc.__new__(expr, args)`: tree.py:458-510. -/
def SubsFunc.new [DecidableEq V] (expr : Tree V) (args : List (Tree V)) : PyM (SubsFunc V) := do
  let subexpressions := topologicalSort true args expr
  let s := subexpressions.foldl subsStep ⟨[], [], args, []⟩
  let atoms :=
    if s.atoms ≠ [] ∧ s.nodes = [] then [expr]
    else s.atoms.filter (fun a => a ∈ s.nodeChildren)
  let numArgs := args.length
  let numArgsAtoms := numArgs + atoms.length
  let indices := Dict.ofPairs (args.zip (List.range numArgs))
  let indices := indices.update (atoms.zip (List.range' numArgs atoms.length))
  let operations ← subsOpsLoop numArgsAtoms indices [] s.nodes
  return ⟨numArgs, atoms, operations⟩

/-- The loop at tree.py:521-523. -/
def subsCallLoop (stack : List (Tree V)) : List (List Nat) → PyM (List (Tree V))
  | [] => .ok stack
  | indices :: rest => do
    let children ← indices.mapM (fun i => pyGet stack i)
    subsCallLoop (stack ++ [Tree.node children]) rest

/-- `SubsFunc.call(args)`: tree.py:512-525.  `stack[-1]` raises `IndexError` when the stack
is empty. -/
def SubsFunc.call (f : SubsFunc V) (args : List (Tree V)) : PyM (Tree V) := do
  if args.length ≠ f.nargs then throw .typeError
  let stack ← subsCallLoop (args ++ f.atoms) f.operations
  pyLast stack

end Verif
