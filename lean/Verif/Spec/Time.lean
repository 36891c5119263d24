import Verif.Model.Time
import Verif.Spec.Size
import Verif.Spec.DiffTable

/-!
# What the running times are measured by
-/

namespace Verif.Spec
variable {V T : Type}

/-- The distinct subexpressions (heads included) that can be reached without entering one of
`params`. -/
def outside [DecidableEq V] (params : List (Tree V)) (e : Tree V) : List (Tree V) :=
  keepFirst (postorder true (fun t => t ∈ params) e)

/-- Their number, plus the number of their children. -/
def outsideSize [DecidableEq V] (params : List (Tree V)) (e : Tree V) : Nat :=
  (outside params e).length + ((outside params e).map fun t => (kids true t).length).sum

/-- The evaluator whose rules do not count their steps. -/
def untimed (ev : Evaluator Timed V T) : Evaluator PyM V T where
  atoms := ⟨ev.atoms.items.map fun q => (q.1, fun v => (q.2 v).result)⟩
  operations := ⟨ev.operations.items.map fun q => (q.1, match q.2 with
    | .star f => .star fun vs => (f vs).result
    | .seq f => .seq fun vs => (f vs).result)⟩
  genericOperationFunc := fun h vs => (ev.genericOperationFunc h vs).result
  genericAtomFunc := fun t => (ev.genericAtomFunc t).result

/-- The rules of the evaluator take at most `k` steps for an atom and `k` for each argument of an
operation, and for the operation itself. -/
structure RulesWithin [DecidableEq V] (k : Nat) (ev : Evaluator Timed V T) : Prop where
  atom : ∀ t, (ev.evalAtom t).steps ≤ k
  operation : ∀ h vs, (ev.evalOperation h vs).steps ≤ k * (1 + vs.length)

/-- The number of distinct atoms in argument position. -/
def leafCount [DecidableEq V] (e : Tree V) : Nat := ((distinct e).filter (·.children.isEmpty)).length

/-- No subexpression has more than `k` arguments, except for sums and heads that are declared
distributive. -/
def FactorsAtMost (T : DiffTable) (k : Nat) (e : Expr) : Prop :=
  ∀ h args, ArgSub e (.node (h :: args)) → T.Distributive h ∨ h = T.add ∨ args.length ≤ k

/-- `h(h(...), h(...))`, nested `n` times: a tree with `2 ^ n` leaves, a graph with `n + 1` nodes. -/
def doubled (h x : Tree V) : Nat → Tree V
  | 0 => x
  | n + 1 => .node [h, doubled h x n, doubled h x n]

end Verif.Spec
