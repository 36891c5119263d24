import Verif.Spec.Tree

/-!
# The size of expressions as graphs
-/

namespace Verif.Spec
variable {V : Type} [DecidableEq V]

/-- The distinct subexpressions in argument position. -/
def distinct (e : Tree V) : List (Tree V) := keepFirst (postorder false (fun _ => false) e)

/-- The number of nodes of the graph. -/
def nodes (e : Tree V) : Nat := (distinct e).length

/-- The number of edges of the graph: the arguments of the distinct subexpressions. -/
def edges (e : Tree V) : Nat := ((distinct e).map fun t => (kids false t).length).sum

/-- No subexpression has more than `k` arguments. -/
def ArgsAtMost (k : Nat) (e : Tree V) : Prop := ∀ t, ArgSub e t → (kids false t).length ≤ k

/-- The number of distinct subexpressions of a right-hand side that are not pattern arguments. -/
def ownNodes (params : List (Tree V)) (rhs : Tree V) : Nat :=
  ((distinct rhs).filter (· ∉ params)).length

end Verif.Spec
