import Verif.Spec.Tree
import Verif.Model.Diff

/-!
# Specification of symbolic differentiation

A structural (recursive) description: no graph, no stacks, no loops.
-/

namespace Verif.Spec
variable {V : Type} [DecidableEq V]

/-- The sum of the terms: nothing is `0`, one term is itself, more are added. -/
def sumOf (p : DiffProps V) : List (Tree V) → Tree V
  | [] => p.zero
  | [t] => t
  | ts => .node (p.add :: ts)

/-- The arguments with a non-zero derivative: (derivative, position). -/
def varying (p : DiffProps V) (ds : List (Tree V)) : List (Tree V × Nat) :=
  ds.zipIdx.filter (fun q => q.1 ≠ p.zero)

/-- One term of the chain rule: the partial derivative at the actual arguments, times the
inner derivative unless that is `1`. -/
def chainTerm (p : DiffProps V) (h : Tree V) (args : List (Tree V)) (q : Tree V × Nat) :
    PyM (Tree V) :=
  match p.diffRules.get? (h, q.2) with
  | none => .error .keyError
  | some rule =>
    match rule.call args with
    | .error err => .error err
    | .ok r => .ok (if q.1 = p.one then r else .node [p.mul, r, q.1])

mutual
/-- The derivative with respect to `x`. -/
def deriv (p : DiffProps V) (x : Tree V) : Tree V → PyM (Tree V)
  | .atom a => .ok (if Tree.atom a = x then p.one else p.zero)
  | .node [] => .ok (if Tree.node [] = x then p.one else p.zero)
  | .node (h :: args) => do
    let ds ← derivs p x args
    if h ∈ p.distributive then .ok (.node (h :: ds))
    else if h = p.add then .ok (sumOf p ((varying p ds).map Prod.fst))
    else if h = p.mul then
      .ok (sumOf p ((varying p ds).map (fun q => .node (p.mul :: args.set q.2 q.1))))
    else do
      let terms ← (varying p ds).mapM (chainTerm p h args)
      .ok (sumOf p terms)
/-- The derivatives of a list. -/
def derivs (p : DiffProps V) (x : Tree V) : List (Tree V) → PyM (List (Tree V))
  | [] => .ok []
  | t :: ts => do
    let d ← deriv p x t
    let ds ← derivs p x ts
    return d :: ds
end

end Verif.Spec
