import Verif.Spec.Eval

/-!
# Specification of bottom-up rewriting
-/

namespace Verif.Spec
variable {V : Type}

mutual
/-- Replace atoms in argument position; heads stay as they are. -/
def substArgs (σ : Tree V → Option (Tree V)) : Tree V → Tree V
  | .atom a => (σ (.atom a)).getD (.atom a)
  | .node [] => .node []
  | .node (h :: args) => .node (h :: substArgsList σ args)
/-- The same in every member of a list. -/
def substArgsList (σ : Tree V → Option (Tree V)) : List (Tree V) → List (Tree V)
  | [] => []
  | t :: ts => substArgs σ t :: substArgsList σ ts
end

mutual
/-- Bottom-up rewriting: arguments first, then the rule for the head, if there is one. -/
inductive Rewrites (σ : Tree V → Option (Tree V))
    (rules : Tree V → Option (List (Tree V) → PyM (Tree V))) : Tree V → Tree V → Prop
  | given {a u} : σ (.atom a) = some u → Rewrites σ rules (.atom a) u
  | atom {a} : σ (.atom a) = none → Rewrites σ rules (.atom a) (.atom a)
  | rebuild {h args args'} : RewritesAll σ rules args args' → rules h = none →
      Rewrites σ rules (.node (h :: args)) (.node (h :: args'))
  | rule {h args args' f u} : RewritesAll σ rules args args' → rules h = some f →
      f args' = .ok u → Rewrites σ rules (.node (h :: args)) u
/-- Pointwise rewriting. -/
inductive RewritesAll (σ : Tree V → Option (Tree V))
    (rules : Tree V → Option (List (Tree V) → PyM (Tree V))) :
    List (Tree V) → List (Tree V) → Prop
  | nil : RewritesAll σ rules [] []
  | cons {t ts u us} : Rewrites σ rules t u → RewritesAll σ rules ts us →
      RewritesAll σ rules (t :: ts) (u :: us)
end

end Verif.Spec
