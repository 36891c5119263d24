import Verif.Spec.Tree
import Verif.Model.Diff

/-!
# Differentiators a program can make, and the rules they have
-/

namespace Verif.Spec
open Expr

/-- Differentiators that a program can build: created by `SymDifferentiator(...)` and given
rules by `diff[pattern, sym] = rhs` and `diff.add_distributive_rule(head)`. -/
inductive DiffHistory : DiffProps Val → Prop
  | new {add mul zero one} : DiffHistory (SymDifferentiator.new add mul zero one)
  | rule {p p' expr sym rhs} : DiffHistory p → SymDifferentiator.setItem p expr sym rhs = .ok p' →
      DiffHistory p'
  | distributive {p head} : DiffHistory p → DiffHistory (p.addDistributive head)

/-- The value of an expression as a rule never is `0`. -/
def RuleNonzero (p : DiffProps Val) : Prop :=
  ∀ k f, p.diffRules.get? k = some f → ∀ args r, f.call args = .ok r → r ≠ p.zero

/-- Differentiating `e` with respect to `x` needs a rule for argument `i` of `h(args)`: this
occurs in `e`, `h` is not `Add`, `Mul` or distributive, and the argument has a derivative other
than 0. -/
def NeedsRule (p : DiffProps Val) (x e h : Expr) (args : List Expr) (i : Nat) : Prop :=
  ArgSub e (.node (h :: args)) ∧ h ∉ p.distributive ∧ h ≠ p.add ∧ h ≠ p.mul ∧
  ∃ c d, args[i]? = some c ∧ Expr.diff c x 1 p = .ok d ∧ d ≠ p.zero

/-- There is such a rule, for that many arguments. -/
def HasRule (p : DiffProps Val) (h : Expr) (n i : Nat) : Prop :=
  ∃ rule, p.diffRules.get? (h, i) = some rule ∧ rule.nargs = n

end Verif.Spec
