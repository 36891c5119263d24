import Verif.Spec.DiffTable

/-!
# Differentiators that say nothing about a symbol
-/

namespace Verif.Spec

/-- The differentiator does not mention `y`: its constants are other expressions, and the
right-hand sides of its rules do not contain `y`, except as an argument of the pattern. -/
structure NotMentioned (T : DiffTable) (y : Expr) : Prop where
  add : ¬ OccursIn y T.add
  mul : ¬ OccursIn y T.mul
  zero : T.zero.children = [] ∧ y ≠ T.zero
  one : T.one.children = [] ∧ y ≠ T.one
  rules : ∀ h params sym rhs, .rule (.node (h :: params)) sym rhs ∈ T.told →
    y ∈ params ∨ ¬ OccursIn y rhs

/-- No rule has an argument of its pattern as its right-hand side, as in `diff[f(a, b), a] = b`. -/
def DiffTable.NoBareRule (T : DiffTable) : Prop :=
  ∀ h params sym rhs, .rule (.node (h :: params)) sym rhs ∈ T.told → rhs ∉ params

/-- `y` is used as a value in `e`, not as (part of) a function. -/
def NotAHead (y e : Expr) : Prop := ∀ h args, ArgSub e (.node (h :: args)) → ¬ OccursIn y h

end Verif.Spec
