import Verif.Spec.Eval
import Verif.Model.Expr

/-!
# Specifications for `bin_expand` and the operation counts
-/

namespace Verif.Spec

/-- `h(…h(h(a, b₁), b₂)…, bₙ)`; `a` itself if there is no `b`. -/
def leftNest (h a : Expr) : List Expr → Expr
  | [] => a
  | b :: bs => leftNest h (.node [h, a, b]) bs

/-- The two associative heads. -/
def IsAssocHead (h : Expr) : Prop := h = Expr.addH ∨ h = Expr.mulH

mutual
/-- `BinExpands e u`: `u` is `e` with every sum and product (in argument position) of the
expanded arguments nested to the left; everything else is rebuilt. -/
inductive BinExpands : Expr → Expr → Prop
  | atom {a} : BinExpands (.atom a) (.atom a)
  | other {h args args'} : ¬ IsAssocHead h → BinExpandsAll args args' →
      BinExpands (.node (h :: args)) (.node (h :: args'))
  | nest {h args a as} : IsAssocHead h → BinExpandsAll args (a :: as) →
      BinExpands (.node (h :: args)) (leftNest h a as)
/-- Pointwise. -/
inductive BinExpandsAll : List Expr → List Expr → Prop
  | nil : BinExpandsAll [] []
  | cons {t ts u us} : BinExpands t u → BinExpandsAll ts us → BinExpandsAll (t :: ts) (u :: us)
end

/-- Every sum and product in argument position has exactly two arguments. -/
def AllBinary (u : Expr) : Prop :=
  ∀ h args, ArgSub u (.node (h :: args)) → IsAssocHead h → args.length = 2

/-- An operation on lists of numbers that is an iterated binary operation: on one argument
the identity, on more arguments what a left fold of the two-argument case gives. -/
structure LeftAssoc {T : Type} (op : List T → PyM T) : Prop where
  one : ∀ v, op [v] = .ok v
  snoc : ∀ v vs w, op (v :: vs ++ [w]) = (op (v :: vs)).bind (fun s => op [s, w])

/-- The number of occurrences of subexpressions in argument position: the length of the
left-to-right postorder of the tree form. -/
def occurrences {V : Type} (e : Tree V) : Nat := (postorder false (fun _ => false) e).length

/-- The documented family: `e₀ = x`, `eₙ₊₁ = eₙ**2 + eₙ`. -/
def squareFamily (x : Expr) : Nat → Expr
  | 0 => x
  | n + 1 => Expr.add (Expr.pow (squareFamily x n) (Expr.integer 2)) (squareFamily x n)

end Verif.Spec
