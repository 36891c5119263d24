import Mathlib.Analysis.Calculus.Deriv.Pi
import Mathlib.Analysis.Calculus.FDeriv.Basic
import Verif.Spec.DiffTable
import Verif.Spec.Real

/-!
# When the rules given to a differentiator are right

An evaluator gives every expression a real value (or none); the rules of a differentiator are
right for it if `Add` and `Mul` are evaluated as sum and product, distributive heads as linear
functions, and if each rule `diff[h(params), params[i]] = rhs` gives the partial derivative of the
operation of `h`.
-/

namespace Verif.Spec

/-- The value of `e` where `x` has the value `t` and the other symbols are given by `values`:
`ev(e, {**values, x: t})`. -/
noncomputable def evAt (ev : Evaluator PyM Val ℝ) (values : Dict Expr ℝ) (x e : Expr) (t : ℝ) :
    PyM ℝ :=
  ev.call e (some (values.set x t))

/-- The points at which `e`, as a function of `x`, has a value. -/
def evDomain (ev : Evaluator PyM Val ℝ) (values : Dict Expr ℝ) (x e : Expr) : Set ℝ :=
  {t | ∃ v, evAt ev values x e t = .ok v}

/-- `F` is the function of `x` that `e` denotes. -/
def EvDenotes (ev : Evaluator PyM Val ℝ) (values : Dict Expr ℝ) (x e : Expr) (F : ℝ → ℝ) : Prop :=
  ∀ t v, evAt ev values x e t = .ok v → F t = v

/-- The arguments for which the operation of `h` has a value. -/
def opDomain (ev : Evaluator PyM Val ℝ) (h : Expr) (n : ℕ) : Set (Fin n → ℝ) :=
  {u | ∃ v, ev.evalOperation h (List.ofFn u) = .ok v}

/-- At the arguments `w` of `h`, the rule for argument `i` has the value `r`: the right-hand side
evaluated with the pattern arguments standing for `w` (at a point where `x` is `t`). -/
def RuleValue (T : DiffTable) (ev : Evaluator PyM Val ℝ) (values : Dict Expr ℝ) (x : Expr) (t : ℝ)
    (h : Expr) {n : ℕ} (w : Fin n → ℝ) (i : Fin n) (r : ℝ) : Prop :=
  ∃ params rhs, T.IsRule h i params rhs ∧ params.length = n ∧
    ev.call rhs (some ((values.set x t).update (params.zip (List.ofFn w)))) = .ok r

/-- The right-hand side can be instantiated: it is neither a pattern argument (see
`C27_rule_is_parameter_false`) nor 0, and the pattern arguments are atoms that do not occur in
the heads of the right-hand side (heads are not evaluated). -/
structure PlainRule (T : DiffTable) (params : List Expr) (rhs : Expr) : Prop where
  notParameter : rhs ∉ params
  notZero : rhs ≠ T.zero
  atoms : ∀ k ∈ params, k.children = []
  notInHeads : ∀ k ∈ params, ∀ h args, ArgSub rhs (.node (h :: args)) →
    ¬ Reach true (fun _ => False) h k

/-- The differentiator told `T` is right for the evaluator `ev`. -/
structure RightRules (T : DiffTable) (ev : Evaluator PyM Val ℝ) (values : Dict Expr ℝ) (x : Expr) :
    Prop where
  zeroAtom : T.zero.children = []
  zero : ∀ t, evAt ev values x T.zero t = .ok 0
  one : ∀ t, evAt ev values x T.one t = .ok 1
  sum : ∀ vs, ev.evalOperation T.add vs = .ok vs.sum
  product : ∀ vs, ev.evalOperation T.mul vs = .ok vs.prod
  /-- a distributive head is evaluated as a linear function, if at all -/
  linear : ∀ h, T.Distributive h → ∀ n, ∃ c : Fin n → ℝ, ∀ (u : Fin n → ℝ) v,
    ev.evalOperation h (List.ofFn u) = .ok v → v = ∑ i, c i * u i
  plain : ∀ h i params rhs, T.IsRule h i params rhs → PlainRule T params rhs
  /-- For any other head: whenever its rules for the arguments in `J` have values `r`, its
  operation as a function of these arguments alone (the others being held fixed) is
  differentiable, with the partial derivatives `r`. -/
  partials : ∀ h, ¬ T.Distributive h → h ≠ T.add → h ≠ T.mul →
    ∀ (n : ℕ) (w : Fin n → ℝ) (J : Finset (Fin n)) (r : Fin n → ℝ) (t : ℝ),
      w ∈ opDomain ev h n → (∀ j ∈ J, RuleValue T ev values x t h w j (r j)) →
      ∀ G : (Fin n → ℝ) → ℝ, (∀ u v, ev.evalOperation h (List.ofFn u) = .ok v → G u = v) →
        HasFDerivWithinAt G (∑ j ∈ J, r j • ContinuousLinearMap.proj (R := ℝ) j)
          {u | u ∈ opDomain ev h n ∧ ∀ i, i ∉ J → u i = w i} w

/-- All commands of the list are rules for `h`. -/
def RulesFor (h : Expr) (new : List DiffCommand) : Prop :=
  ∀ c ∈ new, ∃ params sym rhs, c = .rule (.node (h :: params)) sym rhs

end Verif.Spec
