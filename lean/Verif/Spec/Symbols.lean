import Verif.Spec.DiffTable
import Verif.Model.Functions

/-!
# Where the atoms of a result come from
-/

namespace Verif.Spec

/-- The atom `a` occurs in `e`: anywhere (`heads`), or in argument position, where evaluation meets it. -/
def HasAtom (heads : Bool) (e : Expr) (a : Atom Val) : Prop :=
  if heads then OccursIn (.atom a) e else ArgSub e (.atom a)

/-- The atom `a` occurs in what the differentiator was made with: its constants (`Add` and `Mul` are heads
in what it builds) and the right-hand sides of its rules, pattern arguments excepted. -/
inductive DiffTable.Brings (T : DiffTable) (heads : Bool) (a : Atom Val) : Prop
  | zero : HasAtom heads T.zero a → Brings T heads a
  | one : HasAtom heads T.one a → Brings T heads a
  | add : heads = true → HasAtom heads T.add a → Brings T heads a
  | mul : heads = true → HasAtom heads T.mul a → Brings T heads a
  | rule {h i params rhs} : T.IsRule h i params rhs → .atom a ∉ params → HasAtom heads rhs a →
      Brings T heads a

/-- Nothing is missing for the evaluation of `e` by `eval_f64(values)`: every atom in argument position is an
`Integer` or has a value (other than `None`), and every function is one of `Add`, `Mul`, `pow`, `sin`, `cos`. -/
def NothingMissing {F : Type} [HasNone F] (values : Dict Expr F) (e : Expr) : Prop :=
  (∀ a, ArgSub e (.atom a) → a.atomType = Ty.integer ∨
    ∃ v, values.get? (.atom a) = some v ∧ HasNone.isNone v = false) ∧
  (∀ h args, ArgSub e (.node (h :: args)) → h ∈ [Expr.addH, Expr.mulH, Expr.powH, Expr.sinH, Expr.cosH])

/-- The arithmetic raises exceptions of its own at most (`OverflowError`, `ZeroDivisionError`, ...), not the
one for a missing rule. -/
def OwnErrors {F : Type} (A : FloatOps F) : Prop :=
  (∀ n, A.ofInt n ≠ .error .noEvaluationRule) ∧ (∀ vs, A.fsum vs ≠ .error .noEvaluationRule) ∧
  (∀ vs, A.prod vs ≠ .error .noEvaluationRule) ∧ (∀ a b, A.pow a b ≠ .error .noEvaluationRule) ∧
  (∀ a, A.sin a ≠ .error .noEvaluationRule) ∧ (∀ a, A.cos a ≠ .error .noEvaluationRule)

end Verif.Spec
