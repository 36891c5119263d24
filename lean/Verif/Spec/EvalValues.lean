import Verif.Spec.Eval

/-!
# Specification of evaluation with values for any subexpression
-/

namespace Verif.Spec
variable {V T : Type}

mutual
/-- Like `Evaluates`, but a value supplied for any subexpression, compound or not, is taken as
it is. -/
inductive EvaluatesFirst (M : Meaning V T) (values : Tree V → Option T) : Tree V → T → Prop
  | given {t v} : values t = some v → EvaluatesFirst M values t v
  | leaf {t v} : values t = none → t.children = [] → M.leaf t = .ok v → EvaluatesFirst M values t v
  | op {h args vs v} : values (.node (h :: args)) = none → EvaluatesFirstAll M values args vs →
      M.op h vs = .ok v → EvaluatesFirst M values (.node (h :: args)) v
/-- Pointwise. -/
inductive EvaluatesFirstAll (M : Meaning V T) (values : Tree V → Option T) :
    List (Tree V) → List T → Prop
  | nil : EvaluatesFirstAll M values [] []
  | cons {t ts v vs} : EvaluatesFirst M values t v → EvaluatesFirstAll M values ts vs →
      EvaluatesFirstAll M values (t :: ts) (v :: vs)
end

/-- `RaisesFirst M values e err`: evaluating the arguments from left to right, depth first, the
first thing that fails fails with `err`. -/
inductive RaisesFirst (M : Meaning V T) (values : Tree V → Option T) : Tree V → PyErr → Prop
  | leaf {t err} : values t = none → t.children = [] → M.leaf t = .error err →
      RaisesFirst M values t err
  | argument {h before a after vs err} : values (.node (h :: (before ++ a :: after))) = none →
      EvaluatesFirstAll M values before vs → RaisesFirst M values a err →
      RaisesFirst M values (.node (h :: (before ++ a :: after))) err
  | op {h args vs err} : values (.node (h :: args)) = none → EvaluatesFirstAll M values args vs →
      M.op h vs = .error err → RaisesFirst M values (.node (h :: args)) err

end Verif.Spec
