import Verif.Spec.Real

/-!
# The real operation each operator stands for
-/

namespace Verif.Spec

open Classical in
/-- The documented meaning of the operators on numbers; division by zero and undefined powers
are errors. -/
noncomputable def realOp : BinOp → ℝ → ℝ → PyM ℝ
  | .add, a, b => .ok (a + b)
  | .sub, a, b => .ok (a - b)
  | .mul, a, b => .ok (a * b)
  | .truediv, a, b => if b = 0 then .error .valueError else .ok (a / b)
  | .pow, a, b => if PowDefined a b then .ok (a ^ b) else .error .valueError

end Verif.Spec
