import Verif.Model.Functions
import Verif.Lemmas.Eval

/-!
# What the rule assignments executed at import time leave behind
-/

namespace Verif
open Expr Spec

theorem evalF64_eq {F : Type} (A : FloatOps F) :
    evalF64 A =
      { atoms := ⟨[(Ty.integer, A.fromVal)]⟩,
        operations := ⟨[(addH, .seq A.fsum), (mulH, .seq A.prod), (powH, .star (arity2 A.pow)),
          (sinH, .star (arity1 A.sin)), (cosH, .star (arity1 A.cos))]⟩,
        genericOperationFunc := fun _ _ => .error .noEvaluationRule,
        genericAtomFunc := fun _ => .error .noEvaluationRule } := by
  rfl

theorem evalRepr_eq :
    evalRepr =
      { atoms := ⟨[(Ty.integer, fun v => .ok (valStr v)), (Ty.symbol, fun v => .ok (valStr v)),
          (Ty.function, fun v => .ok (valStr v))]⟩,
        operations := ⟨[
          (addH, .seq (fun args => .ok ("(" ++ String.intercalate " + " args ++ ")"))),
          (mulH, .seq (fun args => .ok ("(" ++ String.intercalate "*" args ++ ")"))),
          (powH, .star (arity2 (fun b e => .ok (b ++ "**" ++ e))))]⟩,
        genericOperationFunc := reprCall,
        genericAtomFunc := treeStr } := by
  rfl

theorem evalLatex_eq :
    evalLatex =
      { atoms := ⟨[(Ty.integer, fun v => .ok (valStr v)), (Ty.symbol, fun v => .ok (valStr v)),
          (Ty.function, fun v => .ok (valStr v))]⟩,
        operations := ⟨[
          (addH, .seq (fun args => .ok ("(" ++ String.intercalate " + " args ++ ")"))),
          (mulH, .seq (fun args => .ok ("(" ++ String.intercalate " \\times " args ++ ")"))),
          (powH, .star (arity2 (fun b e => .ok (b ++ "^{" ++ e ++ "}")))),
          (sinH, .star (arity1 (fun a => .ok ("\\sin(" ++ a ++ ")")))),
          (cosH, .star (arity1 (fun a => .ok ("\\cos(" ++ a ++ ")"))))]⟩,
        genericOperationFunc := reprCall,
        genericAtomFunc := fun _ => .error .noEvaluationRule } := by
  rfl

theorem countOps_eq :
    evaluatorOf countOpsRules =
      { atoms := ⟨[]⟩, operations := ⟨[]⟩,
        genericOperationFunc := fun _ counts => .ok (1 + counts.sum),
        genericAtomFunc := fun _ => .ok 1 } := by
  rfl

/-- None of the assignments raises. -/
theorem installed {F : Type} (A : FloatOps F) :
    (installRules (f64Rules A) Evaluator.new).1 = .ok () ∧
    (installRules reprRules Evaluator.new).1 = .ok () ∧
    (installRules latexRules Evaluator.new).1 = .ok () ∧
    (installRules countOpsRules Evaluator.new).1 = .ok () := by exact ⟨rfl, rfl, rfl, rfl⟩

end Verif
