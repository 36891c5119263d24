import Verif.Spec.Eval

/-!
# The rules and values of an evaluator
-/

namespace Verif.Spec
variable {V T : Type} [DecidableEq V]

/-- `values` has only atoms (childless expressions) as keys and no `None` among the values. -/
def PlainValues [HasNone T] (values : Dict (Tree V) T) : Prop :=
  ∀ t v, values.get? t = some v → t.children = [] ∧ HasNone.isNone v = false

/-- Some atom in argument position has neither a supplied value nor a rule, or some compound
subexpression has a head without rule. -/
def RuleMissing [HasNone T] (ev : Evaluator PyM V T) (values : Dict (Tree V) T) (e : Tree V) : Prop :=
  (∃ a, ArgSub e (.atom a) ∧ ev.atoms.get? a.atomType = none ∧
    ∀ v, values.get? (.atom a) = some v → HasNone.isNone v = true) ∨
  (∃ h args, ArgSub e (.node (h :: args)) ∧ ev.operations.get? h = none)

/-- All rules of `ev` are total functions and the two generic rules are those of a fresh
evaluator. -/
structure TotalRules (ev : Evaluator PyM V T) : Prop where
  atoms : ∀ ty f, ev.atoms.get? ty = some f → ∀ v, ∃ w, f v = .ok w
  star : ∀ h f, ev.operations.get? h = some (.star f) → ∀ vs, ∃ w, f vs = .ok w
  seq : ∀ h f, ev.operations.get? h = some (.seq f) → ∀ vs, ∃ w, f vs = .ok w
  genericAtom : ev.genericAtomFunc = (Evaluator.new : Evaluator PyM V T).genericAtomFunc
  genericOp : ev.genericOperationFunc = (Evaluator.new : Evaluator PyM V T).genericOperationFunc

/-- The head rules of a transformer. -/
def headRules (ev : Evaluator PyM V (Tree V)) : Tree V → Option (List (Tree V) → PyM (Tree V)) :=
  fun h => match ev.operations.get? h with
    | some (.star f) => some f
    | some (.seq f) => some f
    | none => none

end Verif.Spec
