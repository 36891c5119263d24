import Verif.Spec.Tree
import Verif.Model.Evaluate

/-!
# Specification of evaluation

Evaluation rules as data and a big-step relation, independent of the graph, the stack and
the dictionaries of the implementation.
-/

namespace Verif.Spec
variable {V T : Type}

/-- What evaluation means: a (possibly failing) value for every childless expression, and a
(possibly failing) operation for every head. -/
structure Meaning (V T : Type) where
  leaf : Tree V → PyM T
  op : Tree V → List T → PyM T

mutual
/-- `Evaluates M e v`: `e` has the value `v`.  Only arguments are evaluated, never heads. -/
inductive Evaluates (M : Meaning V T) : Tree V → T → Prop
  | leaf {t v} : t.children = [] → M.leaf t = .ok v → Evaluates M t v
  | op {h args vs v} : EvaluatesAll M args vs → M.op h vs = .ok v →
      Evaluates M (.node (h :: args)) v
/-- Pointwise evaluation. -/
inductive EvaluatesAll (M : Meaning V T) : List (Tree V) → List T → Prop
  | nil : EvaluatesAll M [] []
  | cons {t ts v vs} : Evaluates M t v → EvaluatesAll M ts vs → EvaluatesAll M (t :: ts) (v :: vs)
end

mutual
/-- The same as a recursive function (used for outcomes that raise): arguments from left to
right, then the head's operation. -/
def evalTree (M : Meaning V T) : Tree V → PyM T
  | .atom a => M.leaf (.atom a)
  | .node [] => M.leaf (.node [])
  | .node (h :: args) => do
    let vs ← evalTrees M args
    M.op h vs
/-- Evaluation of a list. -/
def evalTrees (M : Meaning V T) : List (Tree V) → PyM (List T)
  | [] => .ok []
  | t :: ts => do
    let v ← evalTree M t
    let vs ← evalTrees M ts
    return v :: vs
end

/-- The meaning given by an evaluator's rules and the supplied values: for an atom the
supplied value (unless it is `None`), else the rule for its atom type, else the generic atom
rule; for a head its rule (`star` and `seq` only differ in how Python passes the arguments),
else the generic head rule. -/
def meaning [DecidableEq V] [HasNone T] (ev : Evaluator PyM V T) (values : Tree V → Option T) :
    Meaning V T where
  leaf := fun t =>
    match values t with
    | some v => if HasNone.isNone v then rule t else .ok v
    | none => rule t
  op := fun h vs =>
    match ev.operations.get? h with
    | some (.star f) => f vs
    | some (.seq f) => f vs
    | none => ev.genericOperationFunc h vs
where
  /-- the rule for a childless expression -/
  rule : Tree V → PyM T
    | .atom a =>
      match ev.atoms.get? a.atomType with
      | some f => f a.value
      | none => ev.genericAtomFunc (.atom a)
    | .node _ => .error .attributeError

end Verif.Spec
