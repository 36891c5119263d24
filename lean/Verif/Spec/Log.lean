import Verif.Spec.Eval

/-!
# Observing the calls made by an evaluator

`logged ev` is the evaluator `ev` whose callables record, before anything else, that they
are called.  The record survives exceptions.
-/

namespace Verif.Spec
variable {V T : Type}

/-- A call observed from outside: a rule applied to an atom, or to a head and argument
values. -/
inductive Call (V T : Type) where
  | leaf (t : Tree V)
  | op (head : Tree V) (vs : List T)
deriving DecidableEq

/-- Computations that record calls and may raise; raising keeps the record. -/
abbrev Logged (V T : Type) := ExceptT PyErr (StateM (List (Call V T)))

/-- Record a call, then do what the callable does. -/
def record {α : Type} (c : Call V T) (r : PyM α) : Logged V T α :=
  fun log => (r, log ++ [c])

/-- The evaluator with recording callables. -/
def logged (ev : Evaluator PyM V T) : Evaluator (Logged V T) V T where
  atoms := ⟨ev.atoms.items.map (fun p =>
    (p.1, fun v => record (.leaf (.atom ⟨p.1, v⟩)) (p.2 v)))⟩
  operations := ⟨ev.operations.items.map (fun p =>
    (p.1, match p.2 with
      | .star f => .star (fun vs => record (.op p.1 vs) (f vs))
      | .seq f => .seq (fun vs => record (.op p.1 vs) (f vs))))⟩
  genericOperationFunc := fun h vs => record (.op h vs) (ev.genericOperationFunc h vs)
  genericAtomFunc := fun t => record (.leaf t) (ev.genericAtomFunc t)

/-- The one call that a subexpression should cause: none for an atom whose value is
supplied (or for the degenerate `Tree()`, which has no value to pass to a rule). -/
def expectedCall [DecidableEq V] [HasNone T] (ev : Evaluator PyM V T) (values : Tree V → Option T) :
    Tree V → Option (Call V T)
  | .atom a =>
    match values (.atom a) with
    | some v => if HasNone.isNone v then some (.leaf (.atom a)) else none
    | none => some (.leaf (.atom a))
  | .node [] => none
  | .node (h :: args) =>
    match evalTrees (meaning ev values) args with
    | .ok vs => some (.op h vs)
    | .error _ => none

end Verif.Spec
