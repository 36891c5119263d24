import Verif.Spec.Tree
import Verif.Model.Expr

/-!
# Replacement dictionaries

What the dict given to `xreplace` says.
-/

namespace Verif.Spec
open Expr

/-- The mapping given by a dict of Python objects: the last one wins when two keys are the
same expression (`1` and `Integer(1)`). -/
def repsMap (reps : Dict PyObj PyObj) : Expr → Option Expr :=
  fun t => lastAssoc t (reps.items.filterMap fun p =>
    match expressify p.1, expressify p.2 with
    | .ok k, .ok v => some (k, v)
    | _, _ => none)

/-- All keys and values can be expressified. -/
def GoodReps (reps : Dict PyObj PyObj) : Prop :=
  ∀ p ∈ reps.items, ∃ k v, expressify p.1 = .ok k ∧ expressify p.2 = .ok v

/-- Replace as `σ` says, and in the result as `τ` says (`τ` replacing atoms only). -/
def andThen (σ τ : Expr → Option Expr) (t : Expr) : Option Expr :=
  match σ t with
  | some u => some (subst τ u)
  | none => τ t

/-- What is replaced are atoms, and none of them occurs in the head of a subexpression of `e`
(heads are not evaluated, so replacing inside them changes which rule applies). -/
def ReplacesArguments (reps : Dict PyObj PyObj) (e : Expr) : Prop :=
  ∀ k, repsMap reps k ≠ none →
    k.children = [] ∧ ∀ h args, ArgSub e (.node (h :: args)) → ¬ OccursIn k h

end Verif.Spec
