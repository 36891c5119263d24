import Verif.Spec.Client
import Verif.Model.ClientEval

/-!
# Evaluators in handles and in values
-/

namespace Verif.Store
variable {V K T A : Type} [DecidableEq K] [PyVal V K]

/-- What the relation says about handles stays true when the program gets more objects. -/
def Stable (rel : List (Ex K) → T → A → Prop) : Prop :=
  ∀ v v' a b, rel v a b → v <+: v' → rel v' a b

/-- Related data are both `None` or both not. -/
def SameNone [HasNone T] [HasNone A] (rel : List (Ex K) → T → A → Prop) : Prop :=
  ∀ v a b, rel v a b → HasNone.isNone a = HasNone.isNone b

/-- A dictionary whose keys are `Tree`s, in handles (the pairs, newest first; an older pair with the same
key is hidden) and in values. -/
def MapAt {W : Type u} {X : Type} (vals : List (Ex K)) (rel : W → X → Prop) (d : List (Nat × W))
    (D : Dict (Tree K) X) : Prop :=
  ∃ l : List (Tree K × X), List.Forall₂ (fun p q => At vals p.1 q.1 ∧ rel p.2 q.2) d l ∧
    ∀ t, Dict.lookup t l = D.get? t

/-- The callable `f`, whenever it is called from now on with data that `rel` relates to `xs`, computes
what `F` computes. -/
def OpAt (vals : List (Ex K)) (rel : List (Ex K) → T → A → Prop) (f : List T → Prog V K T) :
    OpFunc PyM A → Prop
  | .star F | .seq F => ∀ vals' as xs, vals <+: vals' → List.Forall₂ (rel vals') as xs →
      Computes vals' (f as) rel (F xs)

/-- An evaluator in handles and in values: it has rules for the same types of atoms and for the same
heads, and the rules compute the same.  `rel` relates the data that the one computes (it may contain
handles) to the data that the other computes. -/
structure EvalAt (vals : List (Ex K)) (rel : List (Ex K) → T → A → Prop) (ev : Prog.EvalH V K T)
    (Ev : Evaluator PyM K A) : Prop where
  atoms : ∀ ty, match Prog.atomRule ty ev.atoms, Ev.atoms.get? ty with
    | none, none => True
    | some f, some F => ∀ vals' v, vals <+: vals' → Computes vals' (f v) rel (F v)
    | _, _ => False
  operations : MapAt vals (OpAt vals rel) ev.operations Ev.operations
  genericOp : ∀ vals' h t as xs, vals <+: vals' → At vals' h t → List.Forall₂ (rel vals') as xs →
    Computes vals' (ev.genericOp h as) rel (Ev.genericOperationFunc t xs)
  genericAtom : ∀ vals' h a, vals <+: vals' → At vals' h (.atom a) →
    Computes vals' (ev.genericAtom h) rel (Ev.genericAtomFunc (.atom a))

end Verif.Store
