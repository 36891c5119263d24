import Verif.Model.Tree

/-!
# Independent specifications for traversal, graphs and substitution

Nothing here is a model of protosym code: these are the small mathematical definitions in
terms of which the properties are stated.
-/

namespace Verif.Spec
variable {V : Type}

/-- The subexpressions directly below `t`: its arguments, plus its head if `heads`. -/
def kids (heads : Bool) (t : Tree V) : List (Tree V) :=
  match t with
  | .atom _ => []
  | .node [] => []
  | .node (h :: args) => if heads then h :: args else args

/-- `Reach heads excl e t`: `t` can be reached from `e` going down through `kids`, no
expression on the way (both ends included) being excluded. -/
inductive Reach (heads : Bool) (excl : Tree V → Prop) : Tree V → Tree V → Prop
  | refl {e} : ¬ excl e → Reach heads excl e e
  | down {e c t} : ¬ excl e → c ∈ kids heads e → Reach heads excl c t → Reach heads excl e t

/-- Subexpressions reachable through arguments only (heads are not visited). -/
def ArgSub (e t : Tree V) : Prop := Reach false (fun _ => False) e t

/-- `t` occurs in `e`, in argument or head position. -/
def OccursIn (t e : Tree V) : Prop := Reach true (fun _ => False) e t

/-- Keep the first occurrence of every element. -/
def keepFirst {α : Type} [DecidableEq α] (l : List α) : List α :=
  l.foldl (fun acc a => if a ∈ acc then acc else acc ++ [a]) []

mutual
/-- Left-to-right postorder of the tree form (with repetitions), not entering excluded
expressions. -/
def postorder (heads : Bool) (excl : Tree V → Bool) : Tree V → List (Tree V)
  | .atom a => if excl (.atom a) then [] else [.atom a]
  | .node [] => if excl (.node []) then [] else [.node []]
  | .node (h :: args) =>
    if excl (.node (h :: args)) then []
    else (if heads then postorder heads excl h else []) ++ postorderList heads excl args
          ++ [.node (h :: args)]
/-- Concatenated postorders. -/
def postorderList (heads : Bool) (excl : Tree V → Bool) : List (Tree V) → List (Tree V)
  | [] => []
  | c :: cs => postorder heads excl c ++ postorderList heads excl cs
end

/-- `a` stands strictly before `b` in `l`. -/
def Before {α : Type} (l : List α) (a b : α) : Prop :=
  ∃ i j : Nat, i < j ∧ l[i]? = some a ∧ l[j]? = some b

/-- `l` is a topological order of `e`: a duplicate-free list of exactly the subexpressions
of `e` reachable through arguments, in which arguments come before what they are arguments
of, ending with `e`. -/
structure IsTopoOrder (e : Tree V) (l : List (Tree V)) : Prop where
  mem : ∀ t, t ∈ l ↔ ArgSub e t
  nodup : l.Nodup
  before : ∀ t ∈ l, ∀ c ∈ kids false t, Before l c t
  last : l.getLast? = some e

/-- Value associated with the *last* position of `k` in a list of (key, value) pairs. -/
def lastAssoc {K W : Type} [DecidableEq K] (k : K) : List (K × W) → Option W
  | [] => none
  | (k', w) :: r =>
    match lastAssoc k r with
    | some w' => some w'
    | none => if k' = k then some w else none

mutual
/-- Simultaneous substitution: replace every outermost occurrence (in head or argument
position) of an expression in the domain of `σ`. -/
def subst (σ : Tree V → Option (Tree V)) : Tree V → Tree V
  | .atom a => (σ (.atom a)).getD (.atom a)
  | .node cs => (σ (.node cs)).getD (.node (substList σ cs))
/-- Substitution in every member of a list. -/
def substList (σ : Tree V → Option (Tree V)) : List (Tree V) → List (Tree V)
  | [] => []
  | c :: cs => subst σ c :: substList σ cs
end

/-- The substitution mapping the parameters to the values, the last one winning for a
repeated parameter. -/
def pairing [DecidableEq V] (params values : List (Tree V)) : Tree V → Option (Tree V) :=
  fun t => lastAssoc t (params.zip values)

end Verif.Spec
