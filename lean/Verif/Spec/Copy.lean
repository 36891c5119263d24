import Verif.Model.Copy

/-!
# What it means that copies do no harm

`s` is a state of the process.  A `Tree` is read by reading its attributes, and those of its children.
-/

namespace Verif.Copy
variable {V : Type} [DecidableEq V]

/-- `o` is the object that the call `Tree()`, without arguments, returns. -/
def IsNoArgs (s : CState V) (o : Nat) : Prop := (newTree s []).1 = o

mutual
/-- Reading the object `o` through and through gives the expression `t`, and `Tree()` does not occur. -/
inductive Reads (s : CState V) : Nat → Tree V → Prop
  | atom {o : Nat} {a : Atom V} : ¬ IsNoArgs s o → s.objs o = some ⟨[], some a⟩ → Reads s o (.atom a)
  | node {o : Nat} {ob : TObj V} {ts : List (Tree V)} : ¬ IsNoArgs s o → s.objs o = some ob →
      ob.children ≠ [] → ReadsList s ob.children ts → Reads s o (.node ts)
/-- The same for a list. -/
inductive ReadsList (s : CState V) : List Nat → List (Tree V) → Prop
  | nil : ReadsList s [] []
  | cons {o : Nat} {os : List Nat} {t : Tree V} {ts : List (Tree V)} : Reads s o t → ReadsList s os ts →
      ReadsList s (o :: os) (t :: ts)
end

end Verif.Copy
