import Verif.Spec.Client

/-!
# Specification of memory use

Steps that neither a variable nor a thread takes part in are the collector's; an object is in use
when the program can get at it or a running call has just made it.
-/

namespace Verif.Store
variable {V K : Type} [DecidableEq K] [PyVal V K]

/-- A step of the memory management: no call returns, no variable and no thread changes, but
something does. -/
def Frees (s s' : St V K) : Prop :=
  Step s none s' ∧ s'.roots = s.roots ∧ s'.pc = s.pc ∧ s' ≠ s

/-- `n` such steps in a row. -/
inductive FreesMany : Nat → St V K → St V K → Prop
  | zero (s : St V K) : FreesMany 0 s s
  | step {n s s1 s'} : Frees s s1 → FreesMany n s1 s' → FreesMany (n + 1) s s'

/-- The memory management has nothing left to do. -/
def Settled (s : St V K) : Prop := ∀ s', ¬ Frees s s'

/-- The program can get at the object, or a running call has made it. -/
def InUse (s : St V K) (i : Nat) : Prop := Visible s i ∨ ∃ t, (s.pc t).own = some i


/-- The values and what they are made of: the expression inside an `Expr`, heads and arguments of
expressions, atoms of atomic expressions. -/
inductive Part (vals : List (Ex K)) : Ex K → Prop
  | val {x} : x ∈ vals → Part vals x
  | part {x y} : Part vals x → y ∈ x.parts → Part vals y

/-- The variables of the process hold objects for exactly the values `vals`, in whatever order and
however often. -/
def Variables (s : St V K) (vals : List (Ex K)) : Prop :=
  (∀ i ∈ s.roots, ∃ x ∈ vals, Is s.heap i x) ∧ (∀ x ∈ vals, ∃ i ∈ s.roots, Is s.heap i x)

end Verif.Store
