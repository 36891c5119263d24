import Verif.Spec.Store

/-!
# Specification for C76: which of several equal values an atom carries

Python compares the values of atoms by `==`, and values that are equal can be told apart: `True`
and `1` print differently, `0.0` and `-0.0` have different signs.
-/

namespace Verif.Store
variable {V K : Type} [DecidableEq K] [PyVal V K]

/-- The executions that go on from the state `s₀`, every state of which, `s₀` included, satisfies
`P`.  `R₀` are the keys for which there was a race before `s₀`, the last but one argument those for
which there has been one up to the state reached. -/
inductive Since (R₀ : Key K → Prop) (s₀ : St V K) (P : St V K → Prop) :
    (Key K → Prop) → St V K → Prop
  | here : P s₀ → Since R₀ s₀ P R₀ s₀
  | step {R s e s'} : Since R₀ s₀ P R s → Step s e s' → P s' →
      Since R₀ s₀ P (fun k => R k ∨ Race s' k) s'

/-- The executions with what has been asked for: `Asked C s` if some execution leads to `s` and
`C ty v` says that the atom type `ty` has been called with the value `v` on the way.  A call shows
either because it returns at once, or because its thread is in it after the step. -/
inductive Asked : (AtomType → V → Prop) → St V K → Prop
  | start : Asked (fun _ _ => False) .init
  | step {C s e s'} : Asked C s → Step s e s' →
      Asked (fun ty v => C ty v ∨ (∃ t i, e = some (.ret t (.atom ty v) i)) ∨
        (∃ t, s'.pc t = .missed (.atom ty v))) s'

/-- Thread `t` is in a call of the constructor with the arguments `r`. -/
def Calling (s : St V K) (t : Nat) (r : Obj V) : Prop :=
  s.pc t = .missed r ∨ (∃ i, s.pc t = .fresh r i) ∨ (∃ i, s.pc t = .inSetdefault r i)

end Verif.Store
