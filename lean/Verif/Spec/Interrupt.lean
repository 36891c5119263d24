import Verif.Spec.Client

/-!
# Specification of interruptions

Python raises `KeyboardInterrupt` in the main thread between any two operations when the user presses
Ctrl-C, and `MemoryError` where an object cannot be made.  The call that is running ends there.
-/

namespace Verif.Store
variable {V K α : Type}

/-- The state after the call of thread `t` has been cut short: the thread is in no call any more; nothing
else has changed. -/
def Interrupted (s : St V K) (t : Nat) (s' : St V K) : Prop :=
  s'.pc t = .idle ∧ (∀ t', t' ≠ t → s'.pc t' = s.pc t') ∧ s'.heap = s.heap ∧ s'.next = s.next ∧
  s'.table = s.table ∧ s'.pending = s.pending ∧ s'.roots = s.roots

/-- The call of thread `t` has made the object `i`, which it has not filed in the store yet. -/
def Making (s : St V K) (t i : Nat) : Prop :=
  ∃ r, s.pc t = .fresh r i ∨ s.pc t = .inSetdefault r i

/-- One call, not disturbed: the steps that thread `t` makes from its begin to its end. -/
inductive Undisturbed [DecidableEq K] [PyVal V K] (t : Nat) (r : Obj V) (i : Nat) : St V K → St V K → Prop
  /-- found at once -/
  | found {s s'} : Step s (some (.ret t r i)) s' → Undisturbed t r i s s'
  /-- made -/
  | made {s s1 s2 s3 s'} : Step s none s1 → s1.pc t = .missed r → Step s1 none s2 → s2.pc t = .fresh r i →
      Step s2 none s3 → s3.pc t = .inSetdefault r i → Step s3 (some (.ret t r i)) s' →
      Undisturbed t r i s s'

end Verif.Store
