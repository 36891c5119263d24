import Verif.Model.CompileThreads
import Verif.Spec.Compile

/-!
# Specification for compiled functions in several threads
-/

namespace Verif.Spec

variable {F : Type}

/-- The process after `import protosym`. -/
def LState.start : LState F := ⟨[], [], [], [], [], fun _ => .idle, false⟩

/-- Executions, with what the users have seen so far (the latest first), until something undefined happens. -/
inductive LRun (P : Platform F) : List (LEvent F) → LState F → Prop
  | start : LRun P [] LState.start
  | step {es s t ev s'} : LRun P es s → s.crashed = false → LStep P s t ev s' →
      LRun P (ev.toList ++ es) s'

/-- Only the thread `t` does something, at most `n` operations, and the last of them is seen as `ev`. -/
inductive LAlone (P : Platform F) (t : Nat) : Nat → LState F → LEvent F → LState F → Prop
  | last {n s ev s'} : LStep P s (some t) (some ev) s' → LAlone P t (n + 1) s ev s'
  | next {n s u ev s'} : LStep P s (some t) none u → u.crashed = false → LAlone P t n u ev s' →
      LAlone P t (n + 1) s ev s'

/-- `ev` is the end of the call that the thread `t` is in. -/
def EndsWith (t : Nat) : LFrame F → LEvent F → Prop
  | .idle, _ => False
  | .lambdifying args e, ev | .finalized args e _, ev | .appended args e _, ev => ∃ r, ev = .made t args e r
  | .called f args, ev | .zeros f args _, ev | .machine f args _ _, ev | .filled f args _, ev =>
    ∃ r cells, ev = .ended t f args r cells

/-- A call with the outcome `r` (an array has the contents `cells`) has done the same as the call `q` in a process
with a single thread. -/
def SameResult (r : CallOutcome F) (cells : Option (List F)) (q : CallOutcome F × Proc F) : Prop :=
  match r, q.1 with
  | .float v, .float w => v = w
  | .array _, .array id => ∃ l, cells = some l ∧ q.2.arrays[id]? = some l
  | .raised e, .raised e' => e = e'
  | .undefined, .undefined => True
  | _, _ => False

end Verif.Spec
