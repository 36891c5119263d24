import Verif.Model.MatrixThreads
import Verif.Spec.MatrixHeap

/-!
# Specification for matrices in several threads: which processes there are, and what a statement should give
-/

namespace Verif.Spec

/-- Threads are started when there are the lists and dicts `h`: every one gets the matrices `ms`. -/
def MState.begin (h : Heap) (ms : List HMat) : MState := ⟨h, fun _ => ⟨[], ms, [], none⟩⟩

/-- Executions: the steps of the threads in any order, with interrupts anywhere. -/
inductive MRun : MState → MState → Prop
  | refl {s} : MRun s s
  | step {s t u e} : MRun s t → MStep t e u → MRun s u

/-- A process: one thread makes matrices, and then any number of threads go on. -/
def MReach (s : MState) : Prop :=
  ∃ s0, HRun HState.start s0 ∧ MRun (MState.begin s0.heap s0.mats) s

/-- A result is what a function on values says: an object that stands for the value, or the same exception. -/
def Gives {α β : Type} (h : Heap) (view : Heap → α → Option β) (wrap : α → TOut) (spec : PyM β)
    (res : PyM TOut) : Prop :=
  match spec with
  | .ok b => ∃ a, res = .ok (wrap a) ∧ view h a = some b
  | .error e => res = .error e

/-- What a statement gives to a thread that sees the lists and dicts `h`, if no other thread disturbs it. -/
def Means (h : Heap) : TStmt → PyM TOut → Prop
  | .list l, res => ∃ r, res = .ok (.cell (.ref r)) ∧ h[r]? = some (.list l)
  | .write r l, res => res = .ok .nothing ∧ h[r]? = some (.list l)
  | .item r i, res => ∃ l, h[r]? = some (.list l) ∧ Gives h (fun _ c => some c) .cell (pyGet l i) res
  | .new c, res => Gives h viewMat .mat (Mat.new (viewEntries h c)) res
  | .binop a b f, res => ∃ A B, viewMat h a = some A ∧ viewMat h b = some B ∧
      Gives h viewMat .mat (A.binop B f) res
  | .diff a sym p, res => ∃ A, viewMat h a = some A ∧ Gives h viewMat .mat (A.diff sym p) res
  | .tolist a, res => ∃ A, viewMat h a = some A ∧
      Gives h viewRows (fun r => .cell (.ref r)) A.tolist res
  | .getItem a ij, res => ∃ A, viewMat h a = some A ∧
      Gives h (fun _ e => some e) .expr (A.getItem ij) res

end Verif.Spec
