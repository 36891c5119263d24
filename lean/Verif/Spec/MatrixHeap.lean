import Verif.Model.MatrixHeap
import Verif.Spec.Matrix

/-!
# Specification for matrices on a heap: what an object in the heap stands for
-/

namespace Verif.Spec

/-- The expression in a cell. -/
def cellExpr : Cell → Option Expr
  | .obj (.expr e) => some e
  | _ => none

/-- The list of expressions at an address. -/
def viewList (h : Heap) (r : Nat) : Option (List Expr) :=
  match h[r]? with
  | some (.list cells) => cells.mapM cellExpr
  | _ => none

/-- The dict at an address. -/
def viewDict (h : Heap) (r : Nat) : Option (Dict (Nat × Nat) Nat) :=
  match h[r]? with
  | some (.dict d) => some d
  | _ => none

/-- The matrix (as a value) that a matrix object stands for. -/
def viewMat (h : Heap) (m : HMat) : Option Mat := do
  let es ← viewList h m.elements
  let d ← viewDict h m.entrymap
  return ⟨m.nrows, m.ncols, es, m.elementsGraph, d⟩

/-- The list of lists of expressions at an address. -/
def viewRows (h : Heap) (r : Nat) : Option (List (List Expr)) :=
  match h[r]? with
  | some (.list cells) => cells.mapM (fun c => match c with
    | .ref r => viewList h r
    | .obj _ => none)
  | _ => none

/-- A member of the argument of `Matrix(...)`. -/
def viewRow (h : Heap) : Cell → PyRow
  | .obj _ => .other
  | .ref r =>
    match h[r]? with
    | some (.list cells) => .list (cells.map Cell.toObj)
    | _ => .other

/-- The argument of `Matrix(...)`. -/
def viewEntries (h : Heap) : Cell → PyEntries
  | .obj _ => .other
  | .ref r =>
    match h[r]? with
    | some (.list cells) => .list (cells.map (viewRow h))
    | _ => .other

/-- Nothing that existed was changed: the heap only grew. -/
def OnlyAllocates (h h' : Heap) : Prop := h <+: h'

/-- A computation on the heap does what a function on values says: it returns an object that
stands for the value, or raises the same exception; and it changes no existing object. -/
def Refines {α β : Type} (h : Heap) (c : HM α) (view : Heap → α → Option β) (spec : PyM β) : Prop :=
  OnlyAllocates h (c h).2 ∧
  match spec with
  | .ok b => ∃ a, (c h).1 = .ok a ∧ view (c h).2 a = some b
  | .error err => (c h).1 = .error err

/-- Programs: sequences of steps. -/
inductive HRun : HState → HState → Prop
  | refl {s} : HRun s s
  | step {s t u} : HRun s t → HStep t u → HRun s u

/-- At the start there is nothing. -/
def HState.start : HState := ⟨[], [], []⟩

end Verif.Spec
