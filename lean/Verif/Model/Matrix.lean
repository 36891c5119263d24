import Verif.Model.Diff

/-!
# Model of src/protosym/simplecas/matrix.py

Matrices are immutable values here; `Model/MatrixHeap.lean` models the same operations on
mutable Python lists and dicts.
-/

namespace Verif

/-- A row handed to `Matrix(...)`: a Python list of objects, or something else. -/
inductive PyRow where
  | list (es : List PyObj)
  | other
deriving DecidableEq

/-- The argument of `Matrix(...)`: a Python list of rows, or something else. -/
inductive PyEntries where
  | list (rows : List PyRow)
  | other
deriving DecidableEq

/-- The attributes of a `Matrix`: matrix.py:17-22 (`shape` is `(nrows, ncols)`). -/
structure Mat where
  nrows : Nat
  ncols : Nat
  elements : List Expr
  elementsGraph : Expr
  entrymap : Dict (Nat × Nat) Nat
deriving DecidableEq

/-- `Matrix._new`: matrix.py:48-64. -/
def Mat.mk' (nrows ncols : Nat) (elements : List Expr) (entrymap : Dict (Nat × Nat) Nat) : Mat :=
  ⟨nrows, ncols, elements, Expr.listH.call elements, entrymap⟩

/-- The inner loop of `Matrix.__new__`: matrix.py:41-44. -/
def Mat.rowLoop (i : Nat) : Nat → List Expr → List Expr × Dict (Nat × Nat) Nat →
    List Expr × Dict (Nat × Nat) Nat
  | _, [], s => s
  | j, entry :: rest, (elements, entrymap) =>
    if entry ≠ Expr.zero then
      rowLoop i (j + 1) rest (elements ++ [entry], entrymap.set (i, j) elements.length)
    else rowLoop i (j + 1) rest (elements, entrymap)

/-- The outer loop: matrix.py:40. -/
def Mat.rowsLoop : Nat → List (List Expr) → List Expr × Dict (Nat × Nat) Nat →
    List Expr × Dict (Nat × Nat) Nat
  | _, [], s => s
  | i, row :: rest, s => rowsLoop (i + 1) rest (rowLoop i 0 row s)

/-- `isinstance(row, list)` -/
def PyRow.asList : PyRow → Option (List PyObj)
  | .list es => some es
  | .other => none

/-- `Matrix.__new__`: matrix.py:24-46.  `entries[0]` raises `IndexError` for `[]`. -/
def Mat.new (entries : PyEntries) : PyM Mat :=
  match entries with
  | .other => .error .typeError
  | .list rows =>
    match rows.mapM PyRow.asList with
    | none => .error .typeError
    | some rows => do
      let nrows := rows.length
      let ncols := (← pyGet rows 0).length
      if ¬ rows.all (fun row => row.length = ncols) then .error .typeError
      else do
        let entriesExpr ← rows.mapM (fun row => row.mapM expressify)
        let (elements, entrymap) := rowsLoop 0 entriesExpr ([], Dict.empty)
        return mk' nrows ncols elements entrymap

/-- What is between the brackets of `M[...]`: a pair of ints or anything else. -/
inductive PyIndex where
  | pair (i j : Int)
  | other
deriving DecidableEq

/-- `Matrix.__getitem__`: matrix.py:66-77. -/
def Mat.getItem (m : Mat) (ij : PyIndex) : PyM Expr :=
  match ij with
  | .pair i j =>
    if ¬ (0 ≤ i ∧ i < m.nrows ∧ 0 ≤ j ∧ j < m.ncols) then .error .indexError
    else
      match m.entrymap.get? (i.toNat, j.toNat) with
      | some n => pyGet m.elements n
      | none => .ok Expr.zero
  | .other => .error .typeError

/-- `l[i] = v` for a list and a non-negative index. -/
def pySet {α : Type} (l : List α) (i : Nat) (v : α) : PyM (List α) :=
  if i < l.length then .ok (l.set i v) else .error .indexError

/-- The loop of `Matrix.tolist`: matrix.py:82-83. -/
def Mat.tolistLoop (elements : List Expr) : List ((Nat × Nat) × Nat) → List (List Expr) →
    PyM (List (List Expr))
  | [], entries => .ok entries
  | ((i, j), n) :: rest, entries => do
    let v ← pyGet elements n
    let row ← pyGet entries i
    let row ← pySet row j v
    let entries ← pySet entries i row
    tolistLoop elements rest entries

/-- `Matrix.tolist`: matrix.py:79-84. -/
def Mat.tolist (m : Mat) : PyM (List (List Expr)) :=
  tolistLoop m.elements m.entrymap.items
    (List.replicate m.nrows (List.replicate m.ncols Expr.zero))

/-- The loop of `Matrix.binop`: matrix.py:117-125. -/
def Mat.binopLoop (otherElements : List Expr) (func : Expr) : List ((Nat × Nat) × Nat) →
    List Expr × Dict (Nat × Nat) Nat → PyM (List Expr × Dict (Nat × Nat) Nat)
  | [], s => .ok s
  | (ij, nOther) :: rest, (newElements, newEntrymap) =>
    match newEntrymap.get? ij with
    | some n => do
      let selfIj ← pyGet newElements n
      let otherIj ← pyGet otherElements nOther
      let result := func.call [selfIj, otherIj]
      let newElements ← pySet newElements n result
      binopLoop otherElements func rest (newElements, newEntrymap)
    | none => do
      let newEntrymap := newEntrymap.set ij newElements.length
      let e ← pyGet otherElements nOther
      binopLoop otherElements func rest (newElements ++ [e], newEntrymap)

/-- `Matrix.binop`: matrix.py:111-126. -/
def Mat.binop (self other : Mat) (func : Expr) : PyM Mat :=
  if (self.nrows, self.ncols) ≠ (other.nrows, other.ncols) then .error .typeError
  else do
    let (newElements, newEntrymap) ←
      binopLoop other.elements func other.entrymap.items (self.elements, self.entrymap)
    return mk' self.nrows self.ncols newElements newEntrymap

/-- `Matrix.__add__`: matrix.py:105-109 for two matrices (`NotImplemented`, hence
`TypeError`, otherwise). -/
def Mat.add (self other : Mat) : PyM Mat := self.binop other Expr.addH

/-- `Matrix.diff`: matrix.py:128-136. -/
def Mat.diff (self : Mat) (sym : PyObj) (p : DiffProps Val := builtinDiff) : PyM Mat :=
  match sym with
  | .expr x => do
    let elementsDiff ← Expr.diff self.elementsGraph x 1 p
    return mk' self.nrows self.ncols (elementsDiff.children.drop 1) self.entrymap
  | _ => .error .typeError

end Verif
