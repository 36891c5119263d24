import Verif.Model.Matrix

/-!
# Model of src/protosym/simplecas/matrix.py on mutable lists and dicts

The same functions as in `Model/Matrix.lean`, but Python's lists and dicts are objects in a heap,
referenced by address, that can be shared and changed.  `Props/MatrixHeap.lean` proves that the
functions of `Model/Matrix.lean` describe them.
-/

namespace Verif

/-- What a Python list holds here: an object without identity (an `Expr`, an `int`, …) or a
reference to a list. -/
inductive Cell where
  | obj (o : PyObj)
  | ref (r : Nat)
deriving DecidableEq

/-- A mutable Python object: a list, or the dict `entrymap`. -/
inductive HObj where
  | list (cells : List Cell)
  | dict (d : Dict (Nat × Nat) Nat)
deriving DecidableEq

/-- The mutable objects, by address. -/
abbrev Heap := List HObj

/-- A computation that reads and changes the heap and may raise.  What it did before raising
stays done. -/
def HM (α : Type) := Heap → PyM α × Heap

namespace HM
/-- Return. -/
def pure {α : Type} (a : α) : HM α := fun h => (.ok a, h)
/-- Sequence. -/
def bind {α β : Type} (x : HM α) (f : α → HM β) : HM β := fun h =>
  match x h with
  | (.ok a, h') => f a h'
  | (.error e, h') => (.error e, h')
instance : Monad HM where
  pure := HM.pure
  bind := HM.bind
/-- Computations that do not touch the heap. -/
def lift {α : Type} (x : PyM α) : HM α := fun h => (x, h)
/-- A new object. -/
def alloc (o : HObj) : HM Nat := fun h => (.ok h.length, h ++ [o])
/-- The contents of a list. -/
def readList (r : Nat) : HM (List Cell) := fun h =>
  match h[r]? with
  | some (.list l) => (.ok l, h)
  | _ => (.error .typeError, h)
/-- The contents of a dict. -/
def readDict (r : Nat) : HM (Dict (Nat × Nat) Nat) := fun h =>
  match h[r]? with
  | some (.dict d) => (.ok d, h)
  | _ => (.error .typeError, h)
/-- Change an object. -/
def write (r : Nat) (o : HObj) : HM Unit := fun h => (.ok (), h.set r o)
/-- `l.append(c)` -/
def append (r : Nat) (c : Cell) : HM Unit := do
  let l ← readList r
  write r (.list (l ++ [c]))
/-- `l[i]` -/
def getIdx (r : Nat) (i : Nat) : HM Cell := do
  let l ← readList r
  lift (pyGet l i)
/-- `l[i] = c` -/
def setIdx (r : Nat) (i : Nat) (c : Cell) : HM Unit := do
  let l ← readList r
  let l ← lift (pySet l i c)
  write r (.list l)
/-- `d[k] = v` -/
def setKey (r : Nat) (k : Nat × Nat) (v : Nat) : HM Unit := do
  let d ← readDict r
  write r (.dict (d.set k v))
end HM

/-- The object in a cell, for `expressify` and calls: a list is an object that cannot be
expressified. -/
def Cell.toObj : Cell → PyObj
  | .obj o => o
  | .ref _ => .other 0

/-- A `Matrix` object: matrix.py:17-22 with references to its list and its dict. -/
structure HMat where
  nrows : Nat
  ncols : Nat
  elements : Nat
  elementsGraph : Expr
  entrymap : Nat
deriving DecidableEq

namespace HMat
open HM

/-- `Matrix._new`: matrix.py:48-64.  `list(elements)` is a new list; `entrymap` is kept. -/
def mk' (nrows ncols : Nat) (elements entrymap : Nat) : HM HMat := do
  let cells ← readList elements
  let copy ← alloc (.list cells)
  let args ← lift (cells.mapM (fun c => expressify c.toObj))
  return ⟨nrows, ncols, copy, Expr.listH.call args, entrymap⟩

/-- `isinstance(c, list)`, with the contents. -/
def asList (c : Cell) : HM (Option (List Cell)) := fun h =>
  match c with
  | .obj _ => (.ok none, h)
  | .ref r =>
    match h[r]? with
    | some (.list l) => (.ok (some l), h)
    | _ => (.ok none, h)

/-- The check at matrix.py:26-29: the rows, or `none` if something is not a list. -/
def rowsOf : List Cell → HM (Option (List (List Cell)))
  | [] => return some []
  | c :: cs => do
    match ← asList c with
    | none => return none
    | some row =>
      match ← rowsOf cs with
      | none => return none
      | some rows => return some (row :: rows)

/-- The inner loop of `Matrix.__new__`: matrix.py:41-44. -/
def rowLoop (elements entrymap i : Nat) : Nat → List Expr → HM Unit
  | _, [] => return ()
  | j, entry :: rest => do
    if entry ≠ Expr.zero then
      let l ← readList elements
      setKey entrymap (i, j) l.length
      append elements (.obj (.expr entry))
    rowLoop elements entrymap i (j + 1) rest

/-- The outer loop: matrix.py:40. -/
def rowsLoop (elements entrymap : Nat) : Nat → List (List Expr) → HM Unit
  | _, [] => return ()
  | i, row :: rest => do
    rowLoop elements entrymap i 0 row
    rowsLoop elements entrymap (i + 1) rest

/-- `Matrix.__new__`: matrix.py:24-46.  The local list `entries_expr`, which is only read, is not
put on the heap. -/
def new (entries : Cell) : HM HMat := do
  match ← asList entries with
  | none => lift (.error .typeError)
  | some cells =>
    match ← rowsOf cells with
    | none => lift (.error .typeError)
    | some rows => do
      let nrows := rows.length
      let ncols := (← lift (pyGet rows 0)).length
      if ¬ rows.all (fun row => row.length = ncols) then lift (.error .typeError)
      else do
        let entriesExpr ← lift (rows.mapM (fun row => row.mapM (fun c => expressify c.toObj)))
        let elements ← alloc (.list [])
        let entrymap ← alloc (.dict Dict.empty)
        rowsLoop elements entrymap 0 entriesExpr
        mk' nrows ncols elements entrymap

/-- `Matrix.__getitem__`: matrix.py:66-77. -/
def getItem (m : HMat) (ij : PyIndex) : HM Expr :=
  match ij with
  | .pair i j =>
    if ¬ (0 ≤ i ∧ i < m.nrows ∧ 0 ≤ j ∧ j < m.ncols) then lift (.error .indexError)
    else do
      let d ← readDict m.entrymap
      match d.get? (i.toNat, j.toNat) with
      | some n => do
        let c ← getIdx m.elements n
        lift (expressify c.toObj)
      | none => return Expr.zero
  | .other => lift (.error .typeError)

/-- `[[zero] * ncols for _ in range(n)]`: matrix.py:81. -/
def zeroRows (ncols : Nat) : Nat → HM (List Cell)
  | 0 => return []
  | n + 1 => do
    let r ← alloc (.list (List.replicate ncols (.obj (.expr Expr.zero))))
    let rs ← zeroRows ncols n
    return .ref r :: rs

/-- The reference in a cell. -/
def cellRef : Cell → HM Nat
  | .ref r => return r
  | .obj _ => lift (.error .typeError)

/-- The loop of `Matrix.tolist`: matrix.py:82-83 (right-hand side before target). -/
def tolistLoop (elements entries : Nat) : List ((Nat × Nat) × Nat) → HM Unit
  | [] => return ()
  | ((i, j), n) :: rest => do
    let v ← getIdx elements n
    let row ← cellRef (← getIdx entries i)
    setIdx row j v
    tolistLoop elements entries rest

/-- `Matrix.tolist`: matrix.py:79-84; returns a reference to the outer list.  (Nothing changes the
dict during the iteration over its items.) -/
def tolist (m : HMat) : HM Nat := do
  let rows ← zeroRows m.ncols m.nrows
  let entries ← alloc (.list rows)
  let d ← readDict m.entrymap
  tolistLoop m.elements entries d.items
  return entries

/-- The loop of `Matrix.binop` over `other.entrymap.items()`: matrix.py:117-125.  The iterator
looks at the dict at every step, and complains if its size changed (`RuntimeError`, here
`user 0`); `k` is its position, `todo` the number of items left. -/
def binopLoop (newElements newEntrymap otherElements otherEntrymap : Nat) (func : Expr)
    (size : Nat) : Nat → Nat → HM Unit
  | 0, _ => return ()
  | todo + 1, k => do
    let other ← readDict otherEntrymap
    if other.items.length ≠ size then lift (.error (.user 0))
    else do
      let (ij, nOther) ← lift (pyGet other.items k)
      let d ← readDict newEntrymap
      match d.get? ij with
      | some n => do
        let selfIj ← getIdx newElements n
        let otherIj ← getIdx otherElements nOther
        let result ← lift (func.pyCall [selfIj.toObj, otherIj.toObj])
        setIdx newElements n (.obj (.expr result))
      | none => do
        let l ← readList newElements
        setKey newEntrymap ij l.length
        let c ← getIdx otherElements nOther
        append newElements c
      binopLoop newElements newEntrymap otherElements otherEntrymap func size todo (k + 1)

/-- `Matrix.binop`: matrix.py:111-126. -/
def binop (self other : HMat) (func : Expr) : HM HMat :=
  if (self.nrows, self.ncols) ≠ (other.nrows, other.ncols) then lift (.error .typeError)
  else do
    let newElements ← alloc (.list (← readList self.elements))
    let newEntrymap ← alloc (.dict (← readDict self.entrymap))
    let size := (← readDict other.entrymap).items.length
    binopLoop newElements newEntrymap other.elements other.entrymap func size size 0
    mk' self.nrows self.ncols newElements newEntrymap

/-- `Matrix.diff`: matrix.py:128-136.  The new matrix shares the dict `entrymap`. -/
def diff (self : HMat) (sym : PyObj) (p : DiffProps Val := builtinDiff) : HM HMat :=
  match sym with
  | .expr x => do
    let elementsDiff ← lift (Expr.diff self.elementsGraph x 1 p)
    let newElements ← alloc (.list ((elementsDiff.children.drop 1).map (fun e => .obj (.expr e))))
    mk' self.nrows self.ncols newElements self.entrymap
  | _ => lift (.error .typeError)

end HMat

/-- The state of a program that uses matrices: the heap, the matrices it made, and the lists it
can reach (those it made itself and those that `tolist` returned). -/
structure HState where
  heap : Heap
  mats : List HMat
  user : List Nat

/-- The program knows every list that a cell refers to. -/
def HState.Knows (s : HState) (c : Cell) : Prop := ∀ r, c = .ref r → r ∈ s.user

/-- What a program can do.  It does not change the attributes `elements` and `entrymap` of a
matrix itself. -/
inductive HStep : HState → HState → Prop
  /-- make a list -/
  | list (s : HState) (l : List Cell) : (∀ c ∈ l, s.Knows c) →
      HStep s { s with heap := s.heap ++ [.list l], user := s.heap.length :: s.user }
  /-- change a list in any way -/
  | write (s : HState) (r : Nat) (l old : List Cell) : r ∈ s.user → s.heap[r]? = some (.list old) →
      (∀ c ∈ l, s.Knows c) → HStep s { s with heap := s.heap.set r (.list l) }
  /-- take a list out of a list -/
  | read (s : HState) (r r' : Nat) (l : List Cell) : r ∈ s.user → s.heap[r]? = some (.list l) →
      .ref r' ∈ l → HStep s { s with user := r' :: s.user }
  /-- `Matrix(entries)` -/
  | new (s : HState) (c : Cell) (m : HMat) (h : Heap) : s.Knows c →
      HMat.new c s.heap = (.ok m, h) → HStep s { s with heap := h, mats := m :: s.mats }
  | newRaises (s : HState) (c : Cell) (e : PyErr) (h : Heap) : s.Knows c →
      HMat.new c s.heap = (.error e, h) → HStep s { s with heap := h }
  /-- `a.binop(b, f)`, in particular `a + b` -/
  | binop (s : HState) (a b m : HMat) (f : Expr) (h : Heap) : a ∈ s.mats → b ∈ s.mats →
      a.binop b f s.heap = (.ok m, h) → HStep s { s with heap := h, mats := m :: s.mats }
  | binopRaises (s : HState) (a b : HMat) (f : Expr) (e : PyErr) (h : Heap) : a ∈ s.mats →
      b ∈ s.mats → a.binop b f s.heap = (.error e, h) → HStep s { s with heap := h }
  /-- `a.diff(sym)` -/
  | diff (s : HState) (a m : HMat) (sym : PyObj) (p : DiffProps Val) (h : Heap) : a ∈ s.mats →
      Expr.listH ∈ p.distributive →
      a.diff sym p s.heap = (.ok m, h) → HStep s { s with heap := h, mats := m :: s.mats }
  | diffRaises (s : HState) (a : HMat) (sym : PyObj) (p : DiffProps Val) (e : PyErr) (h : Heap) :
      a ∈ s.mats → a.diff sym p s.heap = (.error e, h) → HStep s { s with heap := h }
  /-- `a.tolist()` -/
  | tolist (s : HState) (a : HMat) (r : Nat) (h : Heap) : a ∈ s.mats →
      a.tolist s.heap = (.ok r, h) → HStep s { s with heap := h, user := r :: s.user }
  | tolistRaises (s : HState) (a : HMat) (e : PyErr) (h : Heap) : a ∈ s.mats →
      a.tolist s.heap = (.error e, h) → HStep s { s with heap := h }

end Verif
