import Verif.Model.MatrixHeap

/-!
# Model of src/protosym/simplecas/matrix.py in several threads

The functions of `Model/MatrixHeap.lean` once more, as programs whose single operations on lists and dicts
can be interleaved with those of other threads and between which an exception from outside
(`KeyboardInterrupt`) can arrive.  Lists and dicts are changed without a lock; what CPython does in one
operation (`append`, `list(l)`) is here several.
-/

namespace Verif

/-- A program that uses lists and dicts: its single operations. -/
inductive HProg (α : Type) : Type where
  | ret (a : α)
  | raise (e : PyErr)
  /-- make a list or dict -/
  | alloc (o : HObj) (k : Nat → HProg α)
  /-- look at a list or dict -/
  | look (r : Nat) (k : Option HObj → HProg α)
  /-- change a list or dict -/
  | write (r : Nat) (o : HObj) (k : Unit → HProg α)

namespace HProg
/-- Sequence. -/
def bind {α β : Type} : HProg α → (α → HProg β) → HProg β
  | .ret a, f => f a
  | .raise e, _ => .raise e
  | .alloc o k, f => .alloc o fun r => (k r).bind f
  | .look r k, f => .look r fun o => (k o).bind f
  | .write r o k, f => .write r o fun u => (k u).bind f
instance : Monad HProg where
  pure := .ret
  bind := HProg.bind
/-- Computations that use no list and no dict. -/
def lift {α : Type} : PyM α → HProg α
  | .ok a => .ret a
  | .error e => .raise e
/-- A new object. -/
def new (o : HObj) : HProg Nat := .alloc o .ret
/-- The contents of a list. -/
def readList (r : Nat) : HProg (List Cell) := .look r fun o =>
  match o with
  | some (.list l) => .ret l
  | _ => .raise .typeError
/-- The contents of a dict. -/
def readDict (r : Nat) : HProg (Dict (Nat × Nat) Nat) := .look r fun o =>
  match o with
  | some (.dict d) => .ret d
  | _ => .raise .typeError
/-- Change an object. -/
def put (r : Nat) (o : HObj) : HProg Unit := .write r o .ret
/-- `l.append(c)` -/
def append (r : Nat) (c : Cell) : HProg Unit := do
  let l ← readList r
  put r (.list (l ++ [c]))
/-- `l[i]` -/
def getIdx (r : Nat) (i : Nat) : HProg Cell := do
  let l ← readList r
  lift (pyGet l i)
/-- `l[i] = c` -/
def setIdx (r : Nat) (i : Nat) (c : Cell) : HProg Unit := do
  let l ← readList r
  let l ← lift (pySet l i c)
  put r (.list l)
/-- `d[k] = v` -/
def setKey (r : Nat) (k : Nat × Nat) (v : Nat) : HProg Unit := do
  let d ← readDict r
  put r (.dict (d.set k v))
end HProg

namespace TMat
open HProg

/-- `Matrix._new`: matrix.py:48-64. -/
def mk' (nrows ncols : Nat) (elements entrymap : Nat) : HProg HMat := do
  let cells ← readList elements
  let copy ← new (.list cells)
  let args ← lift (cells.mapM (fun c => expressify c.toObj))
  return ⟨nrows, ncols, copy, Expr.listH.call args, entrymap⟩

/-- `isinstance(c, list)`, with the contents. -/
def asList : Cell → HProg (Option (List Cell))
  | .obj _ => return none
  | .ref r => .look r fun o =>
    match o with
    | some (.list l) => .ret (some l)
    | _ => .ret none

/-- The check at matrix.py:26-29. -/
def rowsOf : List Cell → HProg (Option (List (List Cell)))
  | [] => return some []
  | c :: cs => do
    match ← asList c with
    | none => return none
    | some row =>
      match ← rowsOf cs with
      | none => return none
      | some rows => return some (row :: rows)

/-- The inner loop of `Matrix.__new__`: matrix.py:41-44. -/
def rowLoop (elements entrymap i : Nat) : Nat → List Expr → HProg Unit
  | _, [] => return ()
  | j, entry :: rest => do
    if entry ≠ Expr.zero then
      let l ← readList elements
      setKey entrymap (i, j) l.length
      append elements (.obj (.expr entry))
    rowLoop elements entrymap i (j + 1) rest

/-- The outer loop: matrix.py:40. -/
def rowsLoop (elements entrymap : Nat) : Nat → List (List Expr) → HProg Unit
  | _, [] => return ()
  | i, row :: rest => do
    rowLoop elements entrymap i 0 row
    rowsLoop elements entrymap (i + 1) rest

/-- `Matrix.__new__`: matrix.py:24-46. -/
def new (entries : Cell) : HProg HMat := do
  match ← asList entries with
  | none => lift (.error .typeError)
  | some cells =>
    match ← rowsOf cells with
    | none => lift (.error .typeError)
    | some rows => do
      let nrows := rows.length
      let ncols := (← lift (pyGet rows 0)).length
      if ¬ rows.all (fun row => row.length = ncols) then lift (.error .typeError)
      else do
        let entriesExpr ← lift (rows.mapM (fun row => row.mapM (fun c => expressify c.toObj)))
        let elements ← HProg.new (.list [])
        let entrymap ← HProg.new (.dict Dict.empty)
        rowsLoop elements entrymap 0 entriesExpr
        mk' nrows ncols elements entrymap

/-- `Matrix.__getitem__`: matrix.py:66-77. -/
def getItem (m : HMat) (ij : PyIndex) : HProg Expr :=
  match ij with
  | .pair i j =>
    if ¬ (0 ≤ i ∧ i < m.nrows ∧ 0 ≤ j ∧ j < m.ncols) then lift (.error .indexError)
    else do
      let d ← readDict m.entrymap
      match d.get? (i.toNat, j.toNat) with
      | some n => do
        let c ← getIdx m.elements n
        lift (expressify c.toObj)
      | none => return Expr.zero
  | .other => lift (.error .typeError)

/-- `[[zero] * ncols for _ in range(n)]`: matrix.py:81. -/
def zeroRows (ncols : Nat) : Nat → HProg (List Cell)
  | 0 => return []
  | n + 1 => do
    let r ← HProg.new (.list (List.replicate ncols (.obj (.expr Expr.zero))))
    let rs ← zeroRows ncols n
    return .ref r :: rs

/-- The reference in a cell. -/
def cellRef : Cell → HProg Nat
  | .ref r => return r
  | .obj _ => lift (.error .typeError)

/-- The loop of `Matrix.tolist`: matrix.py:82-83. -/
def tolistLoop (elements entries : Nat) : List ((Nat × Nat) × Nat) → HProg Unit
  | [] => return ()
  | ((i, j), n) :: rest => do
    let v ← getIdx elements n
    let row ← cellRef (← getIdx entries i)
    setIdx row j v
    tolistLoop elements entries rest

/-- `Matrix.tolist`: matrix.py:79-84. -/
def tolist (m : HMat) : HProg Nat := do
  let rows ← zeroRows m.ncols m.nrows
  let entries ← HProg.new (.list rows)
  let d ← readDict m.entrymap
  tolistLoop m.elements entries d.items
  return entries

/-- The loop of `Matrix.binop` over `other.entrymap.items()`: matrix.py:117-125. -/
def binopLoop (newElements newEntrymap otherElements otherEntrymap : Nat) (func : Expr)
    (size : Nat) : Nat → Nat → HProg Unit
  | 0, _ => return ()
  | todo + 1, k => do
    let other ← readDict otherEntrymap
    if other.items.length ≠ size then lift (.error (.user 0))
    else do
      let (ij, nOther) ← lift (pyGet other.items k)
      let d ← readDict newEntrymap
      match d.get? ij with
      | some n => do
        let selfIj ← getIdx newElements n
        let otherIj ← getIdx otherElements nOther
        let result ← lift (func.pyCall [selfIj.toObj, otherIj.toObj])
        setIdx newElements n (.obj (.expr result))
      | none => do
        let l ← readList newElements
        setKey newEntrymap ij l.length
        let c ← getIdx otherElements nOther
        append newElements c
      binopLoop newElements newEntrymap otherElements otherEntrymap func size todo (k + 1)

/-- `Matrix.binop`: matrix.py:111-126. -/
def binop (self other : HMat) (func : Expr) : HProg HMat :=
  if (self.nrows, self.ncols) ≠ (other.nrows, other.ncols) then lift (.error .typeError)
  else do
    let newElements ← HProg.new (.list (← readList self.elements))
    let newEntrymap ← HProg.new (.dict (← readDict self.entrymap))
    let size := (← readDict other.entrymap).items.length
    binopLoop newElements newEntrymap other.elements other.entrymap func size size 0
    mk' self.nrows self.ncols newElements newEntrymap

/-- `Matrix.diff`: matrix.py:128-136. -/
def diff (self : HMat) (sym : PyObj) (p : DiffProps Val := builtinDiff) : HProg HMat :=
  match sym with
  | .expr x => do
    let elementsDiff ← lift (Expr.diff self.elementsGraph x 1 p)
    let newElements ← HProg.new (.list ((elementsDiff.children.drop 1).map (fun e => .obj (.expr e))))
    mk' self.nrows self.ncols newElements self.entrymap
  | _ => lift (.error .typeError)

end TMat

/-- What a thread can do: a statement of its program. -/
inductive TStmt where
  /-- `l = [...]` -/
  | list (l : List Cell)
  /-- change one of its lists in any way -/
  | write (r : Nat) (l : List Cell)
  /-- `l[i]` for one of its lists -/
  | item (r i : Nat)
  /-- `Matrix(entries)` -/
  | new (c : Cell)
  /-- `a.binop(b, f)`, in particular `a + b` -/
  | binop (a b : HMat) (f : Expr)
  /-- `a.diff(sym)` -/
  | diff (a : HMat) (sym : PyObj) (p : DiffProps Val)
  /-- `a.tolist()` -/
  | tolist (a : HMat)
  /-- `a[i, j]` -/
  | getItem (a : HMat) (ij : PyIndex)

/-- What a statement gives. -/
inductive TOut where
  | nothing
  | cell (c : Cell)
  | mat (m : HMat)
  | expr (e : Expr)

/-- The operations of a statement, one by one. -/
def TStmt.prog : TStmt → HProg TOut
  | .list l => do return .cell (.ref (← HProg.new (.list l)))
  | .write r l => do HProg.put r (.list l); return .nothing
  | .item r i => do return .cell (← HProg.getIdx r i)
  | .new c => do return .mat (← TMat.new c)
  | .binop a b f => do return .mat (← TMat.binop a b f)
  | .diff a sym p => do return .mat (← TMat.diff a sym p)
  | .tolist a => do return .cell (.ref (← TMat.tolist a))
  | .getItem a ij => do return .expr (← TMat.getItem a ij)

/-- A thread: the lists and dicts it made, the matrices it has and the lists it can reach, and the
statement that is running with what remains of it. -/
structure MThread where
  own : List HObj
  mats : List HMat
  user : List Nat
  run : Option (TStmt × HProg TOut)

/-- The process: the lists and dicts that were there when the threads were started, and the threads.  Every
thread counts its own lists and dicts from the end of the shared ones: addresses are opaque to a program, and
no thread gets at what another one has made. -/
structure MState where
  shared : Heap
  thread : Nat → MThread

/-- The lists and dicts that thread `t` can see. -/
def MState.heap (s : MState) (t : Nat) : Heap := s.shared ++ (s.thread t).own

/-- The state with another thread `t`. -/
def MState.set (s : MState) (t : Nat) (x : MThread) : MState :=
  { s with thread := fun t' => if t' = t then x else s.thread t' }

/-- The thread can reach what a cell refers to. -/
def MThread.Knows (x : MThread) (c : Cell) : Prop := ∀ r, c = .ref r → r ∈ x.user

/-- The thread has what the statement uses. -/
def MThread.CanDo (x : MThread) : TStmt → Prop
  | .list l => ∀ c ∈ l, x.Knows c
  | .write r l => r ∈ x.user ∧ ∀ c ∈ l, x.Knows c
  | .item r _ => r ∈ x.user
  | .new c => x.Knows c
  | .binop a b _ => a ∈ x.mats ∧ b ∈ x.mats
  | .diff a _ p => a ∈ x.mats ∧ Expr.listH ∈ p.distributive
  | .tolist a => a ∈ x.mats
  | .getItem a _ => a ∈ x.mats

/-- The thread gets a result. -/
def MThread.gets (x : MThread) : TOut → MThread
  | .mat m => { x with mats := m :: x.mats, run := none }
  | .cell (.ref r) => { x with user := r :: x.user, run := none }
  | _ => { x with run := none }

/-- What can be observed: a statement of thread `t` ends. -/
inductive MEvent where
  | ends (t : Nat) (st : TStmt) (res : PyM TOut)

/-- One step of the process. -/
inductive MStep : MState → Option MEvent → MState → Prop
  /-- a statement begins -/
  | start (s : MState) (t : Nat) (st : TStmt) : (s.thread t).run = none → (s.thread t).CanDo st →
      MStep s none (s.set t { s.thread t with run := some (st, st.prog) })
  /-- a new list or dict -/
  | alloc (s : MState) (t : Nat) (st : TStmt) (o : HObj) (k : Nat → HProg TOut) :
      (s.thread t).run = some (st, .alloc o k) →
      MStep s none (s.set t { s.thread t with
        own := (s.thread t).own ++ [o], run := some (st, k (s.heap t).length) })
  /-- a look at a list or dict -/
  | look (s : MState) (t : Nat) (st : TStmt) (r : Nat) (k : Option HObj → HProg TOut) :
      (s.thread t).run = some (st, .look r k) →
      MStep s none (s.set t { s.thread t with run := some (st, k (s.heap t)[r]?) })
  /-- a change of a list or dict, a shared one or one of its own -/
  | write (s : MState) (t : Nat) (st : TStmt) (r : Nat) (o : HObj) (k : Unit → HProg TOut) :
      (s.thread t).run = some (st, .write r o k) →
      MStep s none ({ s with shared := s.shared.set r o }.set t { s.thread t with
        own := if r < s.shared.length then (s.thread t).own else (s.thread t).own.set (r - s.shared.length) o,
        run := some (st, k ()) })
  /-- the statement ends with a result -/
  | done (s : MState) (t : Nat) (st : TStmt) (out : TOut) : (s.thread t).run = some (st, .ret out) →
      MStep s (some (.ends t st (.ok out))) (s.set t ((s.thread t).gets out))
  /-- the statement raises -/
  | fails (s : MState) (t : Nat) (st : TStmt) (e : PyErr) : (s.thread t).run = some (st, .raise e) →
      MStep s (some (.ends t st (.error e))) (s.set t { s.thread t with run := none })
  /-- the statement is cut short by `KeyboardInterrupt` -/
  | interrupt (s : MState) (t : Nat) : (s.thread t).run ≠ none →
      MStep s none (s.set t { s.thread t with run := none })

end Verif
