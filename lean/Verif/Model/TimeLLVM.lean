import Verif.Model.Time
import Verif.Model.LLVM

/-!
# The generation of LLVM IR with a step counter

The prices are those of `Model/Time.lean`.  Besides, one step pays for writing one line or one operand
of the text, whatever its number of characters (a register has logarithmically many digits), for
`_double_to_hex` (it refuses integers of more than 1024 bits), and for `str` of one parameter (a
symbol).  `a in symargs` looks through a *list*: one step for each element it compares.  `sorted` takes
`n` steps for each of the `log2 n + 1` levels of merging.
-/

namespace Verif
open Timed

/-- The loop over `graph.atoms` (lambdification.py:43-50, 159-166), as `llvmAtom`, with its price: the
turn, and `a in symargs`, which compares `a` with the parameters up to the first that is `a`. -/
def timedAtoms (symargs : List Expr) (argnames : Dict Expr String) :
    List Expr → Timed (List String)
  | [] => return []
  | a :: rest => do
    tick 1
    tick (symargs.takeWhile (fun s => s ≠ a)).length
    let identifier ← free (llvmAtom symargs argnames a)
    let identifiers ← timedAtoms symargs argnames rest
    return identifier :: identifiers

/-- The loop over the operations (lambdification.py:55-76, 172-193): the turn, the comprehension
`argids` and its operands in the line. -/
def timedLlvmOps (identifiers : List String) (instructions : List Instr) :
    List (Expr × List Nat) → Timed (List String × List Instr)
  | [] => return (identifiers, instructions)
  | (func, indices) :: rest => do
    tick 1
    let identifier := regName instructions.length
    let identifiers := identifiers ++ [identifier]
    tick indices.length
    let argids ← free (indices.mapM (fun i => pyGet identifiers i))
    tick (1 + argids.length)
    let line ← free (llvmLine identifier func argids)
    timedLlvmOps identifiers (instructions ++ [line]) rest

/-- `_to_llvm_f64` (lambdification.py:35-82): `argnames` and the signature cost a step for each
parameter, joining the lines one for each line. -/
def timedToLlvm (symargs : List Expr) (expression : Expr) : Timed IRFunction := do
  let expression ← timedBinExpand expression
  let graph ← timedGraph expression
  tick symargs.length
  let argnames ← free (llvmArgnames symargs)
  let identifiers ← timedAtoms symargs argnames graph.atoms
  tick symargs.length
  let params ← free (symargs.mapM argnames.getItem)
  let (identifiers, instructions) ← timedLlvmOps identifiers [] graph.operations
  let last ← free (pyLast identifiers)
  tick (1 + instructions.length)
  return ⟨false, params, instructions ++ [.ret last]⟩

/-- The loop over the sorted entries (lambdification.py:202-210): a turn and two lines. -/
def timedStores (ncols : Nat) (identifiers : List String) (indices : List Nat) :
    Nat → List Instr → List ((Nat × Nat) × Nat) → Timed (List Instr)
  | _, instructions, [] => return instructions
  | count, instructions, ((i, j), n) :: rest => do
    tick 1
    let rawIndex := i * ncols + j
    let k ← free (pyGet indices n)
    let value ← free (pyGet identifiers k)
    tick 2
    let ptr := regName count
    timedStores ncols identifiers indices (count + 1)
      (instructions ++ [.gep ptr outName rawIndex, .store value ptr]) rest

/-- `_to_llvm_f64_matrix` (lambdification.py:151-216); `graph.operations[:-1]` costs a step for each
operation. -/
def timedToLlvmMatrix (symargs : List Expr) (mat : Mat) : Timed IRFunction := do
  let elementsGraph ← timedBinExpand mat.elementsGraph
  let graph ← timedGraph elementsGraph
  tick symargs.length
  let argnames ← free (llvmArgnames symargs)
  let identifiers ← timedAtoms symargs argnames graph.atoms
  tick symargs.length
  let params ← free (symargs.mapM argnames.getItem)
  tick graph.operations.length
  let (identifiers, instructions) ← timedLlvmOps identifiers [] graph.operations.dropLast
  let (_, indices) ← free (pyLast graph.operations)
  tick (mat.entrymap.items.length * (mat.entrymap.items.length.log2 + 1))
  let instructions ← timedStores mat.ncols identifiers indices instructions.length instructions
    (mat.entrymap.items.mergeSort entryLe)
  tick (1 + instructions.length)
  return ⟨true, params, instructions ++ [.retVoid]⟩

/-- `Matrix._new` (matrix.py:48-64): the copy of the list and `List(*elements)`. -/
def timedMatMk (nrows ncols : Nat) (elements : List Expr) (entrymap : Dict (Nat × Nat) Nat) :
    Timed Mat := do
  tick elements.length
  tick (1 + (elements.length + 1))
  return Mat.mk' nrows ncols elements entrymap

/-- `Matrix.diff` (matrix.py:128-136) for an expression: the derivative of the list of elements, its
arguments (a slice, and an `Expr` for each), a list of them and `_new`. -/
def timedMatDiff (self : Mat) (x : Expr) (p : DiffProps Val) : Timed Mat := do
  let elementsDiff ← timedDiff self.elementsGraph x p
  let args := elementsDiff.children.drop 1
  tick args.length
  tick args.length
  tick args.length
  timedMatMk self.nrows self.ncols args self.entrymap

/-- The loop of `Matrix.binop` (matrix.py:117-125): a turn, and `func(self_ij, other_ij)`. -/
def timedBinopLoop (otherElements : List Expr) (func : Expr) : List ((Nat × Nat) × Nat) →
    List Expr × Dict (Nat × Nat) Nat → Timed (List Expr × Dict (Nat × Nat) Nat)
  | [], s => return s
  | (ij, nOther) :: rest, (newElements, newEntrymap) => do
    tick 1
    match newEntrymap.get? ij with
    | some n => do
      let selfIj ← free (pyGet newElements n)
      let otherIj ← free (pyGet otherElements nOther)
      tick (1 + 3)
      let result := func.call [selfIj, otherIj]
      let newElements ← free (pySet newElements n result)
      timedBinopLoop otherElements func rest (newElements, newEntrymap)
    | none => do
      let newEntrymap := newEntrymap.set ij newElements.length
      let e ← free (pyGet otherElements nOther)
      timedBinopLoop otherElements func rest (newElements ++ [e], newEntrymap)

/-- `Matrix.binop` (matrix.py:111-126): copies of the list and the dictionary, the loop, `_new`. -/
def timedBinop (self other : Mat) (func : Expr) : Timed Mat :=
  if (self.nrows, self.ncols) ≠ (other.nrows, other.ncols) then throw PyErr.typeError
  else do
    tick self.elements.length
    tick self.entrymap.items.length
    let (newElements, newEntrymap) ←
      timedBinopLoop other.elements func other.entrymap.items (self.elements, self.entrymap)
    timedMatMk self.nrows self.ncols newElements newEntrymap

end Verif
