import Verif.Model.ClientRules
import Verif.Model.LLVM
import Verif.Model.Repr

/-!
# simplecas/matrix.py, lambdification.py and sympy_conversions.py as programs on objects

`Model/Matrix.lean` and the code generation of `Model/LLVM.lean` as programs of `Model/Client.lean`:
whether an entry is zero, whether a leaf is an argument and which instruction an operation becomes is
decided by the identity of objects.  Lists and dicts that hold `Expr`s are values here
(`Model/MatrixHeap.lean` has them as objects).
-/

namespace Verif.Store.Prog
variable {V : Type}

/-- The attributes of a `Matrix`: matrix.py:17-22. -/
structure MatH where
  nrows : Nat
  ncols : Nat
  elements : List Nat
  elementsGraph : Nat
  entrymap : Dict (Nat × Nat) Nat

variable (lit : Val → V)

/-- `Matrix._new`: matrix.py:48-64. -/
def matMk (c : ConstsH) (nrows ncols : Nat) (elements : List Nat) (entrymap : Dict (Nat × Nat) Nat) :
    Prog V Val MatH := do
  let g ← exprCall lit c.list (elements.map .expr)
  return ⟨nrows, ncols, elements, g, entrymap⟩

/-- The inner loop of `Matrix.__new__`: matrix.py:41-44; `entry != zero` compares objects. -/
def rowLoop (zero i : Nat) : Nat → List Nat → List Nat × Dict (Nat × Nat) Nat →
    Prog V Val (List Nat × Dict (Nat × Nat) Nat)
  | _, [], s => .ret s
  | j, entry :: rest, (elements, entrymap) =>
    .same entry zero (fun z =>
      if z then rowLoop zero i (j + 1) rest (elements, entrymap)
      else rowLoop zero i (j + 1) rest (elements ++ [entry], entrymap.set (i, j) elements.length))

/-- The outer loop: matrix.py:40. -/
def rowsLoop (zero : Nat) : Nat → List (List Nat) → List Nat × Dict (Nat × Nat) Nat →
    Prog V Val (List Nat × Dict (Nat × Nat) Nat)
  | _, [], s => .ret s
  | i, row :: rest, s => do
    let s ← rowLoop zero i 0 row s
    rowsLoop zero (i + 1) rest s

/-- `Matrix.__new__` on a list of lists: matrix.py:24-46. -/
def matNew (c : ConstsH) (rows : List (List ObjH)) : Prog V Val MatH := do
  let first ← ofPy (pyGet rows 0)
  if ¬ rows.all (fun row => row.length = first.length) then .raise .typeError
  else
    let entriesExpr ← each (each (expressify lit)) rows
    let s ← rowsLoop c.zero 0 entriesExpr ([], Dict.empty)
    matMk lit c rows.length first.length s.1 s.2

/-- `Matrix.__getitem__`: matrix.py:66-77. -/
def matGet (c : ConstsH) (m : MatH) (i j : Int) : Prog V Val Nat :=
  if ¬ (0 ≤ i ∧ i < m.nrows ∧ 0 ≤ j ∧ j < m.ncols) then .raise .indexError
  else
    match m.entrymap.get? (i.toNat, j.toNat) with
    | some n => ofPy (pyGet m.elements n)
    | none => .ret c.zero

/-- The loop of `Matrix.tolist`: matrix.py:82-83. -/
def tolistLoop (elements : List Nat) : List ((Nat × Nat) × Nat) → List (List Nat) →
    PyM (List (List Nat))
  | [], entries => .ok entries
  | ((i, j), n) :: rest, entries => do
    let v ← pyGet elements n
    let row ← pyGet entries i
    let row ← pySet row j v
    let entries ← pySet entries i row
    tolistLoop elements rest entries

/-- `Matrix.tolist`: matrix.py:79-84. -/
def matTolist (c : ConstsH) (m : MatH) : Prog V Val (List (List Nat)) :=
  ofPy (tolistLoop m.elements m.entrymap.items (List.replicate m.nrows (List.replicate m.ncols c.zero)))

/-- The loop of `Matrix.binop`: matrix.py:117-125. -/
def binopLoop (otherElements : List Nat) (func : Nat) : List ((Nat × Nat) × Nat) →
    List Nat × Dict (Nat × Nat) Nat → Prog V Val (List Nat × Dict (Nat × Nat) Nat)
  | [], s => .ret s
  | (ij, nOther) :: rest, (newElements, newEntrymap) =>
    match newEntrymap.get? ij with
    | some n => do
      let selfIj ← ofPy (pyGet newElements n)
      let otherIj ← ofPy (pyGet otherElements nOther)
      let result ← exprCall2 lit func selfIj otherIj
      let newElements ← ofPy (pySet newElements n result)
      binopLoop otherElements func rest (newElements, newEntrymap)
    | none => do
      let newEntrymap := newEntrymap.set ij newElements.length
      let e ← ofPy (pyGet otherElements nOther)
      binopLoop otherElements func rest (newElements ++ [e], newEntrymap)

/-- `Matrix.binop`: matrix.py:111-126. -/
def matBinop (c : ConstsH) (self other : MatH) (func : Nat) : Prog V Val MatH :=
  if (self.nrows, self.ncols) ≠ (other.nrows, other.ncols) then .raise .typeError
  else do
    let s ← binopLoop lit other.elements func other.entrymap.items (self.elements, self.entrymap)
    matMk lit c self.nrows self.ncols s.1 s.2

/-- `Matrix.__add__` of two matrices: matrix.py:105-109. -/
def matAdd (c : ConstsH) (self other : MatH) : Prog V Val MatH := matBinop lit c self other c.add

/-- `Matrix.diff`: matrix.py:128-136. -/
def matDiff (m : SimplecasH) (self : MatH) : ObjH → Prog V Val MatH
  | .expr x => do
    let elementsDiff ← exprDiff m.diff self.elementsGraph x 1
    let newElements ← symArgs exprCls elementsDiff
    matMk lit m.consts self.nrows self.ncols newElements self.entrymap
  | _ => .raise .typeError

/-- `Expr.__repr__`, `Expr.eval_latex`, `Expr.count_ops_tree` (simplecas/expr.py:155-161, 259-274,
356-361): a `SymEvaluator` applied to an `Expr` without values. -/
def evalPlain {T : Type} [HasNone T] (d : EvalD T) (e : Nat) : Prog V Val T := symEval d.toH e []

/-- `Matrix.__repr__`: matrix.py:99-103. -/
def matRepr (c : ConstsH) (d : EvalD String) (m : MatH) : Prog V Val String := do
  let rows ← matTolist c m
  let rowstrs ← each (fun row => do
    let ss ← each (evalPlain d) row
    return pyReprList ss) rows
  return "Matrix(" ++ pyReprList rowstrs ++ ")"

/-! ### LLVM -/

/-- `argnames`: lambdification.py:41, 157; the pairs, newest first. -/
def llvmNames (symargs : List Nat) : Prog V Val (List (Nat × String)) := do
  let ps ← each (fun s => do
    let t ← readTree s
    let n ← ofPy (treeStr t)
    return (s, quoteName n)) symargs
  return ps.reverse

/-- The loop body over `graph.atoms`: lambdification.py:44-50, 160-166. -/
def llvmAtom (symargs : List Nat) (argnames : List (Nat × String)) (a : Nat) : Prog V Val String := do
  if ← mem a symargs then getItem argnames a
  else
    let p ← atomValue a
    if p.1 = Ty.integer then ofPy (doubleToHex p.2) else .raise .llvmNotImplemented

/-- The instruction for one operation: lambdification.py:62-74, 179-191; `func == Add.rep` compares
`Tree` objects. -/
def llvmLine (c : ConstsH) (identifier : String) (func : Nat) (argids : List String) :
    Prog V Val Verif.Instr := do
  let add ← rep c.add
  if ← eq func add then return .arith identifier "fadd" argids
  else
    let mul ← rep c.mul
    if ← eq func mul then return .arith identifier "fmul" argids
    else
      let pow ← rep c.pow
      if ← eq func pow then
        let a ← ofPy (pyGet argids 0)
        let b ← ofPy (pyGet argids 1)
        return .call identifier "pow" [a, b]
      else
        let sin ← rep c.sin
        if ← eq func sin then
          let a ← ofPy (pyGet argids 0)
          return .call identifier "sin" [a]
        else
          let cos ← rep c.cos
          if ← eq func cos then
            let a ← ofPy (pyGet argids 0)
            return .call identifier "cos" [a]
          else .raise .llvmNotImplemented

/-- The loop over the operations: lambdification.py:55-76, 172-193. -/
def llvmOps (c : ConstsH) (identifiers : List String) (instructions : List Verif.Instr) :
    List (Nat × List Nat) → Prog V Val (List String × List Verif.Instr)
  | [] => .ret (identifiers, instructions)
  | (func, indices) :: rest => do
    let identifier := regName instructions.length
    let identifiers := identifiers ++ [identifier]
    let argids ← ofPy (indices.mapM (fun i => pyGet identifiers i))
    let line ← llvmLine c identifier func argids
    llvmOps c identifiers (instructions ++ [line]) rest

/-- `bin_expand(expression)` for a `Tree`: simplecas/expr.py:559-561. -/
def binExpandTree (c : ConstsH) (t : Nat) : Prog V Val Nat := do
  let add ← rep c.add
  let mul ← rep c.mul
  (binExpander add mul).call t []

/-- `_to_llvm_f64(symargs, expression)`: lambdification.py:35-82. -/
def toLlvm (c : ConstsH) (symargs : List Nat) (expression : Nat) : Prog V Val IRFunction := do
  let expression ← binExpandTree c expression
  let g ← graph expression
  let argnames ← llvmNames symargs
  let identifiers ← each (llvmAtom symargs argnames) g.atoms
  let params ← each (getItem argnames) symargs
  let r ← llvmOps c identifiers [] g.operations
  let last ← ofPy (pyLast r.1)
  return ⟨false, params, r.2 ++ [.ret last]⟩

/-- `_to_llvm_f64_matrix(symargs, mat)`: lambdification.py:151-216. -/
def toLlvmMatrix (c : ConstsH) (symargs : List Nat) (mat : MatH) : Prog V Val IRFunction := do
  let t ← rep mat.elementsGraph
  let elementsGraph ← binExpandTree c t
  let g ← graph elementsGraph
  let argnames ← llvmNames symargs
  let identifiers ← each (llvmAtom symargs argnames) g.atoms
  let params ← each (getItem argnames) symargs
  let r ← llvmOps c identifiers [] g.operations.dropLast
  let last ← ofPy (pyLast g.operations)
  let instructions ← ofPy (llvmStoreLoop mat.ncols r.1 last.2 r.2.length r.2
    (mat.entrymap.items.mergeSort entryLe))
  return ⟨true, params, instructions ++ [.retVoid]⟩

/-- The second argument of `lambdify`. -/
inductive LambdifyH where
  | expr (e : Nat)
  | matrix (m : MatH)
  | other

/-- The end of `_lambdify_llvm` and of `_lambdify_llvm_matrix`: lambdification.py:142-149, 237-251.
Simplified: each function is compiled in a process of its own (C59: what else is in the process makes no
difference). -/
def compiled {F : Type} (P : Platform F) (fn : IRFunction) (params : Nat) (f : Nat → Callable) :
    Prog V Val (Callable × Proc F) :=
  match compileLlvm P fn.text Proc.start with
  | (.error err, _) => .raise err
  | (.ok fptr, s) => if P.maxArgs < params then .raise .argumentError else .ret (f fptr, s)

/-- `lambdify(args, expression)`: lambdification.py:85-103, 138-149, 219-251. -/
def lambdify {F : Type} (P : Platform F) (c : ConstsH) (args : List Nat) (expression : LambdifyH) :
    Prog V Val (Callable × Proc F) := do
  let argsRep ← each rep args
  match expression with
  | .expr e =>
    let t ← rep e
    let fn ← toLlvm c argsRep t
    compiled P fn argsRep.length (fun fptr => .cfunc fptr argsRep.length)
  | .matrix m =>
    let fn ← toLlvmMatrix c argsRep m
    compiled P fn (argsRep.length + 1) (fun fptr => .npfunc fptr argsRep.length (m.nrows, m.ncols))
  | .other => .raise .typeError

/-! ### SymPy -/

/-- The end of `_from_sympy_cache_args`: sympy_conversions.py:107-122. -/
def fromSympyBuild (c : ConstsH) (k : SKind) (args : List Nat) : Prog V Val Nat :=
  match k with
  | .add => exprCall lit c.add (args.map .expr)
  | .mul => exprCall lit c.mul (args.map .expr)
  | .pow => exprCall lit c.pow (args.map .expr)
  | .sin => exprCall lit c.sin (args.map .expr)
  | .cos => exprCall lit c.cos (args.map .expr)
  | .tuple => exprCall lit c.list (args.map .expr)
  | .undef name => do
    let f ← newAtom exprCls Ty.function (lit (.str name))
    exprCall lit f (args.map .expr)
  | .other _ => .raise .notImplementedError

/-- The lookup and the update of the cache, whose keys are SymPy objects:
sympy_conversions.py:90-92, 101-102. -/
def withCache (cache : Dict SExpr Nat) (s : SExpr) (compute : Prog V Val (Nat × Dict SExpr Nat)) :
    Prog V Val (Nat × Dict SExpr Nat) :=
  match cache.get? s with
  | some e => .ret (e, cache)
  | none => do
    let r ← compute
    return (r.1, r.2.set s r.1)

mutual
/-- `_from_sympy_cache(expr, cache)`: sympy_conversions.py:89-102 with `_from_sympy_cache_args`:
105-122. -/
def fromSympyCache (c : ConstsH) : SExpr → Dict SExpr Nat → Prog V Val (Nat × Dict SExpr Nat)
  | .int n, cache => withCache cache (.int n) (do
      let e ← newAtom exprCls Ty.integer (lit (.int n))
      return (e, cache))
  | .sym name a, cache => withCache cache (.sym name a) (do
      let e ← newAtom exprCls Ty.symbol (lit (.str name))
      return (e, cache))
  | .cls name, cache => withCache cache (.cls name) (.raise .typeError)
  | .leaf id, cache => withCache cache (.leaf id) (.raise .notImplementedError)
  | .app k as, cache =>
    withCache cache (.app k as)
      (if as.isEmpty then .raise .notImplementedError
      else do
        let r ← fromSympyCacheList c as cache
        let e ← fromSympyBuild lit c k r.1
        return (e, r.2))
/-- `[_from_sympy_cache(arg, cache) for arg in expr.args]`: sympy_conversions.py:106. -/
def fromSympyCacheList (c : ConstsH) : List SExpr → Dict SExpr Nat →
    Prog V Val (List Nat × Dict SExpr Nat)
  | [], cache => .ret ([], cache)
  | s :: ss, cache => do
    let r ← fromSympyCache c s cache
    let r' ← fromSympyCacheList c ss r.2
    return (r.1 :: r'.1, r'.2)
end

/-- `from_sympy(expr)`: sympy_conversions.py:72-74; `Expr.from_sympy`: simplecas/expr.py:303-328. -/
def fromSympy (c : ConstsH) (s : SExpr) : Prog V Val Nat := do
  let r ← fromSympyCache lit c s Dict.empty
  return r.1

/-- `to_sympy_matrix(mat)`: sympy_conversions.py:63-69. -/
def toSympyMatrix (d : EvalD SExpr) (m : MatH) : Prog V Val SMat := do
  let g ← evalPlain d m.elementsGraph
  ofPy (toSympyMatrixLoop g.args m.entrymap.items ⟨m.nrows, m.ncols, Dict.empty⟩)

/-- `from_sympy_matrix(mat)`: sympy_conversions.py:77-86. -/
def fromSympyMatrix (L : SymPyLib) (c : ConstsH) (rows cols : Nat) (dok : List ((Nat × Nat) × SExpr)) :
    Prog V Val MatH := do
  let s := fromSympyMatrixLoop 0 dok (Dict.empty, [])
  let t ← ofPy (L.tuple s.2)
  let e ← fromSympy lit c t
  let elements ← symArgs exprCls e
  matMk lit c rows cols elements s.1

end Verif.Store.Prog
