import Verif.Model.Frames

/-!
# Matrices, `lambdify`, SymPy and the assignment of rules with Python's recursion limit

The continuation of `Model/Frames.lean`.  Simplification: the modules that a function imports when it is
called have been imported before, so that the `import` statement takes no frame.
-/

namespace Verif
open Framed

/-! ### Attributes of `Sym` -/

/-- `cls(child) for child in …` (sym.py:169). -/
def framedSyms (c : FrameUse) : List Expr → Framed (List Expr)
  | [] => return []
  | t :: ts => do
    let e ← framedSym c t
    let es ← framedSyms c ts
    return e :: es

/-- The property `Sym.args` (sym.py:165-169): a method with a generator expression. -/
def framedArgs (c : FrameUse) (e : Expr) : Framed (List Expr) :=
  frame (frame (framedSyms c (e.children.drop 1)))

/-- The property `Sym.head` (sym.py:160-163). -/
def framedHead (c : FrameUse) (e : Expr) : Framed Expr := frame do
  let h ← here (pyGet e.children 0)
  framedSym c h

/-! ### Matrices -/

/-- `Matrix._new` (matrix.py:48-64): `List(*elements)`. -/
def framedMatMake (c : FrameUse) (nrows ncols : Nat) (elements : List Expr)
    (entrymap : Dict (Nat × Nat) Nat) : Framed Mat := frame do
  let g ← framedExprCall c Expr.listH (elements.map .expr)
  return ⟨nrows, ncols, elements, g, entrymap⟩

/-- The comprehensions at matrix.py:36. -/
def framedExpressifyRows (c : FrameUse) : List (List PyObj) → Framed (List (List Expr))
  | [] => return []
  | row :: rows => do
    let es ← frames c.comp (framedExpressifyAll c row)
    let ess ← framedExpressifyRows c rows
    return es :: ess

/-- `Matrix.__new__` (matrix.py:24-46): two generator expressions for `all`. -/
def framedMatNew (c : FrameUse) (entries : PyEntries) : Framed Mat := frame <|
  match entries with
  | .other => throw .typeError
  | .list rows => do
    outside 1
    match rows.mapM PyRow.asList with
    | none => throw .typeError
    | some rows => do
      let row ← here (pyGet rows 0)
      outside 1
      if ¬ rows.all (fun r => r.length = row.length) then throw .typeError
      else do
        let entriesExpr ← frames c.comp (framedExpressifyRows c rows)
        let s := Mat.rowsLoop 0 entriesExpr ([], Dict.empty)
        framedMatMake c rows.length row.length s.1 s.2

/-- `Matrix.__getitem__` (matrix.py:66-77). -/
def framedMatGetItem (m : Mat) (ij : PyIndex) : Framed Expr := frame (here (m.getItem ij))

/-- `Matrix.tolist` (matrix.py:79-84). -/
def framedMatTolist (c : FrameUse) (m : Mat) : Framed (List (List Expr)) := frame do
  outside c.comp
  here m.tolist

/-- The loop of `Matrix.binop` (matrix.py:117-125): `func(self_ij, other_ij)`. -/
def framedBinopLoop (c : FrameUse) (otherElements : List Expr) (func : Expr) :
    List ((Nat × Nat) × Nat) → List Expr × Dict (Nat × Nat) Nat →
    Framed (List Expr × Dict (Nat × Nat) Nat)
  | [], s => return s
  | (ij, nOther) :: rest, (newElements, newEntrymap) =>
    match newEntrymap.get? ij with
    | some n => do
      let selfIj ← here (pyGet newElements n)
      let otherIj ← here (pyGet otherElements nOther)
      let result ← framedExprCall c func [.expr selfIj, .expr otherIj]
      let newElements ← here (pySet newElements n result)
      framedBinopLoop c otherElements func rest (newElements, newEntrymap)
    | none => do
      let e ← here (pyGet otherElements nOther)
      framedBinopLoop c otherElements func rest
        (newElements ++ [e], newEntrymap.set ij newElements.length)

/-- `Matrix.binop` (matrix.py:111-126). -/
def framedMatBinop (c : FrameUse) (self other : Mat) (func : Expr) : Framed Mat := frame do
  if (self.nrows, self.ncols) ≠ (other.nrows, other.ncols) then throw .typeError
  else do
    let s ← framedBinopLoop c other.elements func other.entrymap.items (self.elements, self.entrymap)
    framedMatMake c self.nrows self.ncols s.1 s.2

/-- `Matrix.__add__` (matrix.py:105-109). -/
def framedMatAdd (c : FrameUse) (self other : Mat) : Framed Mat :=
  frame (framedMatBinop c self other Expr.addH)

/-- `Matrix.diff` (matrix.py:128-136). -/
def framedMatDiff (c : FrameUse) (p : DiffProps Val) (self : Mat) (sym : PyObj) : Framed Mat := frame <|
  match sym with
  | .expr x => do
    let elementsDiff ← framedExprDiff c p self.elementsGraph x 1
    let newElements ← framedArgs c elementsDiff
    framedMatMake c self.nrows self.ncols newElements self.entrymap
  | _ => throw .typeError

/-- `repr` of the elements of a list. -/
def framedReprs (c : FrameUse) : List Expr → Framed (List String)
  | [] => return []
  | e :: es => do
    let s ← framedExprRepr c e
    let ss ← framedReprs c es
    return s :: ss

/-- `repr` of the rows, which are lists. -/
def framedReprRows (c : FrameUse) : List (List Expr) → Framed (List String)
  | [] => return []
  | row :: rows => do
    let ss ← frames c.slot (framedReprs c row)
    let sss ← framedReprRows c rows
    return pyReprList ss :: sss

/-- `repr(M)`: `Matrix.__repr__` (matrix.py:99-103), called from C. -/
def framedMatRepr (c : FrameUse) (m : Mat) : Framed String := frames c.slot <| frame do
  let rows ← framedMatTolist c m
  let rowstrs ← frames c.slot (framedReprRows c rows)
  return "Matrix(" ++ pyReprList rowstrs ++ ")"

/-! ### Code generation -/

/-- `_to_llvm_f64_matrix` (lambdification.py:151-216). -/
def framedLlvmMatrixCode (c : FrameUse) (printable : Char → Bool) (symargs : List Expr) (mat : Mat) :
    Framed IRFunction := frame do
  let elementsGraph ← framedBinExpandTree c mat.elementsGraph
  let graph ← framedGraph c elementsGraph
  let pairs ← frames c.comp (framedLlvmArgnames c symargs)
  let argnames := Dict.ofPairs pairs
  let identifiers ← framedLlvmAtoms c printable symargs argnames graph.atoms
  let params ← frames c.comp (here (symargs.mapM argnames.getItem))
  let (identifiers, instructions) ← framedLlvmOps c printable identifiers [] graph.operations.dropLast
  let (_, indices) ← here (pyLast graph.operations)
  let instructions ← here (llvmStoreLoop mat.ncols identifiers indices instructions.length instructions
    (mat.entrymap.items.mergeSort entryLe))
  return ⟨true, params, instructions ++ [.retVoid]⟩

/-- `Matrix.to_llvm_ir(symargs)` (matrix.py:138-171). -/
def framedMatToLlvm (c : FrameUse) (printable : Char → Bool) (symargs : List Expr) (mat : Mat) :
    Framed IRFunction := frame do
  outside c.comp
  framedLlvmMatrixCode c printable symargs mat

/-- `lambdify(args, expression)` up to the compiled code (lambdification.py:85-148, 219-251);
`llvmlite`, `ctypes` and NumPy take at most `lib` frames. -/
def framedLambdify (c : FrameUse) (printable : Char → Bool) (lib : Nat) (args : List PyObj)
    (expression : LambdifyArg) : Framed IRFunction := frame do
  let argsRep ← frames c.comp (here (args.mapM PyObj.rep))
  match expression with
  | .expr e => frame do
    let code ← framedLlvmCode c printable argsRep e
    frame (outside lib)
    outside lib
    return code
  | .matrix m => frame do
    let code ← framedLlvmMatrixCode c printable argsRep m
    frame (outside lib)
    outside lib
    return code
  | .other => throw .typeError

/-! ### SymPy -/

/-- `sympy_undef_call` (sympy_conversions.py:42-44). -/
def framedUndefCall (c : FrameUse) (lib : Nat) (L : SymPyLib) (head : Expr) (args : List SExpr) :
    Framed SExpr := frame do
  let name ← framedStr c head
  frames lib (here (L.undef name args))

/-- `to_sympy(expr)` (sympy_conversions.py:58-60); the rules are functions of SymPy, which take at most
`lib` frames, or lambdas that call them. -/
def framedToSympyFunction (c : FrameUse) (printable : Char → Bool) (lib : Nat) (L : SymPyLib)
    (e : Expr) : Framed SExpr :=
  framedSymEval c (framedRules (1 + lib) (evalToSympy L) (framedUndefCall c lib L)
    (framedAtomError c printable)) e none

/-- `Expr.to_sympy` (simplecas/expr.py:276-300). -/
def framedToSympy (c : FrameUse) (printable : Char → Bool) (lib : Nat) (L : SymPyLib) (e : Expr) :
    Framed SExpr :=
  frame (framedToSympyFunction c printable lib L e)

/-- The loop of `to_sympy_matrix` (sympy_conversions.py:67-68). -/
def framedToSympyMatrixLoop (lib : Nat) (elements : List SExpr) :
    List ((Nat × Nat) × Nat) → SMat → Framed SMat
  | [], m => return m
  | (ij, n) :: rest, m => do
    let v ← here (pyGet elements n)
    let m ← frames lib (here (m.setItem ij v))
    framedToSympyMatrixLoop lib elements rest m

/-- `Matrix.to_sympy` and `to_sympy_matrix(mat)` (matrix.py:86-90, sympy_conversions.py:63-69). -/
def framedMatToSympy (c : FrameUse) (printable : Char → Bool) (lib : Nat) (L : SymPyLib) (mat : Mat) :
    Framed SMat := frame <| frame do
  let g ← framedToSympyFunction c printable lib L mat.elementsGraph
  outside lib
  framedToSympyMatrixLoop lib g.args mat.entrymap.items ⟨mat.nrows, mat.ncols, Dict.empty⟩

/-- `Matrix.from_sympy` and `from_sympy_matrix(mat)` (matrix.py:92-97, sympy_conversions.py:77-86). -/
def framedMatFromSympy (c : FrameUse) (lib : Nat) (L : SymPyLib) (rows cols : Nat)
    (dok : List ((Nat × Nat) × SExpr)) : Framed Mat := frame <| frame do
  outside lib
  let s := fromSympyMatrixLoop 0 dok (Dict.empty, [])
  let t ← frames lib (here (L.tuple s.2))
  let r ← frame (framedFromSympyCache c t Dict.empty)
  let elements ← framedArgs c r.1
  framedMatMake c rows cols elements s.1

/-! ### Assignment of rules -/

/-- `SymDifferentiator.__setitem__` and `DiffProperties.add_diff_rule` (sym.py:643-661,
differentiate.py:42-44). -/
def framedSetDiffRule (c : FrameUse) (p : DiffProps Val) (expr sym dexpr : Expr) :
    Framed (DiffProps Val) := frame do
  let head ← here (pyGet expr.children 0)
  let argsLhs := expr.children.drop 1
  if argsLhs.count sym ≠ 1 then throw .typeError
  else do
    let rhsfunc ← framedSubsNew c dexpr argsLhs
    frame (ret (p.addDiffRule head (argsLhs.idxOf sym) rhsfunc))

/-- `SymDifferentiator.add_distributive_rule` and `DiffProperties.add_distributive` (sym.py:636-641,
differentiate.py:38-40). -/
def framedAddDistributive (p : DiffProps Val) (head : Expr) : Framed (DiffProps Val) :=
  frame (frame (ret (p.addDistributive head)))

section Assign
variable {T : Type}

/-- The `args` attribute of each kind of pattern: a property for an expression (sym.py:165-169), a slot
for the others (sym.py:71, 409, 427). -/
def framedPatternArgs (c : FrameUse) : Pattern → Framed (List Expr)
  | .sym e => framedArgs c e
  | p => ret p.args

/-- `star(wild)` (sym.py:437-439). -/
def framedStar (c : FrameUse) (wild : Expr) : Framed Expr := frame do
  let t ← framedCall c Expr.starH [wild]
  framedSym c t

/-- The signature check of `SymEvaluator.__setitem__` (sym.py:550-555). -/
def framedCheck (c : FrameUse) (pattern : Pattern) (call : WildCall T) : Framed Unit :=
  match call.op with
  | .opN _ =>
    match call.args with
    | [callarg] => do
      let args ← framedPatternArgs c pattern
      let s ← framedStar c callarg
      if args ≠ [s] then throw .badRule else return ()
    | _ => throw .valueError
  | _ => do
    let args ← framedPatternArgs c pattern
    if args ≠ call.args then throw .badRule else return ()

/-- `SymEvaluator.add_op` (sym.py:577-590). -/
def framedAddOp (ev : Evaluator PyM Val T) (head : Expr) (op : PyFn T) : Framed (Evaluator PyM Val T) :=
  frame <|
    match op with
    | .op1 f => frame (ret (ev.addOp1 head f))
    | .op2 f => frame (ret (ev.addOp2 head f))
    | .opN f => frame (ret (ev.addOpN head f))
    | _ => throw .badRule

/-- `SymEvaluator.__setitem__` (sym.py:529-575): the evaluator with the rule. -/
def framedAssign (c : FrameUse) (ev : Evaluator PyM Val T) (pattern : Pattern)
    (call : Option (WildCall T)) : Framed (Evaluator PyM Val T) := frame <|
  match call with
  | none => throw .badRule
  | some call => do
    framedCheck c pattern call
    match pattern with
    | .atomRule _ =>
      match call.op with
      | .atomFunc f => frame (ret (ev.addAtomGeneric f))
      | _ => throw .badRule
    | .headRule _ _ =>
      match call.op with
      | .headOp f => frame (ret (ev.addOpGeneric f))
      | _ => throw .badRule
    | .atomValue ty _ =>
      match call.op with
      | .func1 f => frame (ret (ev.addAtom ty f))
      | _ => throw .badRule
    | .sym e =>
      match call.op with
      | .op1 _ | .op2 _ | .opN _ => do
        let head ← framedHead c e
        framedAddOp ev head call.op
      | _ => throw .badRule

end Assign

end Verif
