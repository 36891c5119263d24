import Verif.Model.Matrix
import Verif.Model.Functions

/-!
# Model of src/protosym/simplecas/lambdification.py: generation of LLVM IR

Instructions are data whose operands are the very strings the code puts into the text;
`Instr.text` and `IRFunction.text` give the text itself.  `Spec/LLVM.lean` gives the
meaning of the instructions, `Model/Compile.lean` models `_compile_llvm` and the calls.
-/

namespace Verif

/-! ### `_double_to_hex` -/

/-- The IEEE-754 binary64 bits (without sign) of a natural number, rounded to nearest, ties to
even, as CPython's `int.__float__` does; `none` if the result does not fit (CPython raises
`OverflowError`).  A carry out of the significand increments the exponent field. -/
def magnitudeBits (n : Nat) : Option Nat :=
  if n = 0 then some 0
  else
    let e := n.log2
    let significand :=
      if e ≤ 52 then n * 2 ^ (52 - e)
      else
        let s := e - 52
        let q := n / 2 ^ s
        let r := n % 2 ^ s
        if 2 * r > 2 ^ s ∨ (2 * r = 2 ^ s ∧ q % 2 = 1) then q + 1 else q
    let bits := (e + 1022) * 2 ^ 52 + significand
    if bits < 2047 * 2 ^ 52 then some bits else none

/-- The bits of `float(n)` as a 64-bit number. -/
def doubleBits (n : Int) : Option Nat :=
  if n < 0 then (magnitudeBits n.natAbs).map (fun b => 2 ^ 63 + b) else magnitudeBits n.natAbs

/-- `hex(b)` for a non-negative int. -/
def pyHex (b : Nat) : String := "0x" ++ String.ofList (Nat.toDigits 16 b)

/-- `_double_to_hex(value)`: lambdification.py:19-20.  `struct.pack` turns every failure to
convert to a float (an int that is too large, a str) into `struct.error`. -/
def doubleToHex : Val → PyM String
  | .int n =>
    match doubleBits n with
    | some b => .ok (pyHex b)
    | none => .error .structError
  | .str _ => .error .structError

/-! ### The generated code -/

/-- An instruction of the generated function body: lambdification.py:62-78 and 179-212. -/
inductive Instr where
  /-- `{dst} = {op} double {operands}` with `op` either `fadd` or `fmul` -/
  | arith (dst op : String) (operands : List String)
  /-- `{dst} = call double @llvm.{fn}.f64(double …)` -/
  | call (dst fn : String) (args : List String)
  /-- `{dst} = getelementptr double, double* {base}, i32 {index}` -/
  | gep (dst base : String) (index : Nat)
  /-- `store double {value}, double* {ptr}` -/
  | store (value ptr : String)
  /-- `ret double {value}` -/
  | ret (value : String)
  /-- `ret void` -/
  | retVoid
deriving DecidableEq, Repr

/-- The line of text: lambdification.py:62-78, 179-193, 207-212. -/
def Instr.text : Instr → String
  | .arith dst op operands =>
    dst ++ " = " ++ op ++ " double " ++ String.intercalate ", " operands
  | .call dst fn args =>
    dst ++ " = call double @llvm." ++ fn ++ ".f64(" ++
      String.intercalate ", " (args.map ("double " ++ ·)) ++ ")"
  | .gep dst base index =>
    dst ++ " = getelementptr double, double* " ++ base ++ ", i32 " ++ toString index
  | .store value ptr => "store double " ++ value ++ ", double* " ++ ptr
  | .ret value => "ret double " ++ value
  | .retVoid => "ret void"

/-- A generated function: whether it has the leading parameter `double* %"_out"`, its `double`
parameters, and its body. -/
structure IRFunction where
  out : Bool
  params : List String
  body : List Instr
deriving DecidableEq, Repr

/-- `%"_out"` -/
def outName : String := "%\"_out\""

/-- The signature line: lambdification.py:52-53, 168-170. -/
def IRFunction.signature (fn : IRFunction) : String :=
  let args := (if fn.out then ["double* " ++ outName] else []) ++ fn.params.map ("double " ++ ·)
  "define " ++ (if fn.out then "void" else "double") ++ " @\"jit_func1\"(" ++
    String.intercalate ", " args ++ ")"

/-- `_llvm_header`: lambdification.py:23-32. -/
def llvmHeader : String :=
  "\n; ModuleID = \"mod1\"\ntarget triple = \"unknown-unknown-unknown\"\n" ++
  "target datalayout = \"\"\n\n" ++
  "declare double    @llvm.pow.f64(double %Val1, double %Val2)\n" ++
  "declare double    @llvm.sin.f64(double %Val)\n" ++
  "declare double    @llvm.cos.f64(double %Val)\n\n"

/-- The text of the module: lambdification.py:80-82, 214-216. -/
def IRFunction.text (fn : IRFunction) : String :=
  llvmHeader ++
    String.intercalate "\n" ([fn.signature, "{"] ++ fn.body.map Instr.text ++ ["}"])

/-- `f'%"{s}"'` -/
def quoteName (s : String) : String := "%\"" ++ s ++ "\""

/-- `f'%".{n}"'`: lambdification.py:57-58, 174-175, 205. -/
def regName (n : Nat) : String := quoteName ("." ++ toString n)

/-- `argnames`: lambdification.py:41, 157. -/
def llvmArgnames (symargs : List Expr) : PyM (Dict Expr String) := do
  let pairs ← symargs.mapM (fun s => do return (s, quoteName (← treeStr s)))
  return Dict.ofPairs pairs

/-- The loop body over `graph.atoms`: lambdification.py:44-50, 160-166.  `a.value` raises
`AttributeError` for the degenerate `Tree()`. -/
def llvmAtom (symargs : List Expr) (argnames : Dict Expr String) (a : Expr) : PyM String :=
  if a ∈ symargs then argnames.getItem a
  else
    match a with
    | .atom at' =>
      if at'.atomType = Ty.integer then doubleToHex at'.value else .error .llvmNotImplemented
    | .node _ => .error .attributeError

/-- The instruction for one operation: lambdification.py:62-74, 179-191. -/
def llvmLine (identifier : String) (func : Expr) (argids : List String) : PyM Instr :=
  if func = Expr.addH then .ok (.arith identifier "fadd" argids)
  else if func = Expr.mulH then .ok (.arith identifier "fmul" argids)
  else if func = Expr.powH then do
    let a ← pyGet argids 0
    let b ← pyGet argids 1
    return .call identifier "pow" [a, b]
  else if func = Expr.sinH then do
    let a ← pyGet argids 0
    return .call identifier "sin" [a]
  else if func = Expr.cosH then do
    let a ← pyGet argids 0
    return .call identifier "cos" [a]
  else .error .llvmNotImplemented

/-- The loop over the operations: lambdification.py:55-76, 172-193. -/
def llvmOpsLoop (identifiers : List String) (instructions : List Instr) :
    List (Expr × List Nat) → PyM (List String × List Instr)
  | [] => .ok (identifiers, instructions)
  | (func, indices) :: rest => do
    let identifier := regName instructions.length
    let identifiers := identifiers ++ [identifier]
    let argids ← indices.mapM (fun i => pyGet identifiers i)
    let line ← llvmLine identifier func argids
    llvmOpsLoop identifiers (instructions ++ [line]) rest

/-- `_to_llvm_f64(symargs, expression)`: lambdification.py:35-82; `Expr.to_llvm_ir` (expr.py:482-507)
returns its text. -/
def toLlvm (symargs : List Expr) (expression : Expr) : PyM IRFunction := do
  let expression ← binExpand expression
  let graph ← forwardGraph expression
  let argnames ← llvmArgnames symargs
  let identifiers ← graph.atoms.mapM (llvmAtom symargs argnames)
  let params ← symargs.mapM argnames.getItem
  let (identifiers, instructions) ← llvmOpsLoop identifiers [] graph.operations
  let last ← pyLast identifiers
  return ⟨false, params, instructions ++ [.ret last]⟩

/-- The order of the tuples `((i, j), n)`. -/
def entryLe (a b : (Nat × Nat) × Nat) : Bool :=
  a.1.1 < b.1.1 ∨ (a.1.1 = b.1.1 ∧ (a.1.2 < b.1.2 ∨ (a.1.2 = b.1.2 ∧ a.2 ≤ b.2)))

/-- The loop over the sorted entries: lambdification.py:202-210. -/
def llvmStoreLoop (ncols : Nat) (identifiers : List String) (indices : List Nat) :
    Nat → List Instr → List ((Nat × Nat) × Nat) → PyM (List Instr)
  | _, instructions, [] => .ok instructions
  | count, instructions, ((i, j), n) :: rest => do
    let rawIndex := i * ncols + j
    let k ← pyGet indices n
    let value ← pyGet identifiers k
    let ptr := regName count
    llvmStoreLoop ncols identifiers indices (count + 1)
      (instructions ++ [.gep ptr outName rawIndex, .store value ptr]) rest

/-- `_to_llvm_f64_matrix(symargs, mat)`: lambdification.py:151-216; `Matrix.to_llvm_ir`
(matrix.py:138-171) returns its text. -/
def toLlvmMatrix (symargs : List Expr) (mat : Mat) : PyM IRFunction := do
  let elementsGraph ← binExpand mat.elementsGraph
  let graph ← forwardGraph elementsGraph
  let argnames ← llvmArgnames symargs
  let identifiers ← graph.atoms.mapM (llvmAtom symargs argnames)
  let params ← symargs.mapM argnames.getItem
  let (identifiers, instructions) ← llvmOpsLoop identifiers [] graph.operations.dropLast
  let (_, indices) ← pyLast graph.operations
  let instructions ← llvmStoreLoop mat.ncols identifiers indices instructions.length instructions
    (mat.entrymap.items.mergeSort entryLe)
  return ⟨true, params, instructions ++ [.retVoid]⟩

/-- The second argument of `lambdify`. -/
inductive LambdifyArg where
  | expr (e : Expr)
  | matrix (m : Mat)
  | other

/-- `arg.rep`: raises `AttributeError` for what is not an `Expr`. -/
def PyObj.rep : PyObj → PyM Expr
  | .expr e => .ok e
  | _ => .error .attributeError

/-- The code that `lambdify` compiles: lambdification.py:85-103, 140, 235. -/
def lambdifyCode (args : List PyObj) (expression : LambdifyArg) : PyM IRFunction := do
  let argsRep ← args.mapM PyObj.rep
  match expression with
  | .expr e => toLlvm argsRep e
  | .matrix m => toLlvmMatrix argsRep m
  | .other => .error .typeError

end Verif
