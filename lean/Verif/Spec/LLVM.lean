import Verif.Model.LLVM
import Verif.Spec.Double
import Verif.Spec.Eval
import Verif.Spec.Matrix

/-!
# The meaning of the generated LLVM IR

A small-step machine for the instructions that the code generator emits, the rules LLVM's
verifier checks on a straight-line function body, and the value an expression should have.
-/

namespace Verif.Spec

/-! ### Static rules -/

/-- A string that can stand between the quotes of a local name `%"…"` and means itself: not
empty, no quote, no backslash (LLVM reads `\xx` as an escape), no NUL. -/
def SafeName (s : String) : Prop :=
  s ≠ "" ∧ ∀ c ∈ s.toList, c ≠ '"' ∧ c ≠ '\\' ∧ c.toNat ≠ 0

/-- A well-formed quoted local name. -/
def LocalName (r : String) : Prop := ∃ s, SafeName s ∧ r = "%\"" ++ s ++ "\""

/-- The register an instruction defines. -/
def Instr.defs : Instr → Option String
  | .arith dst _ _ => some dst
  | .call dst _ _ => some dst
  | .gep dst _ _ => some dst
  | _ => none

/-- The operands an instruction uses: registers or constants. -/
def Instr.uses : Instr → List String
  | .arith _ _ operands => operands
  | .call _ _ args => args
  | .gep _ base _ => [base]
  | .store value ptr => [value, ptr]
  | .ret value => [value]
  | .retVoid => []

/-- `fadd` and `fmul` take two operands; `llvm.pow.f64` two and `llvm.sin.f64`, `llvm.cos.f64`
one, as declared. -/
def Instr.ArityOK : Instr → Prop
  | .arith _ op operands => (op = "fadd" ∨ op = "fmul") ∧ operands.length = 2
  | .call _ fn args =>
    (fn = "pow" ∧ args.length = 2) ∨ ((fn = "sin" ∨ fn = "cos") ∧ args.length = 1)
  | _ => True

/-- Is it a terminator? -/
def Instr.IsRet : Instr → Prop
  | .ret _ => True
  | .retVoid => True
  | _ => False

/-- A 64-bit hexadecimal constant. -/
def IsConst (s : String) : Prop := ∃ b, hexValue s = some b ∧ b < 2 ^ 64

/-- The registers defined by the parameters. -/
def IRFunction.registers (fn : IRFunction) : List String :=
  (if fn.out then [outName] else []) ++ fn.params

/-- Static single assignment and the other rules of the verifier for one basic block. -/
structure SSA (fn : IRFunction) : Prop where
  /-- every register is defined once -/
  once : (IRFunction.registers fn ++ fn.body.filterMap Instr.defs).Nodup
  /-- a use is a constant, a parameter or a register defined by an earlier instruction -/
  uses : ∀ pre i post, fn.body = pre ++ i :: post → ∀ u ∈ Instr.uses i,
    IsConst u ∨ u ∈ IRFunction.registers fn ∨ u ∈ pre.filterMap Instr.defs
  names : ∀ r ∈ IRFunction.registers fn ++ fn.body.filterMap Instr.defs, LocalName r
  arity : ∀ i ∈ fn.body, Instr.ArityOK i
  /-- one terminator, at the end -/
  terminated : ∃ pre t, fn.body = pre ++ [t] ∧ Instr.IsRet t ∧ ∀ i ∈ pre, ¬ Instr.IsRet i
  /-- `void` or `double` as the signature says -/
  returns : ∀ t ∈ fn.body, Instr.IsRet t → (t = .retVoid ↔ fn.out = true)

/-! ### Execution -/

/-- The floating point unit: any arithmetic whatever.  `const b` is the number with the 64 bits
`b`. -/
structure IRArith (F : Type) where
  const : Nat → F
  fadd : F → F → F
  fmul : F → F → F
  pow : F → F → F
  sin : F → F
  cos : F → F

/-- What a register holds: a number, or a pointer into the output array. -/
inductive Cell (F : Type) where
  | num (v : F)
  | ptr (offset : Nat)
deriving DecidableEq

/-- Registers and the output array. -/
structure IRState (F : Type) where
  regs : List (String × Cell F)
  mem : List F

variable {F : Type}

/-- The number an operand stands for. -/
def operandNum (A : IRArith F) (regs : List (String × Cell F)) (s : String) : Option F :=
  match hexValue s with
  | some b => some (A.const b)
  | none =>
    match Dict.lookup s regs with
    | some (.num v) => some v
    | _ => none

/-- Define a register; a second definition is not allowed. -/
def define (st : IRState F) (dst : String) (c : Cell F) : Option (IRState F) :=
  if dst ∈ st.regs.map Prod.fst then none else some { st with regs := (dst, c) :: st.regs }

/-- One instruction that is not a terminator. -/
def stepInstr (A : IRArith F) (st : IRState F) : Instr → Option (IRState F)
  | .arith dst "fadd" [a, b] => do
    let va ← operandNum A st.regs a
    let vb ← operandNum A st.regs b
    define st dst (.num (A.fadd va vb))
  | .arith dst "fmul" [a, b] => do
    let va ← operandNum A st.regs a
    let vb ← operandNum A st.regs b
    define st dst (.num (A.fmul va vb))
  | .call dst "pow" [a, b] => do
    let va ← operandNum A st.regs a
    let vb ← operandNum A st.regs b
    define st dst (.num (A.pow va vb))
  | .call dst "sin" [a] => do
    let va ← operandNum A st.regs a
    define st dst (.num (A.sin va))
  | .call dst "cos" [a] => do
    let va ← operandNum A st.regs a
    define st dst (.num (A.cos va))
  | .gep dst base index =>
    match Dict.lookup base st.regs with
    | some (.ptr p) => if index < 2 ^ 31 then define st dst (.ptr (p + index)) else none
    | _ => none
  | .store value ptr => do
    let v ← operandNum A st.regs value
    match Dict.lookup ptr st.regs with
    | some (.ptr p) => if p < st.mem.length then some { st with mem := st.mem.set p v } else none
    | _ => none
  | _ => none

/-- Execute a body: the returned value (if any) and the output array; `none` when the body is
not valid or reads or writes outside the array. -/
def execBody (A : IRArith F) : IRState F → List Instr → Option (Option F × List F)
  | _, [] => none
  | st, [.ret v] => (operandNum A st.regs v).map (fun r => (some r, st.mem))
  | st, [.retVoid] => some (none, st.mem)
  | st, i :: rest => do
    let st' ← stepInstr A st i
    execBody A st' rest

/-- Call a generated function with parameter values `vs` and output array `mem`. -/
def IRFunction.run (A : IRArith F) (fn : IRFunction) (vs : List F) (mem : List F) :
    Option (Option F × List F) :=
  if fn.params.length = vs.length ∧ (IRFunction.registers fn).Nodup then
    execBody A ⟨(if fn.out then [(outName, .ptr 0)] else []) ++ fn.params.zip (vs.map Cell.num),
      mem⟩ fn.body
  else none

/-! ### What an expression should compute -/

/-- `f(…f(f(a, b₁), b₂)…, bₙ)`. -/
def leftFold (f : F → F → F) : List F → PyM F
  | [] => .error .typeError
  | a :: bs => .ok (bs.foldl f a)

/-- The value of an expression whose parameters `symargs` have the values `vs`: an atom that is
a parameter has the parameter's value, any other `Integer` is its double constant, sums and
products associate to the left, `pow`, `sin`, `cos` are those of the machine. -/
def irMeaning (A : IRArith F) (symargs : List Expr) (vs : List F) : Meaning Val F where
  leaf t :=
    match lastAssoc t (symargs.zip vs) with
    | some v => .ok v
    | none =>
      match t with
      | .atom ⟨ty, .int n⟩ =>
        if ty = Ty.integer then
          match doubleBits n with
          | some b => .ok (A.const b)
          | none => .error .structError
        else .error .llvmNotImplemented
      | _ => .error .llvmNotImplemented
  op h vs :=
    if h = Expr.addH then leftFold A.fadd vs
    else if h = Expr.mulH then leftFold A.fmul vs
    else
      match vs with
      | [a, b] => if h = Expr.powH then .ok (A.pow a b) else .error .llvmNotImplemented
      | [a] =>
        if h = Expr.sinH then .ok (A.sin a)
        else if h = Expr.cosH then .ok (A.cos a)
        else .error .llvmNotImplemented
      | _ => .error .llvmNotImplemented

/-- An atom that can be compiled: a parameter, or an integer that is not too large for a
double. -/
def AtomSupported (symargs : List Expr) (t : Expr) : Prop :=
  t ∈ symargs ∨ ∃ n : Int, t = Expr.integer n ∧ |n| < 2 ^ 1024 - 2 ^ 970

/-- A head with a number of arguments for which there is an instruction. -/
def HeadSupported (h : Expr) (n : Nat) : Prop :=
  ((h = Expr.addH ∨ h = Expr.mulH) ∧ 1 ≤ n) ∨ (h = Expr.powH ∧ n = 2) ∨
    ((h = Expr.sinH ∨ h = Expr.cosH) ∧ n = 1)

/-- A head with a number of arguments that the code generator accepts: superfluous arguments of
`pow`, `sin` and `cos` are not noticed. -/
def HeadAccepted (h : Expr) (n : Nat) : Prop :=
  ((h = Expr.addH ∨ h = Expr.mulH) ∧ 1 ≤ n) ∨ (h = Expr.powH ∧ 2 ≤ n) ∨
    ((h = Expr.sinH ∨ h = Expr.cosH) ∧ 1 ≤ n)

/-- One of the five heads. -/
def KnownHead (h : Expr) : Prop :=
  h = Expr.addH ∨ h = Expr.mulH ∨ h = Expr.powH ∨ h = Expr.sinH ∨ h = Expr.cosH

/-- An atom that is a parameter or an Integer. -/
def KnownAtom (symargs : List Expr) (t : Expr) : Prop :=
  t ∈ symargs ∨ ∃ v, t = .atom ⟨Ty.integer, v⟩

/-- The expressions that can be compiled. -/
structure Supported (symargs : List Expr) (e : Expr) : Prop where
  atoms : ∀ t, ArgSub e t → t.children = [] → AtomSupported symargs t
  heads : ∀ h args, ArgSub e (.node (h :: args)) → HeadSupported h args.length

/-- A parameter list whose printed names LLVM can tell apart from each other, from the
registers `%".0"`, `%".1"`, … and from the reserved names (`_out` for matrices). -/
def GoodParams (symargs : List Expr) (reserved : List String := []) : Prop :=
  ∃ names, symargs.mapM treeStr = .ok names ∧ names.Nodup ∧
    ∀ s ∈ names, SafeName s ∧ (∀ n : Nat, s ≠ "." ++ toString n) ∧ s ∉ reserved

/-! ### Comparing the machine with Python's floats -/

/-- Python's float primitives (`float`, `math.fsum`, `math.prod`, `math.pow`, `math.sin`,
`math.cos`) agree with the machine's instructions wherever they return a result; for sums only
of a number of terms allowed by `sums`. -/
structure SameArithmetic (sums : Nat → Prop) (B : FloatOps F) (A : IRArith F) : Prop where
  int : ∀ n v b, B.ofInt n = .ok v → doubleBits n = some b → A.const b = v
  fsum : ∀ vs v, sums vs.length → B.fsum vs = .ok v → leftFold A.fadd vs = .ok v
  prod : ∀ vs v, vs ≠ [] → B.prod vs = .ok v → leftFold A.fmul vs = .ok v
  pow : ∀ a b v, B.pow a b = .ok v → A.pow a b = v
  sin : ∀ a v, B.sin a = .ok v → A.sin a = v
  cos : ∀ a v, B.cos a = .ok v → A.cos a = v

/-- Every stored entry can be compiled. -/
def MatSupported (symargs : List Expr) (m : Mat) : Prop :=
  ∀ (i j : Nat) (e : Expr), Stores m i j → m.getItem (.pair i j) = .ok e → Supported symargs e

/-- The offsets that the code computes, in order. -/
def offsets (fn : IRFunction) : List Nat :=
  fn.body.filterMap (fun i => match i with | .gep _ _ k => some k | _ => none)

/-- The pointers that the code stores through, in order. -/
def storedThrough (fn : IRFunction) : List String :=
  fn.body.filterMap (fun i => match i with | .store _ p => some p | _ => none)

/-- The registers that hold pointers, in order. -/
def pointers (fn : IRFunction) : List String :=
  fn.body.filterMap (fun i => match i with | .gep d _ _ => some d | _ => none)

end Verif.Spec
