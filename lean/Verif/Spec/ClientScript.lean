import Verif.Spec.ClientExpr

/-!
# User programs

A user program is a list of calls of the simplecas API; each call refers to the results of earlier ones.
It is run twice: on objects, by the programs of `Model/ClientExpr.lean`, and on values, by the functions
of `Model/Expr.lean` and `Model/Diff.lean`, which know nothing of objects.
-/

namespace Verif.Store

/-- One statement of a user program; numbers refer to the results of earlier statements. -/
inductive Instr where
  /-- an `int` -/
  | int (n : Int)
  /-- `Symbol(s)` -/
  | symbol (s : String)
  /-- `Function(s)` (with `s = "sin"`: what simplecas exports as `sin`, and so on) -/
  | function (s : String)
  /-- `f(*args)` -/
  | call (f : Nat) (args : List Nat)
  /-- `a + b` and so on, with an `Expr` among the operands (with two `int`s no protosym code runs; here
  that is a `TypeError`) -/
  | op (o : BinOp) (a b : Nat)
  /-- `-a` -/
  | neg (a : Nat)
  /-- `e.diff(s, n)` -/
  | diff (e s : Nat) (n : Int)
  /-- `e.xreplace({k: v, ...})` -/
  | xreplace (e : Nat) (reps : List (Nat × Nat))
  /-- `e.bin_expand()` -/
  | binExpand (e : Nat)
  /-- `e.head` -/
  | head (e : Nat)
  /-- `e.args[k]` -/
  | arg (e k : Nat)
  /-- `e.count_ops_graph()` -/
  | countOps (e : Nat)
  /-- `int(a == b)` -/
  | eq (a b : Nat)

/-! ### On values -/

/-- Use an object as an `Expr`; `err` is what Python raises for an `int`. -/
def asExpr (err : PyErr) : PyObj → PyM Expr
  | .expr e => .ok e
  | _ => .error err

/-- A statement on values. -/
def Instr.value (regs : List PyObj) : Instr → PyM PyObj
  | .int n => .ok (.int n)
  | .symbol s => .ok (.expr (Expr.symbol s))
  | .function s => .ok (.expr (Expr.function s))
  | .call f args => do
    let f ← asExpr .typeError (← pyGet regs f)
    let args ← args.mapM (pyGet regs)
    return .expr (← f.pyCall args)
  | .op o a b => do
    let a ← pyGet regs a
    let b ← pyGet regs b
    return .expr (← pyBinOp o a b)
  | .neg a => do
    match ← pyGet regs a with
    | .expr a => return .expr (pyNeg a)
    | .int n => return .int (-n)
    | .other _ => .error .typeError
  | .diff e s n => do
    let e ← asExpr .attributeError (← pyGet regs e)
    let s ← pyGet regs s
    if n ≤ 0 then return .expr e
    else
      let s ← asExpr .attributeError s
      return .expr (← Expr.diff e s n)
  | .xreplace e reps => do
    let e ← asExpr .attributeError (← pyGet regs e)
    let pairs ← reps.mapM (fun r => do return (← pyGet regs r.1, ← pyGet regs r.2))
    return .expr (← Verif.xreplace e (Dict.ofPairs pairs))
  | .binExpand e => do
    let e ← asExpr .attributeError (← pyGet regs e)
    return .expr (← Verif.binExpand e)
  | .head e => do
    let e ← asExpr .attributeError (← pyGet regs e)
    return .expr (← Expr.head e)
  | .arg e k => do
    let e ← asExpr .attributeError (← pyGet regs e)
    return .expr (← pyGet (Expr.args e) k)
  | .countOps e => do
    let e ← asExpr .attributeError (← pyGet regs e)
    return .int (countOpsGraph e)
  | .eq a b => do
    let a ← pyGet regs a
    let b ← pyGet regs b
    return .int (if a = b then 1 else 0)

/-- A user program on values: all its results. -/
def scriptValue (regs : List PyObj) : List Instr → PyM (List PyObj)
  | [] => .ok regs
  | i :: is => do
    let o ← i.value regs
    scriptValue (regs ++ [o]) is

/-! ### On objects -/

namespace Prog
variable {V : Type} (lit : Val → V) (m : SimplecasH)

/-- Use an object as an `Expr`. -/
def asExpr (err : PyErr) : ObjH → Prog V Val Nat
  | .expr h => .ret h
  | _ => .raise err

/-- `a == b`: identity for `Expr`s, which do not define `__eq__`. -/
def eqObj : ObjH → ObjH → Prog V Val Bool
  | .expr a, .expr b => .same a b .ret
  | .int n, .int k => .ret (n == k)
  | .other n, .other k => .ret (n == k)
  | _, _ => .ret false

/-- `d[k] = v` for the items of a dictionary: overwrite in place, else append. -/
def assignObj (k v : ObjH) : List (ObjH × ObjH) → Prog V Val (List (ObjH × ObjH))
  | [] => .ret [(k, v)]
  | (k', v') :: r => do
    if ← eqObj k' k then return (k', v) :: r
    else
      let r ← assignObj k v r
      return (k', v') :: r

/-- `{k: v, ...}`. -/
def dictObj (d : List (ObjH × ObjH)) : List (ObjH × ObjH) → Prog V Val (List (ObjH × ObjH))
  | [] => .ret d
  | (k, v) :: ps => do
    let d ← assignObj k v d
    dictObj d ps

/-- The `k`-th result. -/
def get (regs : List ObjH) (k : Nat) : Prog V Val ObjH := ofPy (pyGet regs k)

/-- A statement on objects. -/
def instr (regs : List ObjH) : Instr → Prog V Val ObjH
  | .int n => .ret (.int n)
  | .symbol s => do
    let h ← newAtom exprCls Ty.symbol (lit (.str s))
    return .expr h
  | .function s => do
    let h ← newAtom exprCls Ty.function (lit (.str s))
    return .expr h
  | .call f args => do
    let f ← asExpr .typeError (← get regs f)
    let args ← each (get regs) args
    return .expr (← exprCall lit f args)
  | .op o a b => do
    let a ← get regs a
    let b ← get regs b
    return .expr (← binOp lit m.consts o a b)
  | .neg a => do
    match ← get regs a with
    | .expr a => return .expr (← neg lit m.consts a)
    | .int n => return .int (-n)
    | .other _ => .raise .typeError
  | .diff e s n => do
    let e ← asExpr .attributeError (← get regs e)
    let s ← get regs s
    if n ≤ 0 then return .expr e
    else
      let s ← asExpr .attributeError s
      return .expr (← exprDiff m.diff e s n)
  | .xreplace e reps => do
    let e ← asExpr .attributeError (← get regs e)
    let pairs ← each (fun r => do return (← get regs r.1, ← get regs r.2)) reps
    let d ← dictObj [] pairs
    return .expr (← xreplace lit e d)
  | .binExpand e => do
    let e ← asExpr .attributeError (← get regs e)
    return .expr (← exprBinExpand m.consts e)
  | .head e => do
    let e ← asExpr .attributeError (← get regs e)
    return .expr (← symHead exprCls e)
  | .arg e k => do
    let e ← asExpr .attributeError (← get regs e)
    let args ← symArgs exprCls e
    return .expr (← ofPy (pyGet args k))
  | .countOps e => do
    let e ← asExpr .attributeError (← get regs e)
    let n ← exprCountOps e
    return .int n
  | .eq a b => do
    let a ← get regs a
    let b ← get regs b
    return .int (if ← eqObj a b then 1 else 0)

/-- A user program on objects: all its results. -/
def script (regs : List ObjH) : List Instr → Prog V Val (List ObjH)
  | [] => .ret regs
  | i :: is => do
    let o ← instr lit m regs i
    script (regs ++ [o]) is

/-- A process that imports simplecas and runs a user program. -/
def session (is : List Instr) : Prog V Val (List ObjH) := do
  let m ← importSimplecas lit
  script lit m [] is

end Prog

variable {V : Type} [PyVal V Val]

/-- The object that a result of the program refers to is what the value says. -/
def IsObj (heap : Nat → Option (Obj V)) (hs : List (Option Nat)) : Prog.ObjH → PyObj → Prop
  | .expr h, .expr e => IsExpr heap hs h e
  | .int n, .int k => n = k
  | .other n, .other k => n = k
  | _, _ => False

/-- How a user program ended and what it should compute. -/
def ScriptOutcome (heap : Nat → Option (Obj V)) (hs : List (Option Nat)) :
    PyM (List Prog.ObjH) → PyM (List PyObj) → Prop
  | .ok os, .ok xs => List.Forall₂ (IsObj heap hs) os xs
  | .error e, .error e' => e = e'
  | _, _ => False

end Verif.Store
