import Verif.Spec.ClientScript
import Verif.Model.ClientMatrix

/-!
# Interactive programs

User code with control flow and exception handlers of its own: at each moment it decides, from all it
has seen so far (numbers, strings, exceptions, shapes), what statement to execute next.  The statements
cover the whole of simplecas: `Instr` of `Spec/ClientScript.lean`, matrices,
functions made from expressions, printing, evaluation, evaluators and differentiators with rules of one's
own, code generation, compiled functions, conversion to and from SymPy.

A session is run twice: on objects, by the programs of `Model/Client*.lean`, and on values, by the
functions of `Model/`, which know nothing of objects.
-/

namespace Verif.Store

/-- A pattern of a rule, with the numbers of results. -/
inductive Pat where
  /-- an expression, e.g. `sin(a)` -/
  | sym (e : Nat)
  /-- `Integer[a]` -/
  | integer (a : Nat)
  /-- `Symbol[a]` -/
  | symbol (a : Nat)
  /-- `Function[a]` -/
  | function (a : Nat)
  /-- `AtomRule[a]` -/
  | atomRule (a : Nat)
  /-- `HeadRule(a, b)` -/
  | headRule (a b : Nat)

/-- A statement; `F` are the floats.  Natural numbers refer to the results of earlier statements. -/
inductive Stmt (F : Type) where
  /-- Statements on expressions and `int`s.  `f(*args)` also for an `f` made by `as_function`, `a + b`
  also for two matrices. -/
  | api (i : Instr)
  /-- `Expr.new_wild(s)` -/
  | wild (s : String)
  /-- `star(e)` -/
  | star (e : Nat)
  /-- `e.as_function(*params)` -/
  | asFunction (e : Nat) (params : List Nat)
  /-- `Matrix([[...], ...])` -/
  | matrix (rows : List (List Nat))
  /-- `M[i, j]` -/
  | item (m : Nat) (i j : Int)
  /-- `M.tolist()[i][j]` -/
  | tolist (m i j : Nat)
  /-- `A.binop(B, f)` for an expression `f` -/
  | binop (a b f : Nat)
  /-- `e.diff(s)` for an expression or a matrix `e` -/
  | diff (e s : Nat)
  /-- `repr(e)` for an expression, a matrix or an `int` -/
  | repr (e : Nat)
  /-- `e.eval_latex()` -/
  | latex (e : Nat)
  /-- `e.count_ops_tree()` -/
  | countOpsTree (e : Nat)
  /-- `e.eval_f64({k: v, ...})` -/
  | evalF64 (e : Nat) (values : List (Nat × F))
  /-- `e.to_llvm_ir([...])` for an expression or a matrix `e` -/
  | llvm (e : Nat) (args : List Nat)
  /-- `Expr.new_evaluator(name, typ)` -/
  | newEvaluator
  /-- `ev[pattern] = f(*args)` -/
  | rule (ev : Nat) (pattern : Pat) (f : PyFn F) (args : List Nat)
  /-- `ev(e, {k: v, ...})` -/
  | evaluate (ev e : Nat) (values : List (Nat × F))
  /-- `SymDifferentiator(Expr, add=add, mul=mul, zero=zero, one=one)` -/
  | newDiff (add mul zero one : Nat)
  /-- `d[e, s] = r` -/
  | diffRule (d e s r : Nat)
  /-- `d.add_distributive_rule(head)` -/
  | distributive (d head : Nat)
  /-- `d(e, s, n)` -/
  | diffWith (d e s : Nat) (n : Int)
  /-- anything that is done in SymPy with SymPy objects -/
  | sympy (f : List SExpr → PyM SExpr) (args : List Nat)
  /-- `e.to_sympy()` for an expression or a matrix `e` -/
  | toSympy (e : Nat)
  /-- `Expr.from_sympy(s)` -/
  | fromSympy (s : Nat)
  /-- `Matrix.from_sympy(M)` for a SymPy matrix of the given shape with the items of `M.todok()` -/
  | fromSympyMatrix (rows cols : Nat) (dok : List ((Nat × Nat) × Nat))
  /-- `lambdify([...], e)` -/
  | lambdify (e : Nat) (args : List Nat)
  /-- `f(*args)` for what `lambdify` has returned -/
  | callCompiled (f : Nat) (args : List (CallArg F))

/-- What the program sees of a result. -/
inductive Seen (F : Type) where
  | expr
  | int (n : Int)
  | other
  | matrix (nrows ncols : Nat)
  | str (s : String)
  | num (x : F)
  | function (nargs : Nat)
  | evaluator
  | differentiator
  | sympy (s : SExpr)
  | sympyMatrix (rows cols : Nat) (items : List ((Nat × Nat) × SExpr))
  | compiled
  /-- an array of numpy: its cells, row by row -/
  | array (cells : List F)
  /-- the behaviour of the machine code is undefined -/
  | undefined
  | exc (e : PyErr)
  | none
deriving DecidableEq

/-- The program: what to do next (`none`: stop), given what has been seen so far. -/
abbrev User (F : Type) := List (Seen F) → Option (Stmt F)

/-! ### On values -/

/-- A result; evaluators and differentiators change when a rule is added to them. -/
inductive Thing (F : Type) where
  | obj (o : PyObj)
  | mat (m : Mat)
  | str (s : String)
  | num (x : F)
  | fn (f : SubsFunc Val)
  | ev (e : Evaluator PyM Val F)
  | diff (d : DiffProps Val)
  | sympy (s : SExpr)
  | sympyMat (m : SMat)
  | compiled (f : Callable) (p : Proc F)
  | array (cells : List F)
  | undefined
  | exc (e : PyErr)
  | none

variable {F : Type}

/-- What is seen of it. -/
def Thing.seen : Thing F → Seen F
  | .obj (.expr _) => .expr
  | .obj (.int n) => .int n
  | .obj (.other _) => .other
  | .mat m => .matrix m.nrows m.ncols
  | .str s => .str s
  | .num x => .num x
  | .fn f => .function f.nargs
  | .ev _ => .evaluator
  | .diff _ => .differentiator
  | .sympy s => .sympy s
  | .sympyMat m => .sympyMatrix m.rows m.cols m.entries.items
  | .compiled .. => .compiled
  | .array l => .array l
  | .undefined => .undefined
  | .exc e => .exc e
  | .none => .none

/-- The results as operands for `Instr`: the `k`-th, if it is not an expression or an `int`, is an
object of another kind (the objects of other kinds are all different; strings, floats and exceptions
have no operations here). -/
def operands (k : Nat) : List (Thing F) → List PyObj
  | [] => []
  | .obj o :: ts => o :: operands (k + 1) ts
  | _ :: ts => .other k :: operands (k + 1) ts

/-- `e` as an `Expr`, whatever it is. -/
def Thing.asExpr (err : PyErr) : Thing F → PyM Expr
  | .obj o => Store.asExpr err o
  | _ => .error err

/-- As a matrix. -/
def Thing.asMat (err : PyErr) : Thing F → PyM Mat
  | .mat m => .ok m
  | _ => .error err

/-- As an evaluator; `TypeError` otherwise (neither callable nor subscriptable). -/
def Thing.asEv : Thing F → PyM (Evaluator PyM Val F)
  | .ev e => .ok e
  | _ => .error .typeError

/-- As a differentiator. -/
def Thing.asDiff (err : PyErr) : Thing F → PyM (DiffProps Val)
  | .diff d => .ok d
  | _ => .error err

/-- As a SymPy object. -/
def Thing.asSympy (err : PyErr) : Thing F → PyM SExpr
  | .sympy s => .ok s
  | _ => .error err

/-- A pattern.  Simplified: a wild that is not an `Expr` is an `AttributeError`. -/
def Pat.value (regs : List (Thing F)) : Pat → PyM Pattern
  | .sym e => do return .sym (← (← pyGet regs e).asExpr .attributeError)
  | .integer a => do return .atomValue Ty.integer (← (← pyGet regs a).asExpr .attributeError)
  | .symbol a => do return .atomValue Ty.symbol (← (← pyGet regs a).asExpr .attributeError)
  | .function a => do return .atomValue Ty.function (← (← pyGet regs a).asExpr .attributeError)
  | .atomRule a => do return .atomRule (← (← pyGet regs a).asExpr .attributeError)
  | .headRule a b => do
    let a ← (← pyGet regs a).asExpr .attributeError
    let b ← (← pyGet regs b).asExpr .attributeError
    return .headRule a b

/-- `ev[pattern] = f(*args)` as a function: the evaluator after the assignment. -/
def assignRule (ev : Evaluator PyM Val F) (pattern : Pattern) (f : PyFn F) (args : List Expr) :
    PyM (Evaluator PyM Val F) :=
  match f.call args with
  | .error e => .error e
  | .ok call =>
    match Verif.setItem pattern (some call) ev with
    | (.ok (), ev') => .ok ev'
    | (.error e, _) => .error e

/-- The dictionary `{k: v, ...}` with expressions for keys. -/
def valuesDict (regs : List (Thing F)) (values : List (Nat × F)) : PyM (Dict Expr F) := do
  let ps ← values.mapM (fun p => do return (← (← pyGet regs p.1).asExpr .attributeError, p.2))
  return Dict.ofPairs ps

/-- The `Expr` operands. -/
def exprArgs (regs : List (Thing F)) (args : List Nat) : PyM (List Expr) :=
  args.mapM (fun k => do (← pyGet regs k).asExpr .attributeError)

/-- The result is a new one. -/
def pushed (regs : List (Thing F)) (x : PyM (Thing F)) : PyM (List (Thing F)) := do
  return regs ++ [← x]

/-- The `k`-th result has changed. -/
def changed (regs : List (Thing F)) (k : Nat) (x : PyM (Thing F)) : PyM (List (Thing F)) := do
  return regs.set k (← x) ++ [.none]

/-- What a call of a compiled function gives. -/
def callResult {R : Type} (num : F → R) (array : List F → R) (undefined : R) :
    CallOutcome F × Proc F → PyM R
  | (.float v, _) => .ok (num v)
  | (.array id, p) => do return array (← pyGet p.arrays id)
  | (.raised e, _) => .error e
  | (.undefined, _) => .ok undefined

/-- The second argument of `lambdify`. -/
def Thing.asLambdify : Thing F → LambdifyArg
  | .obj (.expr e) => .expr e
  | .mat m => .matrix m
  | _ => .other

/-- `lambdify` in a process of its own. -/
def lambdifyAlone (P : Platform F) (args : List Expr) (e : LambdifyArg) : PyM (Callable × Proc F) :=
  match Verif.lambdify P (args.map .expr) e Proc.start with
  | (.ok f, p) => .ok (f, p)
  | (.error e, _) => .error e

variable [HasNone F] (A : Libs F)

/-- A statement that makes a new result.  Simplified: `repr` of objects of other kinds and `binop` with
something else than an `Expr` are `TypeError`s, conversion from SymPy of what is no SymPy object is an
`AttributeError`. -/
def Stmt.result (regs : List (Thing F)) : Stmt F → PyM (Thing F)
  | .api i =>
    let plain : PyM (Thing F) := do return .obj (← i.value (operands 0 regs))
    match i with
    | .call f args => do
      match ← pyGet regs f with
      | .fn F =>
        let args ← args.mapM (pyGet (operands 0 regs))
        return .obj (.expr (← exprFunctionCall F args))
      | _ => plain
    | .op .add a b => do
      match ← pyGet regs a, ← pyGet regs b with
      | .mat a, .mat b => return .mat (← Mat.add a b)
      | _, _ => plain
    | .diff e _ _ => do
      match ← pyGet regs e with
      | .mat _ => .error .typeError
      | _ => plain
    | _ => plain
  | .wild s => .ok (.obj (.expr (Expr.wild s)))
  | .star e => do return .obj (.expr (Verif.star (← (← pyGet regs e).asExpr .attributeError)))
  | .asFunction e params => do
    let e ← (← pyGet regs e).asExpr .attributeError
    let ps ← params.mapM (pyGet (operands 0 regs))
    return .fn (← Verif.asFunction e ps)
  | .matrix rows => do
    let rows ← rows.mapM (fun row => row.mapM (pyGet (operands 0 regs)))
    return .mat (← Mat.new (.list (rows.map .list)))
  | .item m i j => do
    let m ← (← pyGet regs m).asMat .typeError
    return .obj (.expr (← m.getItem (.pair i j)))
  | .tolist m i j => do
    let m ← (← pyGet regs m).asMat .attributeError
    let row ← pyGet (← m.tolist) i
    return .obj (.expr (← pyGet row j))
  | .binop a b f => do
    let a ← (← pyGet regs a).asMat .attributeError
    let b ← (← pyGet regs b).asMat .attributeError
    let f ← (← pyGet regs f).asExpr .typeError
    return .mat (← a.binop b f)
  | .diff e s => do
    match ← pyGet regs e with
    | .mat m =>
      let s ← pyGet (operands 0 regs) s
      return .mat (← m.diff s)
    | _ => return .obj (← (Instr.diff e s 1).value (operands 0 regs))
  | .repr e => do
    match ← pyGet regs e with
    | .obj (.expr e) => return .str (← Expr.repr e)
    | .obj (.int n) => return .str (toString n)
    | .mat m => return .str (← m.repr)
    | _ => .error .typeError
  | .latex e => do return .str (← Expr.latex (← (← pyGet regs e).asExpr .attributeError))
  | .countOpsTree e => do
    let n ← Verif.countOpsTree (← (← pyGet regs e).asExpr .attributeError)
    return .obj (.int n)
  | .evalF64 e values => do
    let e ← (← pyGet regs e).asExpr .attributeError
    let d ← valuesDict regs values
    return .num (← Expr.evalF64 A.floats e (some d))
  | .llvm e args => do
    match ← pyGet regs e with
    | .obj (.expr e) =>
      let args ← exprArgs regs args
      return .str (← Verif.toLlvm args e).text
    | .mat m =>
      let args ← exprArgs regs args
      return .str (← Verif.toLlvmMatrix args m).text
    | _ => .error .attributeError
  | .newEvaluator => .ok (.ev Evaluator.new)
  | .evaluate ev e values => do
    let ev ← (← pyGet regs ev).asEv
    let d ← valuesDict regs values
    let e ← (← pyGet regs e).asExpr .attributeError
    return .num (← symEvalCall ev e (some d))
  | .newDiff add mul zero one => do
    let add ← (← pyGet regs add).asExpr .attributeError
    let mul ← (← pyGet regs mul).asExpr .attributeError
    let zero ← (← pyGet regs zero).asExpr .attributeError
    let one ← (← pyGet regs one).asExpr .attributeError
    return .diff (SymDifferentiator.new add mul zero one)
  | .diffWith d e s n => do
    let d ← (← pyGet regs d).asDiff .typeError
    let e ← (← pyGet regs e).asExpr .attributeError
    let s ← (← pyGet regs s).asExpr .attributeError
    return .obj (.expr (← SymDifferentiator.call d e s n))
  | .sympy f args => do
    let args ← args.mapM (fun k => do (← pyGet regs k).asSympy .typeError)
    return .sympy (← f args)
  | .toSympy e => do
    match ← pyGet regs e with
    | .obj (.expr e) => return .sympy (← Verif.toSympy A.sympy e)
    | .mat m => return .sympyMat (← Verif.toSympyMatrix A.sympy m)
    | _ => .error .attributeError
  | .fromSympy s => do
    let s ← (← pyGet regs s).asSympy .attributeError
    return .obj (.expr (← Verif.fromSympy s))
  | .fromSympyMatrix rows cols dok => do
    let dok ← dok.mapM (fun p => do return (p.1, ← (← pyGet regs p.2).asSympy .typeError))
    return .mat (← Verif.fromSympyMatrix A.sympy rows cols dok)
  | .lambdify e args => do
    let e ← pyGet regs e
    let args ← exprArgs regs args
    let r ← lambdifyAlone A.platform args e.asLambdify
    return .compiled r.1 r.2
  | .callCompiled f args => do
    match ← pyGet regs f with
    | .compiled f p => callResult .num .array .undefined (Verif.call A.platform f args p)
    | _ => .error .typeError
  | .rule .. | .diffRule .. | .distributive .. => .ok .none

/-- A statement: all results, after it. -/
def Stmt.value (regs : List (Thing F)) : Stmt F → PyM (List (Thing F))
  | .rule ev pattern f args => changed regs ev do
    let e ← (← pyGet regs ev).asEv
    let p ← pattern.value regs
    let args ← exprArgs regs args
    return .ev (← assignRule e p f args)
  | .diffRule d e s r => changed regs d do
    let p ← (← pyGet regs d).asDiff .typeError
    let e ← (← pyGet regs e).asExpr .attributeError
    let s ← (← pyGet regs s).asExpr .attributeError
    let r ← (← pyGet regs r).asExpr .attributeError
    return .diff (← SymDifferentiator.setItem p e s r)
  | .distributive d head => changed regs d do
    let p ← (← pyGet regs d).asDiff .attributeError
    let h ← (← pyGet regs head).asExpr .attributeError
    return .diff (p.addDistributive h)
  | s => pushed regs (s.result A regs)

/-- What the program has after the statement; an exception is caught and is the result then. -/
def Stmt.after (regs : List (Thing F)) (s : Stmt F) : List (Thing F) :=
  match s.value A regs with
  | .ok regs' => regs'
  | .error e => regs ++ [.exc e]

/-- The first `n` statements of a session on values. -/
def sessionValue (user : User F) : Nat → List (Thing F) → List (Thing F)
  | 0, regs => regs
  | n + 1, regs =>
    match user (regs.map Thing.seen) with
    | none => regs
    | some s => sessionValue user n (s.after A regs)

/-! ### On objects -/

namespace Prog
variable {V : Type}

/-- The end of the body of a loop inside `try`: an exception leaves the loop. -/
def attemptStep {σ β : Type} : PyM (σ ⊕ β) → σ ⊕ PyM β
  | .ok (.inl z) => .inl z
  | .ok (.inr b) => .inr (.ok b)
  | .error e => .inr (.error e)

/-- What follows a part that is done; after an exception nothing does. -/
def attemptNext {K α β : Type} (f : α → Prog V K (PyM β)) : PyM α → Prog V K (PyM β)
  | .ok a => f a
  | .error e => .ret (.error e)

/-- `try: p` … `except Exception as e`: the result or the exception. -/
def attempt {K : Type} {α : Type} : Prog V K α → Prog V K (PyM α)
  | .ret a => .ret (.ok a)
  | .raise e => .ret (.error e)
  | .make c k => .make c (fun h => attempt (k h))
  | .same h h' k => .same h h' (fun b => attempt (k b))
  | .look h k => .look h (fun o => attempt (k o))
  | .loop body x k =>
    .loop (fun y => (attempt (body y)).bind (fun r => .ret (attemptStep r))) x
      (attemptNext (fun b => attempt (k b)))

/-- A result. -/
inductive ThingH (F : Type) where
  | obj (o : ObjH)
  | mat (m : MatH)
  | str (s : String)
  | num (x : F)
  | fn (f : SubsH)
  | ev (e : EvalD F)
  | diff (d : DiffH)
  | sympy (s : SExpr)
  | sympyMat (m : SMat)
  | compiled (f : Callable) (p : Proc F)
  | array (cells : List F)
  | undefined
  | exc (e : PyErr)
  | none

/-- What is seen of it. -/
def ThingH.seen : ThingH F → Seen F
  | .obj (.expr _) => .expr
  | .obj (.int n) => .int n
  | .obj (.other _) => .other
  | .mat m => .matrix m.nrows m.ncols
  | .str s => .str s
  | .num x => .num x
  | .fn f => .function f.nargs
  | .ev _ => .evaluator
  | .diff _ => .differentiator
  | .sympy s => .sympy s
  | .sympyMat m => .sympyMatrix m.rows m.cols m.entries.items
  | .compiled .. => .compiled
  | .array l => .array l
  | .undefined => .undefined
  | .exc e => .exc e
  | .none => .none

/-- The results as operands for `Instr`. -/
def operandsH (k : Nat) : List (ThingH F) → List ObjH
  | [] => []
  | .obj o :: ts => o :: operandsH (k + 1) ts
  | _ :: ts => .other k :: operandsH (k + 1) ts

/-- The `k`-th result. -/
def reg (regs : List (ThingH F)) (k : Nat) : Prog V Val (ThingH F) := ofPy (pyGet regs k)

/-- The `k`-th result as an `Expr`. -/
def regExpr (err : PyErr) (regs : List (ThingH F)) (k : Nat) : Prog V Val Nat := do
  match ← reg regs k with
  | .obj o => asExpr err o
  | _ => .raise err

/-- As a matrix. -/
def regMat (err : PyErr) (regs : List (ThingH F)) (k : Nat) : Prog V Val MatH := do
  match ← reg regs k with
  | .mat m => .ret m
  | _ => .raise err

/-- As an evaluator. -/
def regEv (regs : List (ThingH F)) (k : Nat) : Prog V Val (EvalD F) := do
  match ← reg regs k with
  | .ev e => .ret e
  | _ => .raise .typeError

/-- As a differentiator. -/
def regDiff (err : PyErr) (regs : List (ThingH F)) (k : Nat) : Prog V Val DiffH := do
  match ← reg regs k with
  | .diff d => .ret d
  | _ => .raise err

/-- As a SymPy object. -/
def regSympy (err : PyErr) (regs : List (ThingH F)) (k : Nat) : Prog V Val SExpr := do
  match ← reg regs k with
  | .sympy s => .ret s
  | _ => .raise err

/-- A pattern. -/
def patH (regs : List (ThingH F)) : Pat → Prog V Val PatternH
  | .sym e => do return .sym (← regExpr .attributeError regs e)
  | .integer a => do return .atomValue Ty.integer (← regExpr .attributeError regs a)
  | .symbol a => do return .atomValue Ty.symbol (← regExpr .attributeError regs a)
  | .function a => do return .atomValue Ty.function (← regExpr .attributeError regs a)
  | .atomRule a => do return .atomRule (← regExpr .attributeError regs a)
  | .headRule a b => do
    let a ← regExpr .attributeError regs a
    let b ← regExpr .attributeError regs b
    return .headRule a b

/-- `d[k] = v` for the items of a dictionary whose keys are `Expr` objects. -/
def assignExpr (k : Nat) (v : F) : List (Nat × F) → Prog V Val (List (Nat × F))
  | [] => .ret [(k, v)]
  | (k', v') :: r =>
    .same k' k (fun s =>
      if s then .ret ((k', v) :: r)
      else do
        let r ← assignExpr k v r
        return (k', v') :: r)

/-- `{k: v, ...}`. -/
def dictExpr (d : List (Nat × F)) : List (Nat × F) → Prog V Val (List (Nat × F))
  | [] => .ret d
  | (k, v) :: ps => do
    let d ← assignExpr k v d
    dictExpr d ps

/-- The dictionary of values. -/
def valuesH (regs : List (ThingH F)) (values : List (Nat × F)) : Prog V Val (List (Nat × F)) := do
  let ps ← each (fun p => do return (← regExpr .attributeError regs p.1, p.2)) values
  dictExpr [] ps

/-- The `Expr` operands. -/
def regExprs (regs : List (ThingH F)) (args : List Nat) : Prog V Val (List Nat) :=
  each (regExpr .attributeError regs) args

/-- The result is a new one. -/
def pushedH (regs : List (ThingH F)) (x : Prog V Val (ThingH F)) : Prog V Val (List (ThingH F)) := do
  return regs ++ [← x]

/-- The `k`-th result has changed. -/
def changedH (regs : List (ThingH F)) (k : Nat) (x : Prog V Val (ThingH F)) :
    Prog V Val (List (ThingH F)) := do
  return regs.set k (← x) ++ [.none]

/-- The second argument of `lambdify`. -/
def ThingH.asLambdify : ThingH F → LambdifyH
  | .obj (.expr e) => .expr e
  | .mat m => .matrix m
  | _ => .other

variable (lit : Val → V) (A : Libs F) (m : FullH F)

/-- A statement that makes a new result. -/
def stmtResult (regs : List (ThingH F)) : Stmt F → Prog V Val (ThingH F)
  | .api i =>
    let plain : Prog V Val (ThingH F) := do return .obj (← instr lit m.base (operandsH 0 regs) i)
    match i with
    | .call f args => do
      match ← reg regs f with
      | .fn f =>
        let args ← each (get (operandsH 0 regs)) args
        return .obj (.expr (← callExprFunction lit f args))
      | _ => plain
    | .op .add a b => do
      match ← reg regs a, ← reg regs b with
      | .mat a, .mat b => return .mat (← matAdd lit m.base.consts a b)
      | _, _ => plain
    | .diff e _ _ => do
      match ← reg regs e with
      | .mat _ => .raise .typeError
      | _ => plain
    | _ => plain
  | .wild s => do return .obj (.expr (← newAtom exprCls Ty.wild (lit (.str s))))
  | .star e => do
    let e ← regExpr .attributeError regs e
    return .obj (.expr (← star m.star e))
  | .asFunction e params => do
    let e ← regExpr .attributeError regs e
    let ps ← each (get (operandsH 0 regs)) params
    return .fn (← exprFunction lit (.expr e) ps)
  | .matrix rows => do
    let rows ← each (each (get (operandsH 0 regs))) rows
    return .mat (← matNew lit m.base.consts rows)
  | .item k i j => do
    let a ← regMat .typeError regs k
    return .obj (.expr (← matGet m.base.consts a i j))
  | .tolist k i j => do
    let a ← regMat .attributeError regs k
    let rows ← matTolist m.base.consts a
    let row ← ofPy (pyGet rows i)
    return .obj (.expr (← ofPy (pyGet row j)))
  | .binop a b f => do
    let a ← regMat .attributeError regs a
    let b ← regMat .attributeError regs b
    let f ← regExpr .typeError regs f
    return .mat (← matBinop lit m.base.consts a b f)
  | .diff e s => do
    match ← reg regs e with
    | .mat a =>
      let s ← get (operandsH 0 regs) s
      return .mat (← matDiff lit m.base a s)
    | _ => return .obj (← instr lit m.base (operandsH 0 regs) (.diff e s 1))
  | .repr e => do
    match ← reg regs e with
    | .obj (.expr e) => return .str (← evalPlain m.repr e)
    | .obj (.int n) => return .str (toString n)
    | .mat a => return .str (← matRepr m.base.consts m.repr a)
    | _ => .raise .typeError
  | .latex e => do
    let e ← regExpr .attributeError regs e
    return .str (← evalPlain m.latex e)
  | .countOpsTree e => do
    let e ← regExpr .attributeError regs e
    let n ← evalPlain m.countOps e
    return .obj (.int n)
  | .evalF64 e values => do
    let e ← regExpr .attributeError regs e
    let d ← valuesH regs values
    return .num (← symEval m.f64.toH e d)
  | .llvm e args => do
    match ← reg regs e with
    | .obj (.expr e) =>
      let args ← each rep (← regExprs regs args)
      let t ← rep e
      let fn ← toLlvm m.base.consts args t
      return .str fn.text
    | .mat a =>
      let args ← each rep (← regExprs regs args)
      let fn ← toLlvmMatrix m.base.consts args a
      return .str fn.text
    | _ => .raise .attributeError
  | .newEvaluator => .ret (.ev EvalD.new)
  | .evaluate ev e values => do
    let d ← regEv regs ev
    let vs ← valuesH regs values
    let e ← regExpr .attributeError regs e
    return .num (← symEval d.toH e vs)
  | .newDiff add mul zero one => do
    let add ← regExpr .attributeError regs add
    let mul ← regExpr .attributeError regs mul
    let zero ← regExpr .attributeError regs zero
    let one ← regExpr .attributeError regs one
    return .diff (← differentiator add mul zero one)
  | .diffWith d e s n => do
    let d ← regDiff .typeError regs d
    let e ← regExpr .attributeError regs e
    let s ← regExpr .attributeError regs s
    return .obj (.expr (← symDiff exprCls d e s n))
  | .sympy f args => do
    let args ← each (regSympy .typeError regs) args
    return .sympy (← ofPy (f args))
  | .toSympy e => do
    match ← reg regs e with
    | .obj (.expr e) => return .sympy (← evalPlain m.sympy e)
    | .mat a => return .sympyMat (← toSympyMatrix m.sympy a)
    | _ => .raise .attributeError
  | .fromSympy s => do
    let s ← regSympy .attributeError regs s
    return .obj (.expr (← fromSympy lit m.base.consts s))
  | .fromSympyMatrix rows cols dok => do
    let dok ← each (fun p => do return (p.1, ← regSympy .typeError regs p.2)) dok
    return .mat (← fromSympyMatrix lit A.sympy m.base.consts rows cols dok)
  | .lambdify e args => do
    let e ← reg regs e
    let args ← regExprs regs args
    let r ← lambdify A.platform m.base.consts args e.asLambdify
    return .compiled r.1 r.2
  | .callCompiled f args => do
    match ← reg regs f with
    | .compiled f p => ofPy (callResult .num .array .undefined (Verif.call A.platform f args p))
    | _ => .raise .typeError
  | .rule .. | .diffRule .. | .distributive .. => .ret .none

/-- A statement: all results, after it. -/
def stmt (regs : List (ThingH F)) : Stmt F → Prog V Val (List (ThingH F))
  | .rule ev pattern f args => changedH regs ev do
    let d ← regEv regs ev
    let p ← patH regs pattern
    let args ← regExprs regs args
    return .ev (← rule m.star d p f args)
  | .diffRule d e s r => changedH regs d do
    let p ← regDiff .typeError regs d
    let e ← regExpr .attributeError regs e
    let s ← regExpr .attributeError regs s
    let r ← regExpr .attributeError regs r
    return .diff (← setDiffRule p e s r)
  | .distributive d head => changedH regs d do
    let p ← regDiff .attributeError regs d
    let h ← regExpr .attributeError regs head
    return .diff (← addDistributive p h)
  | s => pushedH regs (stmtResult lit A m regs s)

/-- The first `n` statements of a session on objects. -/
def interact (user : User F) : Nat → List (ThingH F) → Prog V Val (List (ThingH F))
  | 0, regs => .ret regs
  | n + 1, regs =>
    match user (regs.map ThingH.seen) with
    | none => .ret regs
    | some s => do
      match ← attempt (stmt lit A m regs s) with
      | .ok regs' => interact user n regs'
      | .error e => interact user n (regs ++ [.exc e])

/-- A process that imports simplecas and runs the first `n` statements of a user program. -/
def fullSession (A : Libs F) (user : User F) (n : Nat) : Prog V Val (List (ThingH F)) := do
  let m ← importFull lit A
  interact lit A m user n []

end Prog

/-! ### Objects and values -/

variable {V : Type} [PyVal V Val]

/-- A pattern on objects refers to the expressions of the pattern on values. -/
def PatAt (vals : List (Ex Val)) : Prog.PatternH → Pattern → Prop
  | .sym e, .sym E => ExprAt vals e E
  | .atomValue ty w, .atomValue ty' W => ty = ty' ∧ ExprAt vals w W
  | .atomRule w, .atomRule W => ExprAt vals w W
  | .headRule h as, .headRule H As => ExprAt vals h H ∧ ExprAt vals as As
  | _, _ => False

/-- An `Expr` object, or a number, … is what the value says: `IsObj` of `Spec/ClientScript.lean`; the
`Expr`s of a matrix are those of the value; data are equal. -/
def IsThing (heap : Nat → Option (Obj V)) (hs : List (Option Nat)) : Prog.ThingH F → Thing F → Prop
  | .obj o, .obj O => IsObj heap hs o O
  | .mat m, .mat M => m.nrows = M.nrows ∧ m.ncols = M.ncols ∧ m.entrymap = M.entrymap ∧
      List.Forall₂ (IsExpr heap hs) m.elements M.elements ∧
      IsExpr heap hs m.elementsGraph M.elementsGraph
  | .str s, .str s' => s = s'
  | .num x, .num x' => x = x'
  | .fn f, .fn f' => f.nargs = f'.nargs ∧ f.operations = f'.operations ∧
      List.Forall₂ (StandsAt heap hs) f.atoms f'.atoms
  | .ev _, .ev _ => True
  | .diff _, .diff _ => True
  | .sympy s, .sympy s' => s = s'
  | .sympyMat m, .sympyMat m' => m = m'
  | .compiled f p, .compiled f' p' => f = f' ∧ p = p'
  | .array l, .array l' => l = l'
  | .undefined, .undefined => True
  | .exc e, .exc e' => e = e'
  | .none, .none => True
  | _, _ => False

end Verif.Store
