import Verif.Model.LLVM

/-!
# Model of src/protosym/simplecas/lambdification.py: compiling and calling

`_compile_llvm`, `_lambdify_llvm`, `_lambdify_llvm_matrix` and `lambdify` as they act on the
Python process: machine code lives in execution engines, an engine that nothing refers to may be
freed at any time, and arrays are objects.  What LLVM, ctypes and numpy do themselves is a
parameter (`Platform`).  Not modelled: the `import` statements, `llvm.initialize*`, and the
optimisation passes (they belong to `Platform.code`).
-/

namespace Verif

/-- LLVM, the processor and the conversion of Python ints to doubles. -/
structure Platform (F : Type) where
  /-- does `llvm.parse_assembly` accept the text? -/
  accepts : String → Bool
  /-- the machine code compiled from a text: given the values of the `double` parameters and the
  contents of the array `_out` points to (empty if there is no such parameter) it returns a
  value (or nothing) and leaves the array in a new state; `none`: undefined behaviour -/
  code : String → List F → List F → Option (Option F × List F)
  /-- the double `0.0` -/
  zero : F
  /-- `float(n)`; `none` if it raises -/
  ofInt : Int → Option F
  /-- the largest number of parameters and of arguments that ctypes supports (`CTYPES_MAX_ARGCOUNT`,
  1024 in today's CPython) -/
  maxArgs : Nat

/-- The part of the process that `lambdify` uses. -/
structure Proc (F : Type) where
  /-- the execution engines, by the address of their function `jit_func1`: the text an engine was
  compiled from, or `none` if it has been freed -/
  engines : List (Option String)
  /-- `_exe_eng`, lambdification.py:106: the engines that the module keeps alive -/
  exeEng : List Nat
  /-- the contents of numpy arrays (in row-major order), by identity -/
  arrays : List (List F)

/-- The process after `import protosym`. -/
def Proc.start {F : Type} : Proc F := ⟨[], [], []⟩

/-- `_compile_llvm(module_code)`: lambdification.py:109-135.  `parse_assembly` raises
`RuntimeError` for a text it does not accept.  The new engine is appended to `_exe_eng`. -/
def compileLlvm {F : Type} (P : Platform F) (moduleCode : String) (s : Proc F) : PyM Nat × Proc F :=
  if P.accepts moduleCode then
    let exeEng := s.engines.length
    (.ok exeEng, { s with engines := s.engines ++ [some moduleCode], exeEng := s.exeEng ++ [exeEng] })
  else (.error .runtimeError, s)

/-- What `lambdify` returns: a ctypes function of `nargs` doubles (lambdification.py:144-149), or
the closure `npfunc`, which holds a ctypes function of a pointer and `nargs` doubles and the shape
of the matrix (lambdification.py:239-251; `mat.shape` never changes). -/
inductive Callable where
  | cfunc (fptr nargs : Nat)
  | npfunc (fptr nargs : Nat) (shape : Nat × Nat)
deriving DecidableEq

/-- `_lambdify_llvm(args, expression)`: lambdification.py:138-149.  `CFUNCTYPE` raises
`ctypes.ArgumentError` for too many parameters; the engine has then already been added to
`_exe_eng`. -/
def lambdifyLlvm {F : Type} (P : Platform F) (args : List Expr) (expression : Expr) (s : Proc F) :
    PyM Callable × Proc F :=
  match toLlvm args expression with
  | .error err => (.error err, s)
  | .ok fn =>
    match compileLlvm P fn.text s with
    | (.error err, s) => (.error err, s)
    | (.ok fptr, s) =>
      if P.maxArgs < args.length then (.error .argumentError, s)
      else (.ok (.cfunc fptr args.length), s)

/-- `_lambdify_llvm_matrix(args, mat)`: lambdification.py:219-251.  There is one more parameter,
the pointer to the array. -/
def lambdifyLlvmMatrix {F : Type} (P : Platform F) (args : List Expr) (mat : Mat) (s : Proc F) :
    PyM Callable × Proc F :=
  match toLlvmMatrix args mat with
  | .error err => (.error err, s)
  | .ok fn =>
    match compileLlvm P fn.text s with
    | (.error err, s) => (.error err, s)
    | (.ok fptr, s) =>
      if P.maxArgs < args.length + 1 then (.error .argumentError, s)
      else (.ok (.npfunc fptr args.length (mat.nrows, mat.ncols)), s)

/-- `lambdify(args, expression)`: lambdification.py:85-103. -/
def lambdify {F : Type} (P : Platform F) (args : List PyObj) (expression : LambdifyArg) (s : Proc F) :
    PyM Callable × Proc F :=
  match args.mapM PyObj.rep with
  | .error err => (.error err, s)
  | .ok argsRep =>
    match expression with
    | .expr e => lambdifyLlvm P argsRep e s
    | .matrix m => lambdifyLlvmMatrix P argsRep m s
    | .other => (.error .typeError, s)

/-! ### Calling -/

/-- An argument of a call. -/
inductive CallArg (F : Type) where
  | float (v : F)
  | int (n : Int)
  /-- `None`, a `str` or `bytes`, which ctypes can pass as a pointer -/
  | pointer
  /-- any other object that is not a number (objects of ctypes and objects with `_as_parameter_`
  are not modelled) -/
  | other

/-- `c_double.from_param(a)`; every failure becomes `ctypes.ArgumentError`. -/
def fromParam {F : Type} (P : Platform F) : CallArg F → PyM F
  | .float v => .ok v
  | .int n =>
    match P.ofInt n with
    | some v => .ok v
    | none => .error .argumentError
  | .pointer | .other => .error .argumentError

/-- An argument beyond `argtypes` (`ConvParam` in CPython's callproc.c): ctypes accepts ints that fit
in 64 bits and what it can pass as a pointer (the called function does not see them) but not floats. -/
def extraParam {F : Type} : CallArg F → PyM Unit
  | .int n => if -2 ^ 63 ≤ n ∧ n < 2 ^ 64 then .ok () else .error .argumentError
  | .pointer => .ok ()
  | _ => .error .argumentError

/-- The argument rules of a `CFUNCTYPE` function with `pointers` parameters that the code passes itself
and `nargs` parameters of type `c_double`: `TypeError` if there are too few, `ArgumentError` if there
are more than ctypes can pass, then each argument is converted in turn. -/
def ctypesArgs {F : Type} (P : Platform F) (pointers nargs : Nat) (args : List (CallArg F)) :
    PyM (List F) :=
  if args.length < nargs then .error .typeError
  else if P.maxArgs < args.length + pointers then .error .argumentError
  else do
    let vs ← (args.take nargs).mapM (fromParam P)
    let _ ← (args.drop nargs).mapM extraParam
    return vs

/-- Jump to an address. -/
def runAddress {F : Type} (P : Platform F) (s : Proc F) (fptr : Nat) (vs mem : List F) :
    Option (Option F × List F) :=
  match s.engines[fptr]? with
  | some (some text) => P.code text vs mem
  | _ => none

/-- What a call does. -/
inductive CallOutcome (F : Type) where
  /-- it returns a float -/
  | float (v : F)
  /-- it returns this array -/
  | array (id : Nat)
  | raised (err : PyErr)
  /-- undefined behaviour: freed or unsuitable machine code was run -/
  | undefined

/-- `f(*args)` for a function returned by `lambdify`: lambdification.py:148 and 245-249.
`npfunc` makes a new array of zeros, has the machine code fill it, ignores what that returns
(`rettype` is `c_double` although the function returns nothing) and returns the array. -/
def call {F : Type} (P : Platform F) (f : Callable) (args : List (CallArg F)) (s : Proc F) :
    CallOutcome F × Proc F :=
  match f with
  | .cfunc fptr nargs =>
    match ctypesArgs P 0 nargs args with
    | .error err => (.raised err, s)
    | .ok vs =>
      match runAddress P s fptr vs [] with
      | some (some v, _) => (.float v, s)
      | _ => (.undefined, s)
  | .npfunc fptr nargs shape =>
    let arr := s.arrays.length
    let s := { s with arrays := s.arrays ++ [List.replicate (shape.1 * shape.2) P.zero] }
    match ctypesArgs P 1 nargs args with
    | .error err => (.raised err, s)
    | .ok vs =>
      match runAddress P s fptr vs (List.replicate (shape.1 * shape.2) P.zero) with
      | some (_, mem) => (.array arr, { s with arrays := s.arrays.set arr mem })
      | none => (.undefined, s)

end Verif
