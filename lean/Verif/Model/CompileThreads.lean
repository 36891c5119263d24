import Verif.Model.Compile

/-!
# Model of src/protosym/simplecas/lambdification.py: compiling and calling in several threads

The functions of `Model/Compile.lean` once more, as sequences of the operations between which the interpreter
may switch threads, run the garbage collector or raise `KeyboardInterrupt`.  ctypes releases the GIL
while machine code runs, so other threads go on in the middle of it.  Objects that only the frame of a call
refers to are freed as soon as the frame is gone.
-/

namespace Verif

/-- What a thread is doing, with the local variables that matter. -/
inductive LFrame (F : Type) where
  | idle
  /-- `lambdify(args, e)` has been called: lambdification.py:97 -/
  | lambdifying (args : List PyObj) (e : LambdifyArg)
  /-- `exe_eng.finalize_object()` is done: lambdification.py:131 -/
  | finalized (args : List PyObj) (e : LambdifyArg) (exeEng : Nat)
  /-- `_exe_eng.append(exe_eng)` is done: lambdification.py:132 -/
  | appended (args : List PyObj) (e : LambdifyArg) (exeEng : Nat)
  /-- `f(*args)` has been called: lambdification.py:148 or 245 -/
  | called (f : Callable) (args : List (CallArg F))
  /-- `arr = np.zeros(...)` is done: lambdification.py:246 -/
  | zeros (f : Callable) (args : List (CallArg F)) (arr : Nat)
  /-- the machine code runs, with these values for its `double` parameters; if there is a pointer parameter, it
  points to the array `arr`, which held `mem` at first -/
  | machine (f : Callable) (args : List (CallArg F)) (vs : List F) (arr : Option (Nat × List F))
  /-- the machine code has filled `arr`: lambdification.py:249 -/
  | filled (f : Callable) (args : List (CallArg F)) (arr : Nat)

/-- The engine that local variables refer to: `exe_eng` in `_compile_llvm` (a compiled function has only the
address of the machine code). -/
def LFrame.engine {F : Type} : LFrame F → Option Nat
  | .finalized _ _ i | .appended _ _ i => some i
  | _ => none

/-- The array that local variables refer to: `arr` in `npfunc`. -/
def LFrame.array {F : Type} : LFrame F → Option Nat
  | .zeros _ _ a | .filled _ _ a => some a
  | .machine _ _ _ (some (a, _)) => some a
  | _ => none

/-- A process whose threads compile functions and call them. -/
structure LState (F : Type) where
  /-- as in `Proc` -/
  engines : List (Option String)
  /-- `_exe_eng`, lambdification.py:106 -/
  exeEng : List Nat
  /-- the contents of numpy arrays; `none` if freed -/
  arrays : List (Option (List F))
  /-- the functions that `lambdify` has returned to anyone -/
  functions : List Callable
  /-- the arrays that compiled functions have returned to anyone -/
  given : List Nat
  thread : Nat → LFrame F
  /-- something undefined has happened -/
  crashed : Bool

/-- What a user can see. -/
inductive LEvent (F : Type) where
  /-- in the thread `t`, `lambdify(args, e)` returns or raises `r` -/
  | made (t : Nat) (args : List PyObj) (e : LambdifyArg) (r : PyM Callable)
  /-- in the thread `t`, `f(*args)` returns or raises `r`; `cells`: the contents of the array at that time -/
  | ended (t : Nat) (f : Callable) (args : List (CallArg F)) (r : CallOutcome F)
      (cells : Option (List F))

namespace LState

variable {F : Type}

/-- The thread `t` goes on with `f`. -/
def goto (s : LState F) (t : Nat) (f : LFrame F) : LState F :=
  { s with thread := fun t' => if t' = t then f else s.thread t' }

/-- The machine code at an address. -/
def code (s : LState F) (fptr : Nat) : Option String :=
  match s.engines[fptr]? with
  | some (some text) => some text
  | _ => none

end LState

/-- The function object that `lambdify` makes for the engine `i`: lambdification.py:144-149 and 239-251. -/
def LambdifyArg.callable (e : LambdifyArg) (i n : Nat) : Callable :=
  match e with
  | .matrix m => .npfunc i n (m.nrows, m.ncols)
  | _ => .cfunc i n

/-- The number of parameters that `CFUNCTYPE` gets: lambdification.py:144 and 239. -/
def LambdifyArg.argtypes (e : LambdifyArg) (n : Nat) : Nat :=
  match e with
  | .matrix _ => n + 1
  | _ => n

/-- One operation of a thread (`some t`) or of the memory management and the users (`none`). -/
inductive LStep {F : Type} (P : Platform F) : LState F → Option Nat → Option (LEvent F) → LState F → Prop
  /-- a call of `lambdify` begins -/
  | lambdify (s : LState F) (t : Nat) (args : List PyObj) (e : LambdifyArg) : s.thread t = .idle →
      LStep P s (some t) none (s.goto t (.lambdifying args e))
  /-- the code cannot be generated: lambdification.py:97-103 -/
  | refused (s : LState F) (t : Nat) (args : List PyObj) (e : LambdifyArg) (err : PyErr) :
      s.thread t = .lambdifying args e → lambdifyCode args e = .error err →
      LStep P s (some t) (some (.made t args e (.error err))) (s.goto t .idle)
  /-- `parse_assembly` does not accept it: lambdification.py:120 -/
  | rejected (s : LState F) (t : Nat) (args : List PyObj) (e : LambdifyArg) (fn : IRFunction) :
      s.thread t = .lambdifying args e → lambdifyCode args e = .ok fn → P.accepts fn.text = false →
      LStep P s (some t) (some (.made t args e (.error .runtimeError))) (s.goto t .idle)
  /-- it is compiled (what LLVM needs for this belongs to the thread): lambdification.py:116-131 -/
  | finalize (s : LState F) (t : Nat) (args : List PyObj) (e : LambdifyArg) (fn : IRFunction) :
      s.thread t = .lambdifying args e → lambdifyCode args e = .ok fn → P.accepts fn.text = true →
      LStep P s (some t) none
        ({ s with engines := s.engines ++ [some fn.text] }.goto t (.finalized args e s.engines.length))
  /-- `_exe_eng.append(exe_eng)`: lambdification.py:132 -/
  | append (s : LState F) (t : Nat) (args : List PyObj) (e : LambdifyArg) (i : Nat) :
      s.thread t = .finalized args e i →
      LStep P s (some t) none ({ s with exeEng := s.exeEng ++ [i] }.goto t (.appended args e i))
  /-- `CFUNCTYPE` raises: lambdification.py:147 and 243 -/
  | tooMany (s : LState F) (t : Nat) (args : List PyObj) (e : LambdifyArg) (i : Nat) :
      s.thread t = .appended args e i → P.maxArgs < e.argtypes args.length →
      LStep P s (some t) (some (.made t args e (.error .argumentError))) (s.goto t .idle)
  /-- `lambdify` returns: lambdification.py:98, 100, 149, 251 -/
  | made (s : LState F) (t : Nat) (args : List PyObj) (e : LambdifyArg) (i : Nat) :
      s.thread t = .appended args e i → ¬ P.maxArgs < e.argtypes args.length →
      LStep P s (some t) (some (.made t args e (.ok (e.callable i args.length))))
        ({ s with functions := s.functions ++ [e.callable i args.length] }.goto t .idle)
  /-- a call of a compiled function begins -/
  | call (s : LState F) (t : Nat) (f : Callable) (args : List (CallArg F)) : s.thread t = .idle →
      f ∈ s.functions → LStep P s (some t) none (s.goto t (.called f args))
  /-- an expression: ctypes refuses the arguments -/
  | badArgs (s : LState F) (t : Nat) (i n : Nat) (args : List (CallArg F)) (err : PyErr) :
      s.thread t = .called (.cfunc i n) args → ctypesArgs P 0 n args = .error err →
      LStep P s (some t) (some (.ended t (.cfunc i n) args (.raised err) none)) (s.goto t .idle)
  /-- an expression: ctypes jumps to the address -/
  | enter (s : LState F) (t : Nat) (i n : Nat) (args : List (CallArg F)) (vs : List F) :
      s.thread t = .called (.cfunc i n) args → ctypesArgs P 0 n args = .ok vs →
      LStep P s (some t) none (s.goto t (.machine (.cfunc i n) args vs none))
  /-- an expression: the machine code returns -/
  | leave (s : LState F) (t : Nat) (i n : Nat) (args : List (CallArg F)) (vs : List F) (text : String)
      (v : F) (mem : List F) : s.thread t = .machine (.cfunc i n) args vs none → s.code i = some text →
      P.code text vs [] = some (some v, mem) →
      LStep P s (some t) (some (.ended t (.cfunc i n) args (.float v) none)) (s.goto t .idle)
  /-- a matrix: `np.zeros(mat.shape, np.float64)`, lambdification.py:246 -/
  | zeros (s : LState F) (t : Nat) (i n : Nat) (shape : Nat × Nat) (args : List (CallArg F)) :
      s.thread t = .called (.npfunc i n shape) args →
      LStep P s (some t) none
        ({ s with arrays := s.arrays ++ [some (List.replicate (shape.1 * shape.2) P.zero)] }.goto t
          (.zeros (.npfunc i n shape) args s.arrays.length))
  /-- a matrix: ctypes refuses the arguments, lambdification.py:248 -/
  | badArgsMatrix (s : LState F) (t : Nat) (i n : Nat) (shape : Nat × Nat) (args : List (CallArg F))
      (a : Nat) (err : PyErr) : s.thread t = .zeros (.npfunc i n shape) args a →
      ctypesArgs P 1 n args = .error err →
      LStep P s (some t) (some (.ended t (.npfunc i n shape) args (.raised err) none)) (s.goto t .idle)
  /-- a matrix: ctypes jumps to the address, with a pointer to the array, lambdification.py:248 -/
  | enterMatrix (s : LState F) (t : Nat) (i n : Nat) (shape : Nat × Nat) (args : List (CallArg F))
      (a : Nat) (vs mem : List F) : s.thread t = .zeros (.npfunc i n shape) args a →
      ctypesArgs P 1 n args = .ok vs → s.arrays[a]? = some (some mem) →
      LStep P s (some t) none (s.goto t (.machine (.npfunc i n shape) args vs (some (a, mem))))
  /-- the machine code has written something to its array, but is not done -/
  | store (s : LState F) (t : Nat) (f : Callable) (args : List (CallArg F)) (vs : List F) (a : Nat)
      (mem old now : List F) : s.thread t = .machine f args vs (some (a, mem)) →
      s.arrays[a]? = some (some old) → LStep P s (some t) none { s with arrays := s.arrays.set a (some now) }
  /-- a matrix: the machine code returns -/
  | leaveMatrix (s : LState F) (t : Nat) (i n : Nat) (shape : Nat × Nat) (args : List (CallArg F))
      (vs : List F) (a : Nat) (mem : List F) (text : String) (r : Option F) (mem' old : List F) :
      s.thread t = .machine (.npfunc i n shape) args vs (some (a, mem)) → s.code i = some text →
      P.code text vs mem = some (r, mem') → s.arrays[a]? = some (some old) →
      LStep P s (some t) none
        ({ s with arrays := s.arrays.set a (some mem') }.goto t (.filled (.npfunc i n shape) args a))
  /-- `return arr`: lambdification.py:249 -/
  | returns (s : LState F) (t : Nat) (f : Callable) (args : List (CallArg F)) (a : Nat) :
      s.thread t = .filled f args a →
      LStep P s (some t) (some (.ended t f args (.array a) (s.arrays[a]?.join)))
        ({ s with given := s.given ++ [a] }.goto t .idle)
  /-- machine code runs that is not what the caller expects, that has been freed, or whose array has been freed -/
  | undefined (s : LState F) (t : Nat) (f : Callable) (args : List (CallArg F)) (vs : List F)
      (arr : Option (Nat × List F)) : s.thread t = .machine f args vs arr →
      (match f, arr with
        | .cfunc i _, none => ∀ text v mem, s.code i = some text → P.code text vs [] ≠ some (some v, mem)
        | .npfunc i _ _, some (a, mem) => s.arrays[a]?.join = none ∨
            ∀ text, s.code i = some text → P.code text vs mem = none
        | _, _ => True) →
      LStep P s (some t) (some (.ended t f args .undefined none)) { s.goto t .idle with crashed := true }
  /-- `KeyboardInterrupt`, anywhere outside machine code -/
  | interrupt (s : LState F) (t : Nat) : (∀ f args vs arr, s.thread t ≠ .machine f args vs arr) →
      LStep P s (some t) none (s.goto t .idle)
  /-- an engine is freed that neither `_exe_eng` nor a local variable refers to -/
  | freeEngine (s : LState F) (i : Nat) : i ∉ s.exeEng → (∀ t, (s.thread t).engine ≠ some i) →
      LStep P s none none { s with engines := s.engines.set i none }
  /-- an array is freed that has not been returned and that no local variable refers to -/
  | freeArray (s : LState F) (a : Nat) : a ∉ s.given → (∀ t, (s.thread t).array ≠ some a) →
      LStep P s none none { s with arrays := s.arrays.set a none }
  /-- a user changes an array that has been returned -/
  | write (s : LState F) (a : Nat) (cells : List F) : a ∈ s.given →
      LStep P s none none { s with arrays := s.arrays.set a (some cells) }

end Verif
