import Verif.Model.Compile
import Verif.Spec.LLVMText

/-!
# The process around compiled functions

What else may happen in a Python process between the creation of a compiled function and its
call, and what LLVM is trusted to do.
-/

namespace Verif.Spec

/-- A well-formed module, in the sense of `RunsModule`. -/
def ValidModule (text : String) : Prop :=
  ∃ ds fn, parseModule text = some (ds, fn) ∧ SSA fn ∧
    ∀ i ∈ fn.body, ∀ c, Instr.callee i = some c → c ∈ ds

/-- LLVM accepts well-formed modules and its machine code for a text does what the text says with
the arithmetic `A`; `0.0` and `float(n)` are doubles of that arithmetic; ctypes can call functions
with 1024 parameters, if not more. -/
structure PlatformOK {F : Type} (P : Platform F) (A : IRArith F) : Prop where
  accepts : ∀ text, ValidModule text → P.accepts text = true
  code : ∀ text vs mem r, RunsModule A text vs mem r → P.code text vs mem = some r
  zero : P.zero = A.const 0
  ofInt : ∀ n, P.ofInt n = (doubleBits n).map A.const
  maxArgs : 1024 ≤ P.maxArgs

/-- One event in the process.  `W` are the arrays that the user may overwrite. -/
inductive Event {F : Type} (P : Platform F) (W : Nat → Prop) : Proc F → Proc F → Prop where
  /-- any call of `lambdify`, also one that raises -/
  | lambdify (args : List PyObj) (e : LambdifyArg) (s : Proc F) :
      Event P W s (lambdify P args e s).2
  /-- any call of a compiled function, also one that raises -/
  | call (f : Callable) (args : List (CallArg F)) (s : Proc F)
      (h : (call P f args s).1 ≠ .undefined) : Event P W s (call P f args s).2
  /-- the user changes an array -/
  | write (id : Nat) (cells : List F) (s : Proc F) (h : W id) :
      Event P W s { s with arrays := s.arrays.set id cells }
  /-- the garbage collector frees an engine that is not in `_exe_eng` -/
  | free (i : Nat) (s : Proc F) (h : i ∉ s.exeEng) :
      Event P W s { s with engines := s.engines.set i none }

/-- Any number of events. -/
inductive Later {F : Type} (P : Platform F) (W : Nat → Prop) : Proc F → Proc F → Prop where
  | refl (s : Proc F) : Later P W s s
  | step {s t u : Proc F} : Later P W s t → Event P W t u → Later P W s u

/-- `a` is a number whose double is `v`. -/
def IsDouble {F : Type} (A : IRArith F) (a : CallArg F) (v : F) : Prop :=
  a = .float v ∨ ∃ n b, a = .int n ∧ doubleBits n = some b ∧ A.const b = v

/-- Ctypes ignores this if it is an argument beyond the parameters. -/
def Ignored {F : Type} (a : CallArg F) : Prop :=
  a = .pointer ∨ ∃ n, a = .int n ∧ -2 ^ 63 ≤ n ∧ n < 2 ^ 64

/-- The number of parameters of the machine code for `n` symbols: for a matrix there is the array,
too. -/
def ctypesParams (n : Nat) : LambdifyArg → Nat
  | .matrix _ => n + 1
  | _ => n

/-- `f` was returned by `lambdify(symargs, e)` at some time before the state `s`. -/
def Compiled {F : Type} (P : Platform F) (f : Callable) (symargs : List Expr) (e : LambdifyArg)
    (s : Proc F) : Prop :=
  ∃ W s0 s1, lambdify P (symargs.map .expr) e s0 = (.ok f, s1) ∧ Later P W s1 s

/-- The shape of the arrays that a compiled function returns (`np.zeros(mat.shape, np.float64)`); `none` if it
returns floats. -/
def arrayShape : Callable → Option (Nat × Nat)
  | .cfunc _ _ => none
  | .npfunc _ _ shape => some shape

/-- All are `Symbol`s. -/
def Symbols (l : List Expr) : Prop := ∀ a ∈ l, ∃ name, a = Expr.symbol name

/-- The dict `{k: g for k, g in zip(ks, gs)}`. -/
def dictOf (ks gs : List Expr) : Dict PyObj PyObj :=
  Dict.ofPairs ((ks.zip gs).map fun p => (.expr p.1, .expr p.2))

end Verif.Spec
