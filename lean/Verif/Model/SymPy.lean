import Verif.Model.Matrix
import Verif.Model.Functions

/-!
# Model of src/protosym/simplecas/sympy_conversions.py

SymPy itself is not modelled: its constructors, which may rewrite what they are given in any way,
are a parameter (`SymPyLib`).  What the conversion code observes of a SymPy object (its class, its
`args`, the value of an Integer, the name of a Symbol or an undefined function, and equality for
the lookup in the cache) is given by `SExpr`; equality of SymPy objects is taken to be structural.
-/

namespace Verif

/-- The classes that `_from_sympy_cache_args` distinguishes: sympy_conversions.py:107-122. -/
inductive SKind where
  | add | mul | pow | sin | cos | tuple
  /-- `AppliedUndef` with its `name` -/
  | undef (name : String)
  /-- any other class -/
  | other (cls : Nat)
deriving DecidableEq, Repr

/-- A SymPy object. -/
inductive SExpr where
  /-- `sympy.Integer(n)` -/
  | int (n : Int)
  /-- `sympy.Symbol(name, …)`; `assumptions = 0` for `sympy.Symbol(name)` -/
  | sym (name : String) (assumptions : Nat)
  /-- `sympy.Function(name)`, which is a class -/
  | cls (name : String)
  /-- another object without `args`: `sympy.pi`, `sympy.Rational(1, 2)`, … -/
  | leaf (id : Nat)
  /-- an object with `args` (`Tuple()` and `f()` have none) -/
  | app (kind : SKind) (args : List SExpr)

mutual
/-- Equality of SymPy objects. -/
def SExpr.decEq : (s t : SExpr) → Decidable (s = t)
  | .int n, .int m => if h : n = m then isTrue (h ▸ rfl) else isFalse (fun e => h (by cases e; rfl))
  | .sym n a, .sym m b =>
    if h : n = m ∧ a = b then isTrue (h.1 ▸ h.2 ▸ rfl)
    else isFalse (fun e => h (by cases e; exact ⟨rfl, rfl⟩))
  | .cls n, .cls m => if h : n = m then isTrue (h ▸ rfl) else isFalse (fun e => h (by cases e; rfl))
  | .leaf n, .leaf m => if h : n = m then isTrue (h ▸ rfl) else isFalse (fun e => h (by cases e; rfl))
  | .app k as, .app l bs =>
    if h : k = l then
      match SExpr.decEqList as bs with
      | isTrue h' => isTrue (h ▸ h' ▸ rfl)
      | isFalse h' => isFalse (fun e => h' (by cases e; rfl))
    else isFalse (fun e => h (by cases e; rfl))
  | .int _, .sym _ _ => isFalse (by intro h; cases h)
  | .int _, .cls _ => isFalse (by intro h; cases h)
  | .int _, .leaf _ => isFalse (by intro h; cases h)
  | .int _, .app _ _ => isFalse (by intro h; cases h)
  | .sym _ _, .int _ => isFalse (by intro h; cases h)
  | .sym _ _, .cls _ => isFalse (by intro h; cases h)
  | .sym _ _, .leaf _ => isFalse (by intro h; cases h)
  | .sym _ _, .app _ _ => isFalse (by intro h; cases h)
  | .cls _, .int _ => isFalse (by intro h; cases h)
  | .cls _, .sym _ _ => isFalse (by intro h; cases h)
  | .cls _, .leaf _ => isFalse (by intro h; cases h)
  | .cls _, .app _ _ => isFalse (by intro h; cases h)
  | .leaf _, .int _ => isFalse (by intro h; cases h)
  | .leaf _, .sym _ _ => isFalse (by intro h; cases h)
  | .leaf _, .cls _ => isFalse (by intro h; cases h)
  | .leaf _, .app _ _ => isFalse (by intro h; cases h)
  | .app _ _, .int _ => isFalse (by intro h; cases h)
  | .app _ _, .sym _ _ => isFalse (by intro h; cases h)
  | .app _ _, .cls _ => isFalse (by intro h; cases h)
  | .app _ _, .leaf _ => isFalse (by intro h; cases h)
/-- Equality of lists of SymPy objects. -/
def SExpr.decEqList : (s t : List SExpr) → Decidable (s = t)
  | [], [] => isTrue rfl
  | [], _ :: _ => isFalse (by intro h; cases h)
  | _ :: _, [] => isFalse (by intro h; cases h)
  | c :: cs, d :: ds =>
    match SExpr.decEq c d with
    | isFalse h => isFalse (fun e => h (by cases e; rfl))
    | isTrue h =>
      match SExpr.decEqList cs ds with
      | isTrue h' => isTrue (h ▸ h' ▸ rfl)
      | isFalse h' => isFalse (fun e => h' (by cases e; rfl))
end

instance : DecidableEq SExpr := SExpr.decEq

/-- No SymPy object is `None`. -/
instance : HasNone SExpr := ⟨fun _ => false⟩

/-- `expr.args` -/
def SExpr.args : SExpr → List SExpr
  | .app _ as => as
  | _ => []

/-- The SymPy functions that the conversion calls.  They may rewrite or raise. -/
structure SymPyLib where
  integer : Int → PyM SExpr
  symbol : String → PyM SExpr
  function : String → PyM SExpr
  add : List SExpr → PyM SExpr
  mul : List SExpr → PyM SExpr
  pow : SExpr → SExpr → PyM SExpr
  sin : SExpr → PyM SExpr
  cos : SExpr → PyM SExpr
  tuple : List SExpr → PyM SExpr
  /-- `sympy.Function(name)(*args)` -/
  undef : String → List SExpr → PyM SExpr

/-- The value of an `Integer` atom made from an int is an int. -/
def SymPyLib.fromInt (L : SymPyLib) : Val → PyM SExpr
  | .int n => L.integer n
  | .str _ => .error .valueError

/-- The value of a `Symbol` or `Function` atom is a str. -/
def fromStr (f : String → PyM SExpr) : Val → PyM SExpr
  | .str s => f s
  | .int _ => .error .typeError

/-- `sympy_undef_call`: sympy_conversions.py:42-44. -/
def SymPyLib.undefCall (L : SymPyLib) (head : Expr) (args : List SExpr) : PyM SExpr := do
  let name ← treeStr head
  L.undef name args

open Expr in
/-- The rules of `eval_to_sympy`: sympy_conversions.py:31-55, in order. -/
def toSympyRules (L : SymPyLib) : List (Pattern × PyFn SExpr × List Expr) :=
  [(.atomValue Ty.integer wa, .func1 L.fromInt, [wa]),
   (.atomValue Ty.symbol wa, .func1 (fromStr L.symbol), [wa]),
   (.atomValue Ty.function wa, .func1 (fromStr L.function), [wa]),
   (.sym (addH.call [star wa]), .opN L.add, [wa]),
   (.sym (mulH.call [star wa]), .opN L.mul, [wa]),
   (.sym (pow wa wb), .op2 (arity2 L.pow), [wa, wb]),
   (.sym (sin wa), .op1 (arity1 L.sin), [wa]),
   (.sym (cos wa), .op1 (arity1 L.cos), [wa]),
   (.sym (listH.call [star wa]), .opN L.tuple, [wa]),
   (.headRule wa wb, .headOp L.undefCall, [wa, wb])]

/-- The evaluator `eval_to_sympy`: sympy_conversions.py:31-55. -/
def evalToSympy (L : SymPyLib) : Evaluator PyM Val SExpr := evaluatorOf (toSympyRules L)

/-- `to_sympy(expr)`: sympy_conversions.py:58-60; `Expr.to_sympy`: simplecas/expr.py:276-300. -/
def toSympy (L : SymPyLib) (e : Expr) : PyM SExpr := symEvalCall (evalToSympy L) e

/-- The end of `_from_sympy_cache_args`: sympy_conversions.py:107-122. -/
def fromSympyBuild (k : SKind) (args : List Expr) : PyM Expr :=
  match k with
  | .add => .ok (Expr.addH.call args)
  | .mul => .ok (Expr.mulH.call args)
  | .pow => .ok (Expr.powH.call args)
  | .sin => .ok (Expr.sinH.call args)
  | .cos => .ok (Expr.cosH.call args)
  | .tuple => .ok (Expr.listH.call args)
  | .undef name => .ok ((Expr.function name).call args)
  | .other _ => .error .notImplementedError

/-- The lookup and the update of the cache around a computation:
sympy_conversions.py:90-92, 101-102. -/
def withCache (cache : Dict SExpr Expr) (s : SExpr)
    (compute : PyM (Expr × Dict SExpr Expr)) : PyM (Expr × Dict SExpr Expr) :=
  match cache.get? s with
  | some ret => .ok (ret, cache)
  | none => do
    let (ret, cache) ← compute
    return (ret, cache.set s ret)

mutual
/-- `_from_sympy_cache(expr, cache)`: sympy_conversions.py:89-102 with
`_from_sympy_cache_args`: 105-122.  The cache is returned because the code mutates it.  For the
class `sympy.Function(name)`, `expr.args` is a property object: it is true but cannot be iterated,
which raises `TypeError`. -/
def fromSympyCache : SExpr → Dict SExpr Expr → PyM (Expr × Dict SExpr Expr)
  | .int n, cache => withCache cache (.int n) (.ok (Expr.integer n, cache))
  | .sym name a, cache => withCache cache (.sym name a) (.ok (Expr.symbol name, cache))
  | .cls name, cache => withCache cache (.cls name) (.error .typeError)
  | .leaf id, cache => withCache cache (.leaf id) (.error .notImplementedError)
  | .app k as, cache =>
    withCache cache (.app k as)
      (if as.isEmpty then .error .notImplementedError
      else do
        let (args, cache) ← fromSympyCacheList as cache
        let ret ← fromSympyBuild k args
        return (ret, cache))
/-- `[_from_sympy_cache(arg, cache) for arg in expr.args]`: sympy_conversions.py:106. -/
def fromSympyCacheList : List SExpr → Dict SExpr Expr → PyM (List Expr × Dict SExpr Expr)
  | [], cache => .ok ([], cache)
  | s :: ss, cache => do
    let (e, cache) ← fromSympyCache s cache
    let (es, cache) ← fromSympyCacheList ss cache
    return (e :: es, cache)
end

/-- `from_sympy(expr)`: sympy_conversions.py:72-74; `Expr.from_sympy`: simplecas/expr.py:303-328. -/
def fromSympy (s : SExpr) : PyM Expr := do
  let (e, _) ← fromSympyCache s Dict.empty
  return e

/-! ### Matrices -/

/-- A SymPy matrix: its shape and the entries that were assigned; the others are 0. -/
structure SMat where
  rows : Nat
  cols : Nat
  entries : Dict (Nat × Nat) SExpr

/-- `mat[i, j]` -/
def SMat.get (m : SMat) (i j : Nat) : SExpr := (m.entries.get? (i, j)).getD (.int 0)

/-- `mat[i, j] = v`: `IndexError` when out of range. -/
def SMat.setItem (m : SMat) (ij : Nat × Nat) (v : SExpr) : PyM SMat :=
  if ij.1 < m.rows ∧ ij.2 < m.cols then .ok { m with entries := m.entries.set ij v }
  else .error .indexError

/-- The loop of `to_sympy_matrix`: sympy_conversions.py:67-68. -/
def toSympyMatrixLoop (elements : List SExpr) : List ((Nat × Nat) × Nat) → SMat → PyM SMat
  | [], m => .ok m
  | (ij, n) :: rest, m => do
    let v ← pyGet elements n
    let m ← m.setItem ij v
    toSympyMatrixLoop elements rest m

/-- `to_sympy_matrix(mat)`: sympy_conversions.py:63-69. -/
def toSympyMatrix (L : SymPyLib) (mat : Mat) : PyM SMat := do
  let g ← toSympy L mat.elementsGraph
  toSympyMatrixLoop g.args mat.entrymap.items ⟨mat.nrows, mat.ncols, Dict.empty⟩

/-- The loop of `from_sympy_matrix`: sympy_conversions.py:82-84. -/
def fromSympyMatrixLoop : Nat → List ((Nat × Nat) × SExpr) →
    Dict (Nat × Nat) Nat × List SExpr → Dict (Nat × Nat) Nat × List SExpr
  | _, [], s => s
  | n, (key, v) :: rest, (entrymap, elements) =>
    fromSympyMatrixLoop (n + 1) rest (entrymap.set key n, elements ++ [v])

/-- `from_sympy_matrix(mat)`: sympy_conversions.py:77-86, given the shape of `mat` and the items of
`mat.todok()`. -/
def fromSympyMatrix (L : SymPyLib) (rows cols : Nat) (dok : List ((Nat × Nat) × SExpr)) :
    PyM Mat := do
  let (entrymap, elementsSympy) := fromSympyMatrixLoop 0 dok (Dict.empty, [])
  let t ← L.tuple elementsSympy
  let e ← fromSympy t
  return Mat.mk' rows cols e.args entrymap

end Verif
