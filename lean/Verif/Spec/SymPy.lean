import Verif.Model.SymPy
import Verif.Spec.Print

/-!
# Which SymPy objects and expressions correspond to each other
-/

namespace Verif.Spec
open Expr

mutual
/-- What `from_sympy` should return: the assumptions of symbols are dropped. -/
inductive Converts : SExpr → Expr → Prop
  | int {n} : Converts (.int n) (integer n)
  | sym {name a} : Converts (.sym name a) (symbol name)
  | add {ss es} : ss ≠ [] → ConvertsAll ss es → Converts (.app .add ss) (.node (addH :: es))
  | mul {ss es} : ss ≠ [] → ConvertsAll ss es → Converts (.app .mul ss) (.node (mulH :: es))
  | pow {ss es} : ss ≠ [] → ConvertsAll ss es → Converts (.app .pow ss) (.node (powH :: es))
  | sin {ss es} : ss ≠ [] → ConvertsAll ss es → Converts (.app .sin ss) (.node (sinH :: es))
  | cos {ss es} : ss ≠ [] → ConvertsAll ss es → Converts (.app .cos ss) (.node (cosH :: es))
  | tuple {ss es} : ss ≠ [] → ConvertsAll ss es → Converts (.app .tuple ss) (.node (listH :: es))
  | undef {name ss es} : ss ≠ [] → ConvertsAll ss es →
      Converts (.app (.undef name) ss) (.node (function name :: es))
/-- Pointwise. -/
inductive ConvertsAll : List SExpr → List Expr → Prop
  | nil : ConvertsAll [] []
  | cons {s ss e es} : Converts s e → ConvertsAll ss es → ConvertsAll (s :: ss) (e :: es)
end

/-- The heads with a SymPy counterpart of their own. -/
def IsKnown (h : Expr) : Prop :=
  h = addH ∨ h = mulH ∨ h = powH ∨ h = sinH ∨ h = cosH ∨ h = listH

mutual
/-- What `to_sympy` should return, whatever SymPy's constructors do: the constructor of the same
name applied to the converted arguments, and for any other head the undefined function named by
the text of the head. -/
inductive Builds (L : SymPyLib) : Expr → SExpr → Prop
  | int {n s} : L.integer n = .ok s → Builds L (integer n) s
  | sym {name s} : L.symbol name = .ok s → Builds L (symbol name) s
  | fn {name s} : L.function name = .ok s → Builds L (function name) s
  | add {es ss s} : BuildsAll L es ss → L.add ss = .ok s → Builds L (.node (addH :: es)) s
  | mul {es ss s} : BuildsAll L es ss → L.mul ss = .ok s → Builds L (.node (mulH :: es)) s
  | pow {a b s t u} : Builds L a s → Builds L b t → L.pow s t = .ok u →
      Builds L (.node [powH, a, b]) u
  | sin {a s u} : Builds L a s → L.sin s = .ok u → Builds L (.node [sinH, a]) u
  | cos {a s u} : Builds L a s → L.cos s = .ok u → Builds L (.node [cosH, a]) u
  | list {es ss s} : BuildsAll L es ss → L.tuple ss = .ok s → Builds L (.node (listH :: es)) s
  | call {h es name ss s} : ¬ IsKnown h → Shows h name → BuildsAll L es ss →
      L.undef name ss = .ok s → Builds L (.node (h :: es)) s
/-- Pointwise. -/
inductive BuildsAll (L : SymPyLib) : List Expr → List SExpr → Prop
  | nil : BuildsAll L [] []
  | cons {e es s ss} : Builds L e s → BuildsAll L es ss → BuildsAll L (e :: es) (s :: ss)
end

mutual
/-- SymPy objects that can be converted without loss: symbols without assumptions, powers of two
and `sin`, `cos` of one argument, undefined functions not named like a known head, and nothing
without arguments but integers and symbols. -/
inductive Plain : SExpr → Prop
  | int {n} : Plain (.int n)
  | sym {name} : Plain (.sym name 0)
  | add {ss} : ss ≠ [] → PlainAll ss → Plain (.app .add ss)
  | mul {ss} : ss ≠ [] → PlainAll ss → Plain (.app .mul ss)
  | pow {a b} : Plain a → Plain b → Plain (.app .pow [a, b])
  | sin {a} : Plain a → Plain (.app .sin [a])
  | cos {a} : Plain a → Plain (.app .cos [a])
  | tuple {ss} : ss ≠ [] → PlainAll ss → Plain (.app .tuple ss)
  | undef {name ss} : ¬ IsKnown (function name) → ss ≠ [] → PlainAll ss →
      Plain (.app (.undef name) ss)
/-- Pointwise. -/
inductive PlainAll : List SExpr → Prop
  | nil : PlainAll []
  | cons {s ss} : Plain s → PlainAll ss → PlainAll (s :: ss)
end

mutual
/-- Expressions that survive the way to SymPy and back: integers, symbols, sums, products, lists
and calls of functions with at least one argument, powers of two and `sin`, `cos` of one. -/
inductive Ordinary : Expr → Prop
  | int {n} : Ordinary (integer n)
  | sym {name} : Ordinary (symbol name)
  | add {es} : es ≠ [] → OrdinaryAll es → Ordinary (.node (addH :: es))
  | mul {es} : es ≠ [] → OrdinaryAll es → Ordinary (.node (mulH :: es))
  | pow {a b} : Ordinary a → Ordinary b → Ordinary (.node [powH, a, b])
  | sin {a} : Ordinary a → Ordinary (.node [sinH, a])
  | cos {a} : Ordinary a → Ordinary (.node [cosH, a])
  | list {es} : es ≠ [] → OrdinaryAll es → Ordinary (.node (listH :: es))
  | call {name es} : ¬ IsKnown (function name) → es ≠ [] → OrdinaryAll es →
      Ordinary (.node (function name :: es))
/-- Pointwise. -/
inductive OrdinaryAll : List Expr → Prop
  | nil : OrdinaryAll []
  | cons {e es} : Ordinary e → OrdinaryAll es → OrdinaryAll (e :: es)
end

/-- `u` occurs in `s`. -/
inductive SSub : SExpr → SExpr → Prop
  | refl {s} : SSub s s
  | arg {k as a u} : a ∈ as → SSub a u → SSub (.app k as) u

/-- `s.func(*s.args)`, in which SymPy may rewrite. -/
def rebuild (L : SymPyLib) : SExpr → PyM SExpr
  | .int n => L.integer n
  | .sym name _ => L.symbol name
  | .cls name => L.function name
  | .leaf id => .ok (.leaf id)
  | .app .add as => L.add as
  | .app .mul as => L.mul as
  | .app .pow [a, b] => L.pow a b
  | .app .sin [a] => L.sin a
  | .app .cos [a] => L.cos a
  | .app .tuple as => L.tuple as
  | .app (.undef name) as => L.undef name as
  | .app k as => .ok (.app k as)

/-- SymPy does not rewrite `s`: rebuilding any part of it gives that part. -/
def Stable (L : SymPyLib) (s : SExpr) : Prop := ∀ u, SSub s u → rebuild L u = .ok u

/-- `s` and `e` correspond to each other. -/
def Mirrors (s : SExpr) (e : Expr) : Prop := Plain s ∧ Converts s e

/-- The items of `mat.todok()`, in any order: the entries that are not 0, each once. -/
structure IsDok (m : SMat) (dok : List ((Nat × Nat) × SExpr)) : Prop where
  nodup : (dok.map Prod.fst).Nodup
  mem : ∀ i j v, ((i, j), v) ∈ dok ↔ i < m.rows ∧ j < m.cols ∧ m.get i j = v ∧ v ≠ .int 0

/-- SymPy constructors that never rewrite. -/
def inertLib : SymPyLib where
  integer n := .ok (.int n)
  symbol s := .ok (.sym s 0)
  function s := .ok (.cls s)
  add l := .ok (.app .add l)
  mul l := .ok (.app .mul l)
  pow a b := .ok (.app .pow [a, b])
  sin a := .ok (.app .sin [a])
  cos a := .ok (.app .cos [a])
  tuple l := .ok (.app .tuple l)
  undef f l := .ok (.app (.undef f) l)

end Verif.Spec
