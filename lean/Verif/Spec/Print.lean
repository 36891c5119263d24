import Verif.Spec.Tree
import Verif.Model.Functions

/-!
# How expressions are written

A relation between expressions and texts, and the expressions whose text can be read back.
-/

namespace Verif.Spec
open Expr

mutual
/-- The plain form used for heads: `value` for an atom, `head(arg, …, arg)` otherwise. -/
inductive Shows : Expr → String → Prop
  | atom {a} : Shows (.atom a) (valStr a.value)
  | node {h args s ss} : Shows h s → ShowsAll args ss →
      Shows (.node (h :: args)) (s ++ "(" ++ String.intercalate ", " ss ++ ")")
/-- Pointwise. -/
inductive ShowsAll : List Expr → List String → Prop
  | nil : ShowsAll [] []
  | cons {e es s ss} : Shows e s → ShowsAll es ss → ShowsAll (e :: es) (s :: ss)
end

/-- What differs between `repr` and LaTeX. -/
structure Style where
  plus : String
  times : String
  power : String → String → String
  /-- functions of one argument with a notation of their own -/
  named : Expr → Option String
  /-- kinds of atoms that can be written -/
  atoms : AtomType → Prop

/-- `(x + y)`, `(x*y)`, `x**y`. -/
def reprStyle : Style := ⟨" + ", "*", fun b e => b ++ "**" ++ e, fun _ => none, fun _ => True⟩

/-- `(x + y)`, `(x \times y)`, `x^{y}`, `\sin(x)`, `\cos(x)`; Integers, Symbols and Functions. -/
def latexStyle : Style :=
  ⟨" + ", " \\times ", fun b e => b ++ "^{" ++ e ++ "}",
    fun h => if h = sinH then some "\\sin" else if h = cosH then some "\\cos" else none,
    fun ty => ty = Ty.integer ∨ ty = Ty.symbol ∨ ty = Ty.function⟩

mutual
/-- `Prints st e s`: the text of `e` is `s`. -/
inductive Prints (st : Style) : Expr → String → Prop
  | atom {a} : st.atoms a.atomType → Prints st (.atom a) (valStr a.value)
  | add {args ss} : PrintsAll st args ss →
      Prints st (.node (addH :: args)) ("(" ++ String.intercalate st.plus ss ++ ")")
  | mul {args ss} : PrintsAll st args ss →
      Prints st (.node (mulH :: args)) ("(" ++ String.intercalate st.times ss ++ ")")
  | pow {b e s t} : Prints st b s → Prints st e t →
      Prints st (.node [powH, b, e]) (st.power s t)
  | named {h name a s} : st.named h = some name → Prints st a s →
      Prints st (.node [h, a]) (name ++ "(" ++ s ++ ")")
  | call {h args s ss} : h ≠ addH → h ≠ mulH → h ≠ powH → st.named h = none → Shows h s →
      PrintsAll st args ss →
      Prints st (.node (h :: args)) (s ++ "(" ++ String.intercalate ", " ss ++ ")")
/-- Pointwise. -/
inductive PrintsAll (st : Style) : List Expr → List String → Prop
  | nil : PrintsAll st [] []
  | cons {e es s ss} : Prints st e s → PrintsAll st es ss → PrintsAll st (e :: es) (s :: ss)
end

/-- Expressions in which the degenerate `Tree()` does not occur, neither as an argument nor inside
a head: everything that can be built from `Integer`, `Symbol`, `Function` and calls. -/
def Proper (e : Expr) : Prop := ¬ Reach true (fun _ => False) e (.node [])

/-- A name: a letter or underscore followed by letters, digits and underscores. -/
def IsName (s : String) : Prop :=
  (∃ c, s.toList.head? = some c ∧ (c.isAlpha ∨ c = '_')) ∧
  ∀ c ∈ s.toList, c.isAlphanum ∨ c = '_'

mutual
/-- Expressions whose text can be read back: integers, symbols with proper names, sums of at least two
terms, products, powers whose base is not itself a power, and calls of named functions. -/
inductive Readable : Expr → Prop
  | int {n} : Readable (integer n)
  | sym {s} : IsName s → Readable (symbol s)
  | add {args} : 2 ≤ args.length → ReadableAll args → Readable (.node (addH :: args))
  | mul {args} : ReadableAll args → Readable (.node (mulH :: args))
  | pow {b e} : Readable b → (∀ args, b ≠ .node (powH :: args)) → Readable e →
      Readable (.node [powH, b, e])
  | call {f args} : IsName f → function f ≠ addH → function f ≠ mulH → function f ≠ powH →
      ReadableAll args → Readable (.node (function f :: args))
/-- Pointwise. -/
inductive ReadableAll : List Expr → Prop
  | nil : ReadableAll []
  | cons {e es} : Readable e → ReadableAll es → ReadableAll (e :: es)
end

mutual
/-- Expressions built from integers, `Symbol`s and `Function`s with proper names by calling
functions, `Pow` with two arguments. -/
inductive WellNamed : Expr → Prop
  | int {n} : WellNamed (integer n)
  | sym {s} : IsName s → WellNamed (symbol s)
  | fn {s} : IsName s → WellNamed (function s)
  | call {f args} : IsName f → function f ≠ powH → WellNamedAll args →
      WellNamed (.node (function f :: args))
  | pow {b e} : WellNamed b → WellNamed e → WellNamed (.node [powH, b, e])
/-- Pointwise. -/
inductive WellNamedAll : List Expr → Prop
  | nil : WellNamedAll []
  | cons {e es} : WellNamed e → WellNamedAll es → WellNamedAll (e :: es)
end

mutual
/-- Equality up to what printing cannot tell apart: how powers of powers are bracketed, `Add` and
`Mul` of fewer than two terms, a `Function` as an argument and the `Symbol` of the same name. -/
inductive Conflated : Expr → Expr → Prop
  | refl {e} : Conflated e e
  | symm {e e'} : Conflated e e' → Conflated e' e
  | trans {e e' e''} : Conflated e e' → Conflated e' e'' → Conflated e e''
  | call {h args args'} : ConflatedAll args args' → Conflated (.node (h :: args)) (.node (h :: args'))
  | power {a b c} : Conflated (pow (pow a b) c) (pow a (pow b c))
  | single {args} : args.length < 2 → Conflated (.node (addH :: args)) (.node (mulH :: args))
  | name {s} : Conflated (function s) (symbol s)
/-- Pointwise. -/
inductive ConflatedAll : List Expr → List Expr → Prop
  | nil : ConflatedAll [] []
  | cons {e e' es es'} : Conflated e e' → ConflatedAll es es' → ConflatedAll (e :: es) (e' :: es')
end

mutual
/-- Expressions built from integers, `Symbol`s and `Function`s with proper names by calling functions,
`Pow` with two arguments and `sin` and `cos` with one. -/
inductive LatexNamed : Expr → Prop
  | int {n} : LatexNamed (integer n)
  | sym {s} : IsName s → LatexNamed (symbol s)
  | fn {s} : IsName s → LatexNamed (function s)
  | call {f args} : IsName f → function f ≠ powH → (function f = sinH ∨ function f = cosH → args.length = 1) →
      LatexNamedAll args → LatexNamed (.node (function f :: args))
  | pow {b e} : LatexNamed b → LatexNamed e → LatexNamed (.node [powH, b, e])
/-- Pointwise. -/
inductive LatexNamedAll : List Expr → Prop
  | nil : LatexNamedAll []
  | cons {e es} : LatexNamed e → LatexNamedAll es → LatexNamedAll (e :: es)
end

mutual
/-- Equality up to what LaTeX cannot tell apart: `Add` and `Mul` of fewer than two terms, a
`Function` as an argument and the `Symbol` of the same name. -/
inductive LatexConflated : Expr → Expr → Prop
  | refl {e} : LatexConflated e e
  | symm {e e'} : LatexConflated e e' → LatexConflated e' e
  | trans {e e' e''} : LatexConflated e e' → LatexConflated e' e'' → LatexConflated e e''
  | call {h args args'} : LatexConflatedAll args args' →
      LatexConflated (.node (h :: args)) (.node (h :: args'))
  | single {args} : args.length < 2 → LatexConflated (.node (addH :: args)) (.node (mulH :: args))
  | name {s} : LatexConflated (function s) (symbol s)
/-- Pointwise. -/
inductive LatexConflatedAll : List Expr → List Expr → Prop
  | nil : LatexConflatedAll [] []
  | cons {e e' es es'} : LatexConflated e e' → LatexConflatedAll es es' →
      LatexConflatedAll (e :: es) (e' :: es')
end

mutual
/-- Expressions whose LaTeX can be read back: integers, symbols with proper names, sums of at least
two terms, products, powers, and calls of named functions, of `sin` and `cos` with one argument. -/
inductive LatexReadable : Expr → Prop
  | int {n} : LatexReadable (integer n)
  | sym {s} : IsName s → LatexReadable (symbol s)
  | add {args} : 2 ≤ args.length → LatexReadableAll args → LatexReadable (.node (addH :: args))
  | mul {args} : LatexReadableAll args → LatexReadable (.node (mulH :: args))
  | pow {b e} : LatexReadable b → LatexReadable e → LatexReadable (.node [powH, b, e])
  | call {f args} : IsName f → function f ≠ addH → function f ≠ mulH → function f ≠ powH →
      (function f = sinH ∨ function f = cosH → args.length = 1) →
      LatexReadableAll args → LatexReadable (.node (function f :: args))
/-- Pointwise. -/
inductive LatexReadableAll : List Expr → Prop
  | nil : LatexReadableAll []
  | cons {e es} : LatexReadable e → LatexReadableAll es → LatexReadableAll (e :: es)
end

/-- What a style needs of an expression. -/
structure Printable (st : Style) (e : Expr) : Prop where
  atoms : ∀ a, ArgSub e (.atom a) → st.atoms a.atomType
  pow : ∀ args, ArgSub e (.node (powH :: args)) → args.length = 2
  named : ∀ h args, ArgSub e (.node (h :: args)) → st.named h ≠ none → args.length = 1

end Verif.Spec
