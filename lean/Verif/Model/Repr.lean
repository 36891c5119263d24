import Verif.Model.Functions
import Verif.Model.Matrix

/-!
# Model of the raw representation: `repr` of atoms, trees and of `Sym`

core/atom.py:87-89, 176-182, core/tree.py:156-162, core/sym.py:171-190,
simplecas/matrix.py:99-103.
-/

namespace Verif

/-- The last `w` hexadecimal digits of `n` (`Py_hexdigits[(ch >> 4*i) & 0xf]` in CPython's
`unicode_repr`). -/
def hexPad : Nat → Nat → List Char
  | 0, _ => []
  | w + 1, n => Nat.digitChar (n / 16 ^ w % 16) :: hexPad w n

/-- One character in Python's `repr` of a `str` between the quotes `q` (CPython's
`unicode_repr`).  `printable` is `str.isprintable` on non-ASCII characters (the Unicode
database). -/
def pyReprChar (printable : Char → Bool) (q c : Char) : List Char :=
  if c = q ∨ c = '\\' then ['\\', c]
  else if c = '\t' then ['\\', 't']
  else if c = '\n' then ['\\', 'n']
  else if c = '\r' then ['\\', 'r']
  else if c.toNat < 32 ∨ c.toNat = 127 then '\\' :: 'x' :: hexPad 2 c.toNat
  else if c.toNat < 127 then [c]
  else if printable c then [c]
  else if c.toNat ≤ 0xff then '\\' :: 'x' :: hexPad 2 c.toNat
  else if c.toNat ≤ 0xffff then '\\' :: 'u' :: hexPad 4 c.toNat
  else '\\' :: 'U' :: hexPad 8 c.toNat

/-- The quotes that `repr` chooses for a `str`: double quotes if it contains single quotes and no
double quotes. -/
def pyQuote (s : List Char) : Char := if '\'' ∈ s ∧ '"' ∉ s then '"' else '\''

/-- `repr(s)` of a Python `str`.  Simplification: Lean's strings have no lone surrogates. -/
def pyReprStr (printable : Char → Bool) (s : String) : String :=
  let q := pyQuote s.toList
  String.ofList (q :: s.toList.flatMap (pyReprChar printable q) ++ [q])

/-- `repr(value)` of an int or a str. -/
def valRepr (printable : Char → Bool) : Val → String
  | .int n => toString n
  | .str s => pyReprStr printable s

/-- `AtomType.__repr__`, also used by `str`: core/atom.py:87-89. -/
def AtomType.repr (ty : AtomType) : String := ty.name

/-- `Atom.__repr__`: core/atom.py:176-178. -/
def Atom.repr (printable : Char → Bool) (a : Atom Val) : String :=
  a.atomType.repr ++ "(" ++ valRepr printable a.value ++ ")"

mutual
/-- `Tree.__repr__`: core/tree.py:156-162.  `Tree()` has no children and no `value`:
`AttributeError`. -/
def treeRepr (printable : Char → Bool) : Tree Val → PyM String
  | .atom a => .ok ("Tr(" ++ a.repr printable ++ ")")
  | .node [] => .error .attributeError
  | .node (c :: cs) => do
    let argstrs ← treeReprList printable (c :: cs)
    return "Tree(" ++ String.intercalate ", " argstrs ++ ")"
/-- `map(repr, self.children)` -/
def treeReprList (printable : Char → Bool) : List (Tree Val) → PyM (List String)
  | [] => .ok []
  | t :: ts => do
    let s ← treeRepr printable t
    let ss ← treeReprList printable ts
    return s :: ss
end

/-- `Sym.__repr__`: core/sym.py:171-179 (for a `Sym` that is not an `Expr`; the name printed is
`Sym` for every subclass that does not override it). -/
def symRepr (printable : Char → Bool) (rep : Tree Val) : PyM String := do
  let s ← treeRepr printable rep
  return "Sym(" ++ s ++ ")"

/-- `Sym.__str__`: core/sym.py:181-190. -/
def symStr (rep : Tree Val) : PyM String := treeStr rep

/-- `repr` of a Python list whose elements have the representations `ss`. -/
def pyReprList (ss : List String) : String := "[" ++ String.intercalate ", " ss ++ "]"

/-- `Matrix.__repr__`: simplecas/matrix.py:99-103. -/
def Mat.repr (m : Mat) : PyM String := do
  let rows ← m.tolist
  let rowstrs ← rows.mapM fun row => do
    let ss ← row.mapM Expr.repr
    return pyReprList ss
  return "Matrix(" ++ pyReprList rowstrs ++ ")"

end Verif
