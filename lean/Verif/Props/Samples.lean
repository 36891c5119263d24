import Verif.Model.Tree

/-!
Concrete expressions used in the satisfiability examples next to the property theorems and
in the refutations.
-/

namespace Verif.Samples

/-- `Symbol = AtomType("Symbol", str)` -/
def tySymbol : AtomType := ⟨1, "Symbol"⟩
/-- `Function = AtomType("Function", str)` -/
def tyFunction : AtomType := ⟨2, "Function"⟩

def x : Tree String := .atom ⟨tySymbol, "x"⟩
def y : Tree String := .atom ⟨tySymbol, "y"⟩
def z : Tree String := .atom ⟨tySymbol, "z"⟩
def f : Tree String := .atom ⟨tyFunction, "f"⟩
def g : Tree String := .atom ⟨tyFunction, "g"⟩
/-- `g(x)` -/
def gx : Tree String := g.call [x]
/-- `f(g(x), y)` -/
def fgxy : Tree String := f.call [gx, y]
/-- `f(g(x), y, g(x))`: a shared subexpression -/
def fgxygx : Tree String := f.call [gx, y, gx]
/-- `f(x)(y)`: a compound head -/
def fx_y : Tree String := (f.call [x]).call [y]

end Verif.Samples
