import Verif.Model.Matrix
import Verif.Spec.Operators
import Verif.Spec.SymPy

/-!
# Specification of matrices: a matrix is a function of two indices
-/

namespace Verif.Spec

/-- The rows of expressions that a list of lists of Python objects stands for. -/
def operandRows (rows : List (List PyObj)) : Option (List (List Expr)) :=
  rows.mapM (fun row => row.mapM operand)

/-- All rows have length `n`. -/
def Rectangular {α : Type} (rows : List (List α)) (n : Nat) : Prop :=
  ∀ row ∈ rows, row.length = n

/-- The entry in row `i`, column `j` of a list of lists. -/
def entryAt {α : Type} (rows : List (List α)) (i j : Nat) : Option α :=
  (rows[i]?).bind (fun row => row[j]?)

/-- Matrices that a program can make: by the constructor, addition or another elementwise
operation, differentiation, and conversion of a SymPy matrix (`sympy.Tuple` keeps its arguments). -/
inductive MatHistory : Mat → Prop
  | new {entries m} : Mat.new entries = .ok m → MatHistory m
  | binop {a b f m} : MatHistory a → MatHistory b → a.binop b f = .ok m → MatHistory m
  | diff {a sym p m} : MatHistory a → Expr.listH ∈ p.distributive → a.diff sym p = .ok m →
      MatHistory m
  | sympy {L sm dok m} : (∀ l, L.tuple l = .ok (.app .tuple l)) → IsDok sm dok →
      fromSympyMatrix L sm.rows sm.cols dok = .ok m → MatHistory m

/-- `M` stores an entry at `(i, j)`. -/
def Stores (m : Mat) (i j : Nat) : Prop := (m.entrymap.get? (i, j)).isSome

end Verif.Spec
