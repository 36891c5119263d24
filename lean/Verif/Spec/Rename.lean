import Verif.Spec.Tree
import Verif.Model.Expr
import Verif.Model.Diff

/-!
# Renaming
-/

namespace Verif.Spec
variable {V W : Type}

mutual
/-- Replace every atom of a tree, in head or argument position, by its image under `φ`. -/
def rename (φ : Atom V → Atom W) : Tree V → Tree W
  | .atom a => .atom (φ a)
  | .node cs => .node (renameList φ cs)
/-- The same in every member of a list. -/
def renameList (φ : Atom V → Atom W) : List (Tree V) → List (Tree W)
  | [] => []
  | c :: cs => rename φ c :: renameList φ cs
end

/-- Two different atoms stay different. -/
def Faithful (φ : Atom V → Atom W) : Prop := ∀ a b, φ a = φ b → a = b

/-- The renaming of symbols given by a function on names; other atoms stay as they are. -/
def symbolMap (σ : String → String) (a : Atom Val) : Atom Val :=
  match a with
  | ⟨ty, .str s⟩ => if ty = Ty.symbol then ⟨ty, .str (σ s)⟩ else ⟨ty, .str s⟩
  | ⟨ty, .int n⟩ => ⟨ty, .int n⟩

/-- No symbol occurs in the expression. -/
inductive SymbolFree : Tree Val → Prop
  | atom {a} : a.atomType ≠ Ty.symbol → SymbolFree (.atom a)
  | node {cs} : (∀ c ∈ cs, SymbolFree c) → SymbolFree (.node cs)

/-- `p'` is built by the program that builds `p`, with all its expressions renamed. -/
inductive SameProgram (φ : Atom Val → Atom Val) : DiffProps Val → DiffProps Val → Prop
  | new {add mul zero one} : SameProgram φ (SymDifferentiator.new add mul zero one)
      (SymDifferentiator.new (rename φ add) (rename φ mul) (rename φ zero) (rename φ one))
  | rule {p q p' q' expr sym rhs} : SameProgram φ p q →
      SymDifferentiator.setItem p expr sym rhs = .ok p' →
      SymDifferentiator.setItem q (rename φ expr) (rename φ sym) (rename φ rhs) = .ok q' →
      SameProgram φ p' q'
  | distributive {p q head} : SameProgram φ p q →
      SameProgram φ (p.addDistributive head) (q.addDistributive (rename φ head))

/-- Differentiators built without mentioning a symbol: patterns made of wilds. -/
inductive WildHistory : DiffProps Val → Prop
  | new {add mul zero one} : SymbolFree add → SymbolFree mul → SymbolFree zero → SymbolFree one →
      WildHistory (SymDifferentiator.new add mul zero one)
  | rule {p p' expr sym rhs} : WildHistory p → SymbolFree expr → SymbolFree sym → SymbolFree rhs →
      SymDifferentiator.setItem p expr sym rhs = .ok p' → WildHistory p'
  | distributive {p head} : WildHistory p → SymbolFree head → WildHistory (p.addDistributive head)

/-- `values` with renamed keys. -/
def renameKeys {T : Type} (φ : Atom V → Atom W) (values : Dict (Tree V) T) : Dict (Tree W) T :=
  ⟨values.items.map (fun q => (rename φ q.1, q.2))⟩

end Verif.Spec
