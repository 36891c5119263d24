import Verif.Model.Frames
import Verif.Spec.Graph
import Verif.Spec.Print

/-!
# Specification for C70: how many frames a computation needs, how deep an expression is
-/

namespace Verif.Spec

/-- With `k` frames or more the computation ends with `r`: it returns a value or raises an exception, but
not `RecursionError`.  With fewer frames it ends with `r` or raises `RecursionError`. -/
structure Within {α : Type} (k : Nat) (x : Framed α) (r : PyM α) : Prop where
  enough : ∀ n, k ≤ n → x n = some r
  sound : ∀ n, x n = none ∨ x n = some r

/-- The computation ends with `r` if it has `k` frames; with fewer it raises `RecursionError`. -/
def Exactly {α : Type} (k : Nat) (x : Framed α) (r : PyM α) : Prop :=
  ∀ n, x n = if k ≤ n then some r else none

/-- With `n` frames or fewer the computation raises `RecursionError`. -/
def Exceeds {α : Type} (n : Nat) (x : Framed α) : Prop := ∀ m, m ≤ n → x m = none

mutual
/-- The depth of a tree: the longest way from the root to a leaf, through heads and arguments. -/
def depth {V : Type} : Tree V → Nat
  | .atom _ => 0
  | .node cs => 1 + depthList cs
/-- The greatest depth in a list. -/
def depthList {V : Type} : List (Tree V) → Nat
  | [] => 0
  | c :: cs => max (depth c) (depthList cs)
end

mutual
/-- The depth of a tree, through arguments only: atoms and `f()` have depth 0, `f(x)` has depth 1. -/
def argDepth {V : Type} : Tree V → Nat
  | .atom _ => 0
  | .node [] => 0
  | .node (_ :: args) => argDepthArgs args
/-- One more than the greatest depth in a list, 0 for the empty list. -/
def argDepthArgs {V : Type} : List (Tree V) → Nat
  | [] => 0
  | c :: cs => max (1 + argDepth c) (argDepthArgs cs)
end

mutual
/-- The depth of a SymPy object. -/
def sympyDepth : SExpr → Nat
  | .int _ => 0
  | .sym _ _ => 0
  | .cls _ => 0
  | .leaf _ => 0
  | .app _ args => 1 + sympyDepthList args
/-- The greatest depth in a list. -/
def sympyDepthList : List SExpr → Nat
  | [] => 0
  | s :: ss => max (sympyDepth s) (sympyDepthList ss)
end

/-- The heads in the expression (as written: `f` in `f(x)`) are at most so deep; heads that are atoms,
like all those of simplecas, have depth 0. -/
def HeadDepth {V : Type} (h : Nat) (e : Tree V) : Prop :=
  ∀ head args, ArgSub e (.node (head :: args)) → depth head ≤ h

/-- The rules of `ev'` need at most `k` frames for what occurs in `e`, and then do what those of `ev` do. -/
structure RulesNeed {V T : Type} (k : Nat) (e : Tree V) (ev' : Evaluator Framed V T)
    (ev : Evaluator PyM V T) [DecidableEq V] : Prop where
  atom : ∀ a, ArgSub e a → a.children = [] → Within k (ev'.evalAtom a) (ev.evalAtom a)
  operation : ∀ head args vals, ArgSub e (.node (head :: args)) →
    Within k (ev'.evalOperation head vals) (ev.evalOperation head vals)

/-- The rules of `ev'` need exactly `k` frames for what occurs in `e`, and then do what those of `ev` do. -/
structure RulesExactly {V T : Type} (k : Nat) (e : Tree V) (ev' : Evaluator Framed V T)
    (ev : Evaluator PyM V T) [DecidableEq V] : Prop where
  atom : ∀ a, ArgSub e a → a.children = [] → Exactly k (ev'.evalAtom a) (ev.evalAtom a)
  operation : ∀ head args vals, ArgSub e (.node (head :: args)) →
    Exactly k (ev'.evalOperation head vals) (ev.evalOperation head vals)

/-- `f(f(…f(x)…))` with `n` calls. -/
def tower (f x : Expr) : Nat → Expr
  | 0 => x
  | n + 1 => .node [f, tower f x n]

/-- `sin(sin(…sin(0)…))` in SymPy, not evaluated. -/
def sympyTower : Nat → SExpr
  | 0 => .int 0
  | n + 1 => .app .sin [sympyTower n]

/-- The frames that a Python interpreter takes for one comprehension, one operation on a weak
dictionary and one call back from C. -/
def overhead (c : FrameUse) : Nat := c.comp + c.weak + c.slot

/-- An assignment of a rule as a function: the evaluator afterwards, or the exception raised. -/
def afterwards {T : Type} (m : EvM T Unit) (ev : Evaluator PyM Val T) : PyM (Evaluator PyM Val T) :=
  match m ev with
  | (.ok _, ev') => .ok ev'
  | (.error e, _) => .error e

/-- What `lambdify` compiles is an expression in which `Tree()` does not occur and with heads at most `h`
deep. -/
def Compilable (h : Nat) : LambdifyArg → Prop
  | .expr e => Proper e ∧ HeadDepth h e
  | .matrix m => Proper m.elementsGraph ∧ HeadDepth h m.elementsGraph
  | .other => True

end Verif.Spec
