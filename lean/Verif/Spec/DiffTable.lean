import Mathlib.Data.List.Forall2
import Verif.Spec.Tree
import Verif.Model.Diff

/-!
# The derivative, rule by rule

What a differentiator was told, and the derivative that follows from it: a relation between
expressions, with the rules in the form in which the user wrote them (pattern arguments and
right-hand side).
-/

namespace Verif.Spec

/-- What a program tells a differentiator. -/
inductive DiffCommand where
  /-- `diff[pattern, sym] = rhs` -/
  | rule (pattern sym rhs : Expr)
  /-- `diff.add_distributive_rule(head)` -/
  | distributive (head : Expr)

/-- The constants of a differentiator and what it was told, the latest first. -/
structure DiffTable where
  add : Expr
  mul : Expr
  zero : Expr
  one : Expr
  told : List DiffCommand

/-- `Made T p`: `p` is the differentiator that a program obtains with `SymDifferentiator(...)` and
the successful commands of `T`. -/
inductive Made : DiffTable → DiffProps Val → Prop
  | new {add mul zero one} : Made ⟨add, mul, zero, one, []⟩ (SymDifferentiator.new add mul zero one)
  | rule {T p p' pattern sym rhs} : Made T p →
      SymDifferentiator.setItem p pattern sym rhs = .ok p' →
      Made { T with told := .rule pattern sym rhs :: T.told } p'
  | distributive {T p head} : Made T p →
      Made { T with told := .distributive head :: T.told } (p.addDistributive head)

namespace DiffTable

/-- `h` was declared distributive. -/
def Distributive (T : DiffTable) (h : Expr) : Prop := .distributive h ∈ T.told

/-- `IsRule T h i params rhs`: the latest rule for the `i`-th argument of `h` was given as
`diff[h(params), params[i]] = rhs`. -/
def IsRule (T : DiffTable) (h : Expr) (i : Nat) (params : List Expr) (rhs : Expr) : Prop :=
  ∃ later sym earlier, T.told = later ++ .rule (.node (h :: params)) sym rhs :: earlier ∧
    params[i]? = some sym ∧
    ∀ params' sym' rhs', .rule (.node (h :: params')) sym' rhs' ∈ later → params'[i]? ≠ some sym'

/-- There is no rule for the `i`-th argument of `h`. -/
def NoRule (T : DiffTable) (h : Expr) (i : Nat) : Prop :=
  ∀ params sym rhs, .rule (.node (h :: params)) sym rhs ∈ T.told → params[i]? ≠ some sym

/-- The sum of the terms: nothing is `0`, one term is itself, more are added. -/
def total (T : DiffTable) : List Expr → Expr
  | [] => T.zero
  | [t] => t
  | ts => .node (T.add :: ts)

/-- The derivatives other than 0, with their positions. -/
def nonzero (T : DiffTable) (ds : List Expr) : List (Expr × Nat) :=
  ds.zipIdx.filter (fun q => q.1 ≠ T.zero)

end DiffTable

/-- The right-hand side of a rule for the actual arguments: each pattern argument is replaced by
the actual argument; a right-hand side that is itself a pattern argument becomes the *last*
argument, whichever it is (the defect of C11). -/
inductive Instance (params : List Expr) (rhs : Expr) (args : List Expr) : Expr → Prop
  | replaced : rhs ∉ params → args.length = params.length →
      Instance params rhs args (subst (pairing params args) rhs)
  | last {d} : rhs ∈ params → args.length = params.length → args.getLast? = some d →
      Instance params rhs args d

/-- One term of the chain rule for `h(args)`: the rule for argument `q.2`, times the derivative
`q.1` of that argument unless this is 1. -/
inductive ChainTerm (T : DiffTable) (h : Expr) (args : List Expr) (q : Expr × Nat) : Expr → Prop
  | one {params rhs r} : T.IsRule h q.2 params rhs → Instance params rhs args r → q.1 = T.one →
      ChainTerm T h args q r
  | times {params rhs r} : T.IsRule h q.2 params rhs → Instance params rhs args r → q.1 ≠ T.one →
      ChainTerm T h args q (.node [T.mul, r, q.1])

mutual
/-- `Derives T x e d`: the derivative of `e` with respect to `x` is `d`. -/
inductive Derives (T : DiffTable) (x : Expr) : Expr → Expr → Prop
  | self : x.children = [] → Derives T x x T.one
  | constant {t} : t.children = [] → t ≠ x → Derives T x t T.zero
  | distributive {h args ds} : T.Distributive h → DerivesAll T x args ds →
      Derives T x (.node (h :: args)) (.node (h :: ds))
  | sum {args ds} : ¬ T.Distributive T.add → DerivesAll T x args ds →
      Derives T x (.node (T.add :: args)) (T.total ((T.nonzero ds).map Prod.fst))
  | product {args ds} : ¬ T.Distributive T.mul → T.mul ≠ T.add → DerivesAll T x args ds →
      Derives T x (.node (T.mul :: args))
        (T.total ((T.nonzero ds).map fun q => .node (T.mul :: args.set q.2 q.1)))
  | chain {h args ds terms} : ¬ T.Distributive h → h ≠ T.add → h ≠ T.mul → DerivesAll T x args ds →
      List.Forall₂ (ChainTerm T h args) (T.nonzero ds) terms →
      Derives T x (.node (h :: args)) (T.total terms)
/-- Pointwise. -/
inductive DerivesAll (T : DiffTable) (x : Expr) : List Expr → List Expr → Prop
  | nil : DerivesAll T x [] []
  | cons {e es d ds} : Derives T x e d → DerivesAll T x es ds → DerivesAll T x (e :: es) (d :: ds)
end

/-- `DiffFails T x t err`: the arguments of `t` have derivatives, but going through those that are
not 0 from left to right, one is met without rule (`KeyError`) or with a rule for another number
of arguments (`TypeError`). -/
inductive DiffFails (T : DiffTable) (x : Expr) : Expr → PyErr → Prop
  | missing {h args ds pre q post} : ¬ T.Distributive h → h ≠ T.add → h ≠ T.mul →
      DerivesAll T x args ds → T.nonzero ds = pre ++ q :: post →
      (∀ q' ∈ pre, ∃ r, ChainTerm T h args q' r) → T.NoRule h q.2 →
      DiffFails T x (.node (h :: args)) .keyError
  | arity {h args ds pre q post params rhs} : ¬ T.Distributive h → h ≠ T.add → h ≠ T.mul →
      DerivesAll T x args ds → T.nonzero ds = pre ++ q :: post →
      (∀ q' ∈ pre, ∃ r, ChainTerm T h args q' r) → T.IsRule h q.2 params rhs →
      params.length ≠ args.length → DiffFails T x (.node (h :: args)) .typeError

open Expr in
/-- What simplecas tells its differentiator, the latest first. -/
def simplecasTable : DiffTable :=
  ⟨addH, mulH, zero, one,
    [.distributive listH,
     .rule (pow (wild "a") (wild "b")) (wild "a")
       (mul (wild "b") (pow (wild "a") (add (wild "b") negone))),
     .rule (cos (wild "a")) (wild "a") (mul negone (sin (wild "a"))),
     .rule (sin (wild "a")) (wild "a") (cos (wild "a"))]⟩

end Verif.Spec
