import Verif.Spec.Eval
import Verif.Model.Sym

/-!
# What a list of rule assignments means

An assignment `ev[pattern] = f(args)` is a rule for a head, for a type of atoms, for all other
atoms or for all other heads; of several rules for the same thing the latest counts.
-/

namespace Verif.Spec
variable {T : Type}

/-- A rule of an evaluator. -/
inductive EvRule (T : Type) where
  /-- for expressions with this head, applied to the values of the arguments -/
  | head (h : Expr) (f : List T → PyM T)
  /-- for atoms of this type, applied to the value of the atom -/
  | atomType (ty : AtomType) (f : Val → PyM T)
  /-- for all other atoms -/
  | anyAtom (f : Expr → PyM T)
  /-- for all other heads -/
  | anyHead (f : Expr → List T → PyM T)

/-- The assignment `ev[pattern] = f(args)`. -/
structure Assignment (T : Type) where
  pattern : Pattern
  f : PyFn T
  args : List Expr

/-- The rule that an assignment makes: `ev[h(a)] = op1(a)`, `ev[h(a, b)] = op2(a, b)`,
`ev[h(*a)] = opN(a)`, `ev[Type[a]] = func(a)`, `ev[AtomRule[a]] = func(a)`,
`ev[HeadRule(a, b)] = func(a, b)`; everything else is refused. -/
def asRule : Assignment T → Option (EvRule T)
  | ⟨.sym (.node [h, a']), .op1 f, [a]⟩ => if a' = a then some (.head h f) else none
  | ⟨.sym (.node [h, a', b']), .op2 f, [a, b]⟩ =>
    if a' = a ∧ b' = b then some (.head h f) else none
  | ⟨.sym (.node [h, s]), .opN f, [a]⟩ =>
    if s = .node [Expr.starH, a] then some (.head h f) else none
  | ⟨.atomValue ty a', .func1 f, [a]⟩ => if a' = a then some (.atomType ty f) else none
  | ⟨.atomRule a', .atomFunc f, [a]⟩ => if a' = a then some (.anyAtom f) else none
  | ⟨.headRule a' b', .headOp f, [a, b]⟩ => if a' = a ∧ b' = b then some (.anyHead f) else none
  | _ => none

/-- The rule for a head. -/
def forHead (h : Expr) : EvRule T → Option (List T → PyM T)
  | .head h' f => if h' = h then some f else none
  | _ => none
/-- The rule for a type of atoms. -/
def forType (ty : AtomType) : EvRule T → Option (Val → PyM T)
  | .atomType ty' f => if ty' = ty then some f else none
  | _ => none
/-- The rule for other atoms. -/
def forAtoms : EvRule T → Option (Expr → PyM T)
  | .anyAtom f => some f
  | _ => none
/-- The rule for other heads. -/
def forHeads : EvRule T → Option (Expr → List T → PyM T)
  | .anyHead f => some f
  | _ => none

/-- What the rules (the latest first) and the supplied values say.  (`Tree()` is not an
expression: it has no value.) -/
def tableMeaning [HasNone T] (rules : List (EvRule T)) (values : Expr → Option T) :
    Meaning Val T where
  leaf := fun t =>
    match values t with
    | some v => if HasNone.isNone v then atom t else .ok v
    | none => atom t
  op := fun h vs =>
    match rules.findSome? (forHead h) with
    | some f => f vs
    | none =>
      match rules.findSome? forHeads with
      | some f => f h vs
      | none => .error .noEvaluationRule
where
  /-- the rule for an atom -/
  atom : Expr → PyM T
    | .atom a =>
      match rules.findSome? (forType a.atomType) with
      | some f => f a.value
      | none =>
        match rules.findSome? forAtoms with
        | some f => f (.atom a)
        | none => .error .noEvaluationRule
    | .node _ => .error .attributeError

/-- Execute the assignments one after the other; exceptions are caught and ignored. -/
def execAll : List (Assignment T) → Evaluator PyM Val T → Evaluator PyM Val T
  | [], ev => ev
  | c :: cs, ev =>
    match c.f.call c.args with
    | .error _ => execAll cs ev
    | .ok call => execAll cs (setItem c.pattern (some call) ev).2

end Verif.Spec
