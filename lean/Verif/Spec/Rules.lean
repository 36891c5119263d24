import Verif.Model.Sym

/-!
# Specification of well-formed evaluation rules
-/

namespace Verif.Spec
variable {T : Type}

/-- `AcceptedRule pattern call ev ev'`: the assignment `ev[pattern] = call` is well formed,
and turns an evaluator that behaves like `ev` into one that behaves like `ev'`.

* `ev[f(p…)] = op(p…)` with a unary or binary `op`: the rule of `f`, and nothing else, is
  replaced;
* `ev[f(*p)] = op(p)` with a sequence function;
* `ev[Atom[p]] = func(p)`;
* `ev[AtomRule[p]] = atomfunc(p)`;
* `ev[HeadRule(p, q)] = headop(p, q)`. -/
inductive AcceptedRule : Pattern → WildCall T → Evaluator PyM Val T → Evaluator PyM Val T → Prop
  | unary {h ps f ev ops} :
      (∀ h', ops.get? h' = if h' = h then some (.star f) else ev.operations.get? h') →
      AcceptedRule (.sym (.node (h :: ps))) ⟨.op1 f, ps⟩ ev { ev with operations := ops }
  | binary {h ps f ev ops} :
      (∀ h', ops.get? h' = if h' = h then some (.star f) else ev.operations.get? h') →
      AcceptedRule (.sym (.node (h :: ps))) ⟨.op2 f, ps⟩ ev { ev with operations := ops }
  | sequence {h p f ev ops} :
      (∀ h', ops.get? h' = if h' = h then some (.seq f) else ev.operations.get? h') →
      AcceptedRule (.sym (.node [h, .node [Expr.starH, p]])) ⟨.opN f, [p]⟩ ev
        { ev with operations := ops }
  | atomValue {ty p f ev ats} :
      (∀ ty', ats.get? ty' = if ty' = ty then some f else ev.atoms.get? ty') →
      AcceptedRule (.atomValue ty p) ⟨.func1 f, [p]⟩ ev { ev with atoms := ats }
  | atomRule {p f ev} :
      AcceptedRule (.atomRule p) ⟨.atomFunc f, [p]⟩ ev { ev with genericAtomFunc := f }
  | headRule {p q f ev} :
      AcceptedRule (.headRule p q) ⟨.headOp f, [p, q]⟩ ev { ev with genericOperationFunc := f }

end Verif.Spec
