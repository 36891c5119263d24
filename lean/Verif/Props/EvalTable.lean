import Verif.Spec.EvalTable
import Verif.Props.Eval
import Verif.Props.Rules
import Verif.Props.Float

/-!
# C55: an evaluator is what its rules say
-/

namespace Verif.Props
open Spec Expr
variable {T : Type}

/-- The evaluator behaves as the rules say. -/
structure Behaves (rules : List (EvRule T)) (ev : Evaluator PyM Val T) : Prop where
  ops : ∀ h vs, (match ev.operations.get? h with
    | some (.star f) => some (f vs)
    | some (.seq f) => some (f vs)
    | none => none) = (rules.findSome? (forHead h)).map fun f => f vs
  ats : ∀ ty, ev.atoms.get? ty = rules.findSome? (forType ty)
  anyAtom : ev.genericAtomFunc = (rules.findSome? forAtoms).getD fun _ => .error .noEvaluationRule
  anyHead : ev.genericOperationFunc =
    (rules.findSome? forHeads).getD fun _ _ => .error .noEvaluationRule

theorem behaves_meaning [HasNone T] {rules : List (EvRule T)} {ev : Evaluator PyM Val T}
    (h : Behaves rules ev) (values : Expr → Option T) :
    meaning ev values = tableMeaning rules values := by
  have hrule : ∀ t, meaning.rule ev t = tableMeaning.atom rules t := by
    intro t
    cases t with
    | node cs => rfl
    | atom a =>
      simp only [meaning.rule, tableMeaning.atom, h.ats, h.anyAtom]
      cases rules.findSome? (forType a.atomType) with
      | some f => rfl
      | none => cases rules.findSome? (forAtoms (T := T)) <;> rfl
  unfold meaning tableMeaning
  congr 1
  · funext t
    cases values t <;> simp [hrule]
  · funext k vs
    have := h.ops k vs
    rw [h.anyHead]
    cases hf : rules.findSome? (forHead k) with
    | some f =>
      rw [hf] at this
      cases ho : ev.operations.get? k with
      | none => rw [ho] at this; cases this
      | some o =>
        rw [ho] at this
        cases o <;> exact Option.some.inj this
    | none =>
      rw [hf] at this
      cases ho : ev.operations.get? k with
      | none => cases rules.findSome? (forHeads (T := T)) <;> rfl
      | some o => rw [ho] at this; cases o <;> cases this

theorem behaves_new : Behaves ([] : List (EvRule T)) Evaluator.new where
  ops := fun _ _ => rfl
  ats := fun _ => rfl
  anyAtom := rfl
  anyHead := rfl

theorem behaves_head {rules : List (EvRule T)} {ev : Evaluator PyM Val T} (hb : Behaves rules ev)
    (h : Expr) (f : List T → PyM T) (o : OpFunc PyM T) (ho : o = .star f ∨ o = .seq f)
    (ops : Dict Expr (OpFunc PyM T))
    (hops : ∀ h', ops.get? h' = if h' = h then some o else ev.operations.get? h') :
    Behaves (.head h f :: rules) { ev with operations := ops } where
  ops := fun k vs => by
    simp only [hops, List.findSome?_cons, forHead]
    by_cases hk : h = k
    · subst hk
      rcases ho with rfl | rfl <;> simp
    · rw [if_neg hk, if_neg fun e => hk e.symm]
      exact hb.ops k vs
  ats := fun ty => hb.ats ty
  anyAtom := hb.anyAtom
  anyHead := hb.anyHead

theorem accepted_behaves {rules : List (EvRule T)} {ev ev' : Evaluator PyM Val T}
    (hb : Behaves rules ev) {pattern : Pattern} {f : PyFn T} {args : List Expr}
    (hlen : args.length = f.arity) (h : AcceptedRule pattern ⟨f, args⟩ ev ev') :
    ∃ r, asRule ⟨pattern, f, args⟩ = some r ∧ Behaves (r :: rules) ev' := by
  cases h with
  | unary hops =>
    rename_i h f ops
    obtain ⟨a, rfl⟩ := List.length_eq_one_iff.1 hlen
    exact ⟨.head h f, by simp [asRule], behaves_head hb h f _ (.inl rfl) _ hops⟩
  | binary hops =>
    rename_i h f ops
    obtain ⟨a, b, rfl⟩ := List.length_eq_two.1 hlen
    exact ⟨.head h f, by simp [asRule], behaves_head hb h f _ (.inl rfl) _ hops⟩
  | sequence hops =>
    rename_i h p f ops
    exact ⟨.head h f, by simp [asRule], behaves_head hb h f _ (.inr rfl) _ hops⟩
  | atomValue hats =>
    rename_i ty p f ats
    refine ⟨.atomType ty f, by simp [asRule], ?_, ?_, ?_, ?_⟩
    · exact hb.ops
    · intro ty'
      simp only [hats, List.findSome?_cons, forType]
      by_cases hk : ty = ty'
      · subst hk; simp
      · rw [if_neg hk, if_neg fun e => hk e.symm]
        exact hb.ats ty'
    · exact hb.anyAtom
    · exact hb.anyHead
  | atomRule =>
    rename_i p f
    refine ⟨.anyAtom f, by simp [asRule], ?_, ?_, ?_, ?_⟩
    · exact hb.ops
    · exact hb.ats
    · rfl
    · exact hb.anyHead
  | headRule =>
    rename_i p q f
    refine ⟨.anyHead f, by simp [asRule], ?_, ?_, ?_, ?_⟩
    · exact hb.ops
    · exact hb.ats
    · exact hb.anyAtom
    · rfl

theorem asRule_accepted {pattern : Pattern} {f : PyFn T} {args : List Expr} {r : EvRule T}
    (h : asRule ⟨pattern, f, args⟩ = some r) (ev : Evaluator PyM Val T) :
    ∃ ev', AcceptedRule pattern ⟨f, args⟩ ev ev' := by
  unfold asRule at h
  split at h
  all_goals first
    | (rename_i heq; cases heq)
    | skip
  · rename_i k a' fn a
    split at h
    · rename_i he; subst he; exact ⟨_, .unary (set_get ev.operations k _)⟩
    · cases h
  · rename_i k a' b' fn a b
    split at h
    · rename_i he; obtain ⟨rfl, rfl⟩ := he; exact ⟨_, .binary (set_get ev.operations k _)⟩
    · cases h
  · rename_i k s' fn a
    split at h
    · rename_i he; subst he; exact ⟨_, .sequence (set_get ev.operations k _)⟩
    · cases h
  · rename_i ty a' fn a
    split at h
    · rename_i he; subst he; exact ⟨_, .atomValue (set_get ev.atoms ty _)⟩
    · cases h
  · rename_i a' fn a
    split at h
    · rename_i he; subst he; exact ⟨_, .atomRule⟩
    · cases h
  · rename_i a' b' fn a b
    split at h
    · rename_i he; obtain ⟨rfl, rfl⟩ := he; exact ⟨_, .headRule⟩
    · cases h
  · cases h

theorem behaves_assign {rules : List (EvRule T)} {ev : Evaluator PyM Val T} (hb : Behaves rules ev)
    (c : Assignment T) (call : WildCall T) (hc : c.f.call c.args = .ok call) :
    Behaves ((asRule c).toList ++ rules) (setItem c.pattern (some call) ev).2 := by
  obtain ⟨pattern, f, args⟩ := c
  obtain ⟨h1, h2, h3, _⟩ := C39_rule_accepted_iff pattern f args call hc ev
  have hlen : args.length = f.arity ∧ call = ⟨f, args⟩ := by
    unfold PyFn.call at hc
    split at hc
    · rename_i h; cases hc; exact ⟨h, rfl⟩
    · cases hc
  obtain ⟨hlen, rfl⟩ := hlen
  by_cases hok : (setItem pattern (some ⟨f, args⟩) ev).1 = .ok ()
  · obtain ⟨r, hr, hb'⟩ := accepted_behaves hb hlen (h2 hok)
    rw [hr]
    exact hb'
  · have hn : asRule ⟨pattern, f, args⟩ = none := by
      cases h : asRule ⟨pattern, f, args⟩ with
      | none => rfl
      | some r => exact absurd (h1.2 (asRule_accepted h ev)) hok
    rw [hn, h3 hok]
    exact hb

theorem asRule_arity {c : Assignment T} {r : EvRule T} (h : asRule c = some r) :
    c.args.length = c.f.arity := by
  unfold asRule at h
  split at h <;> first
    | rfl
    | cases h

theorem behaves_exec (cs : List (Assignment T)) {rules : List (EvRule T)}
    {ev : Evaluator PyM Val T} (hb : Behaves rules ev) :
    Behaves (cs.reverse.filterMap asRule ++ rules) (execAll cs ev) := by
  induction cs generalizing rules ev with
  | nil => exact hb
  | cons c cs ih =>
    rw [execAll, List.reverse_cons, List.filterMap_append, List.append_assoc]
    have e1 : [c].filterMap asRule = (asRule c).toList := by
      cases h : asRule c <;> simp [h]
    rw [e1]
    split
    · rename_i err he
      have hn : asRule c = none := by
        cases h : asRule c with
        | none => rfl
        | some r =>
          rw [PyFn.call, if_pos (asRule_arity h)] at he
          cases he
      rw [hn]
      exact ih hb
    · rename_i call hc
      exact ih (behaves_assign hb c call hc)

/-- **C55.** Make a new evaluator, execute any rule assignments (refused ones raise and have no
effect), evaluate: the result is `v` exactly if `v` is the value of the expression according to the
latest rule for each head and each type of atoms. -/
theorem C55_rules_decide [HasNone T] (cs : List (Assignment T)) (e : Expr) (values : Dict Expr T)
    (hd : values.keys.Nodup) (v : T) :
    symEvalCall (execAll cs Evaluator.new) e (some values) = .ok v ↔
      Evaluates (tableMeaning (cs.reverse.filterMap asRule) values.get?) e v := by
  have hb := behaves_exec cs (behaves_new (T := T))
  rw [List.append_nil] at hb
  rw [← behaves_meaning hb]
  unfold symEvalCall
  have : (Dict.ofPairs values.items).get? = values.get? := by
    funext k; exact Dict.get?_ofPairs_items values hd k
  rw [C14_evaluation_structural, this]

/-- **C55, exceptions.** It raises only exceptions of rules that apply, and raises if such a rule
raises. -/
theorem C55_raises [HasNone T] (cs : List (Assignment T)) (e : Expr) (values : Dict Expr T)
    (hd : values.keys.Nodup) :
    let M := tableMeaning (cs.reverse.filterMap asRule) values.get?
    (∀ err, symEvalCall (execAll cs Evaluator.new) e (some values) = .error err →
      (∃ t, ArgSub e t ∧ t.children = [] ∧ M.leaf t = .error err) ∨
      (∃ h args vs, ArgSub e (.node (h :: args)) ∧ EvaluatesAll M args vs ∧
        M.op h vs = .error err)) ∧
    (∀ t, ArgSub e t → (¬ ∃ v, Evaluates M t v) →
      ∃ err, symEvalCall (execAll cs Evaluator.new) e (some values) = .error err) := by
  intro M
  have hb := behaves_exec cs (behaves_new (T := T))
  rw [List.append_nil] at hb
  have hM : M = meaning (execAll cs Evaluator.new) values.get? := (behaves_meaning hb _).symm
  rw [hM]
  unfold symEvalCall
  simp only
  have : (Dict.ofPairs values.items).get? = values.get? := by
    funext k; exact Dict.get?_ofPairs_items values hd k
  have h := C16_exceptions_propagate (execAll cs Evaluator.new) e (Dict.ofPairs values.items)
  rw [this] at h
  exact h

/-- A history with an overwritten rule, a refused one and generic rules: `ev[f(a, b)] = op(a, b)`,
then the wrong `ev[f(a, b)] = op(b, a)`, then `ev[f(*a)] = sum(a)`, `ev[Integer[a]] = func(a)`. -/
def ruleHistory : List (Assignment Nat) :=
  [⟨.sym (f.call [wild "a", wild "b"]), .op2 fun _ => .ok 1, [wild "a", wild "b"]⟩,
   ⟨.sym (f.call [wild "a", wild "b"]), .op2 fun _ => .ok 2, [wild "b", wild "a"]⟩,
   ⟨.sym (f.call [star (wild "a")]), .opN fun vs => .ok vs.sum, [wild "a"]⟩,
   ⟨.atomValue Ty.integer (wild "a"), .func1 fun _ => .ok 10, [wild "a"]⟩,
   ⟨.atomRule (wild "a"), .func1 fun _ => .ok 3, [wild "a"]⟩]

/-- `f(1, x, 1)` with `x = 5` is 25 by these rules, and without `x` there is no rule. -/
example :
    (ruleHistory.map fun c => (asRule c).isSome) = [true, false, true, true, false] ∧
    symEvalCall (execAll ruleHistory Evaluator.new) (f.call [integer 1, x, integer 1])
      (some ⟨[(x, 5)]⟩) = .ok 25 ∧
    symEvalCall (execAll ruleHistory Evaluator.new) (f.call [integer 1, x])
      (some Dict.empty) = .error .noEvaluationRule := by
  decide +kernel

end Verif.Props
