import Verif.Lemmas.Rules
import Verif.Lemmas.Dict
import Verif.Spec.Rules

/-!
# C39: evaluator rules are accepted exactly when well formed
-/

set_option linter.unusedSectionVars false

namespace Verif.Props
open Spec Expr
variable {T : Type}

theorem bind_lift_ok {α : Type} (ev : Evaluator PyM Val T) (k : Unit → EvM T α) :
    (EvM.lift (.ok ()) >>= k) ev = k () ev := rfl

theorem bind_lift_error {α β : Type} (ev : Evaluator PyM Val T) (err : PyErr)
    (k : α → EvM T β) : (EvM.lift (.error err) >>= k) ev = (.error err, ev) := rfl

theorem set_get {K W : Type} [DecidableEq K] (d : Dict K W) (k : K) (w : W) :
    ∀ k', (d.set k w).get? k' = if k' = k then some w else d.get? k' := by
  intro k'
  rw [Dict.get?_set]
  by_cases h : k = k'
  · subst h; simp
  · have h' : ¬ k' = k := fun e => h e.symm
    simp [h, h']

/-- **C39.** `ev[pattern] = f(args)`: if the wrapper accepts its arguments, the assignment
is accepted exactly when it has one of the forms of `Spec.AcceptedRule`, it then has exactly
the effect described there, and otherwise it raises `BadRuleError` and leaves the evaluator
unchanged.  Assigning anything that is not a symbolic call raises `BadRuleError`. -/
theorem C39_rule_accepted_iff (pattern : Pattern) (f : PyFn T) (args : List Expr)
    (call : WildCall T) (hcall : f.call args = .ok call) (ev : Evaluator PyM Val T) :
    ((setItem pattern (some call) ev).1 = .ok () ↔ ∃ ev', AcceptedRule pattern call ev ev') ∧
    ((setItem pattern (some call) ev).1 = .ok () →
      AcceptedRule pattern call ev (setItem pattern (some call) ev).2) ∧
    ((setItem pattern (some call) ev).1 ≠ .ok () →
      setItem pattern (some call) ev = (.error .badRule, ev)) ∧
    setItem pattern (none : Option (WildCall T)) ev = (.error .badRule, ev) := by
  have key : (AcceptedRule pattern call ev (setItem pattern (some call) ev).2 ∧
        (setItem pattern (some call) ev).1 = .ok ()) ∨
      ((∀ ev', ¬ AcceptedRule pattern call ev ev') ∧
        setItem pattern (some call) ev = (.error .badRule, ev)) := by
    unfold PyFn.call at hcall
    split at hcall
    · rename_i hlen
      cases hcall
      cases pattern with
      | atomRule p =>
        cases f with
        | opN fn =>
          right
          refine ⟨fun ev' h => (by cases h), ?_⟩
          simp only [PyFn.arity] at hlen
          obtain ⟨a, rfl⟩ := List.length_eq_one_iff.1 hlen
          simp only [setItem, checkSignature]
          split <;> rfl
        | atomFunc fn =>
          by_cases hs : Pattern.args (.atomRule p) = args
          · subst hs
            left
            simp only [setItem, checkSignature, Pattern.args, ne_eq, not_true_eq_false, if_false]
            exact ⟨.atomRule, rfl⟩
          · right
            constructor
            · intro ev' h; cases h; exact hs rfl
            · simp only [setItem, checkSignature, ne_eq, hs, not_false_eq_true, if_true]; rfl
        | _ =>
          right
          refine ⟨fun ev' h => (by cases h), ?_⟩
          simp only [setItem, checkSignature]
          split <;> rfl
      | headRule p q =>
        cases f with
        | opN fn =>
          right
          refine ⟨fun ev' h => (by cases h), ?_⟩
          simp only [PyFn.arity] at hlen
          obtain ⟨a, rfl⟩ := List.length_eq_one_iff.1 hlen
          simp only [setItem, checkSignature]
          split <;> rfl
        | headOp fn =>
          by_cases hs : Pattern.args (.headRule p q) = args
          · subst hs
            left
            simp only [setItem, checkSignature, Pattern.args, ne_eq, not_true_eq_false, if_false]
            exact ⟨.headRule, rfl⟩
          · right
            constructor
            · intro ev' h; cases h; exact hs rfl
            · simp only [setItem, checkSignature, ne_eq, hs, not_false_eq_true, if_true]; rfl
        | _ =>
          right
          refine ⟨fun ev' h => (by cases h), ?_⟩
          simp only [setItem, checkSignature]
          split <;> rfl
      | atomValue ty p =>
        cases f with
        | opN fn =>
          right
          refine ⟨fun ev' h => (by cases h), ?_⟩
          simp only [PyFn.arity] at hlen
          obtain ⟨a, rfl⟩ := List.length_eq_one_iff.1 hlen
          simp only [setItem, checkSignature]
          split <;> rfl
        | func1 fn =>
          by_cases hs : Pattern.args (.atomValue ty p) = args
          · subst hs
            left
            simp only [setItem, checkSignature, Pattern.args, ne_eq, not_true_eq_false, if_false]
            exact ⟨.atomValue (set_get _ _ _), rfl⟩
          · right
            constructor
            · intro ev' h; cases h; exact hs rfl
            · simp only [setItem, checkSignature, ne_eq, hs, not_false_eq_true, if_true]; rfl
        | _ =>
          right
          refine ⟨fun ev' h => (by cases h), ?_⟩
          simp only [setItem, checkSignature]
          split <;> rfl
      | sym e =>
        -- a pattern whose arguments match has a head
        have hhead : ∀ as : List Expr, as ≠ [] → e.args = as → ∃ h, e = .node (h :: as) := by
          intro as hne he
          cases e with
          | atom a => exact absurd he.symm (by simpa [Expr.args, Tree.children] using hne)
          | node cs =>
            cases cs with
            | nil => exact absurd he.symm (by simpa [Expr.args, Tree.children] using hne)
            | cons c cs => exact ⟨c, by simpa [Expr.args, Tree.children] using he⟩
        cases f with
        | opN fn =>
          simp only [PyFn.arity] at hlen
          obtain ⟨a, rfl⟩ := List.length_eq_one_iff.1 hlen
          by_cases hs : e.args = [star a]
          · left
            obtain ⟨h, rfl⟩ := hhead _ (by simp) hs
            simp only [setItem, checkSignature, Pattern.args, hs, ne_eq, not_true_eq_false, if_false]
            exact ⟨.sequence (set_get _ _ _), rfl⟩
          · right
            constructor
            · intro ev' h; cases h; exact hs rfl
            · simp only [setItem, checkSignature, Pattern.args, ne_eq, hs, not_false_eq_true,
                if_true]; rfl
        | op1 fn =>
          simp only [PyFn.arity] at hlen
          by_cases hs : e.args = args
          · left
            obtain ⟨h, rfl⟩ := hhead args (by intro h0; rw [h0] at hlen; cases hlen) hs
            simp only [setItem, checkSignature, Pattern.args, hs, ne_eq, not_true_eq_false, if_false]
            exact ⟨.unary (set_get _ _ _), rfl⟩
          · right
            constructor
            · intro ev' h; cases h; exact hs rfl
            · simp only [setItem, checkSignature, Pattern.args, ne_eq, hs, not_false_eq_true,
                if_true]; rfl
        | op2 fn =>
          simp only [PyFn.arity] at hlen
          by_cases hs : e.args = args
          · left
            obtain ⟨h, rfl⟩ := hhead args (by intro h0; rw [h0] at hlen; cases hlen) hs
            simp only [setItem, checkSignature, Pattern.args, hs, ne_eq, not_true_eq_false, if_false]
            exact ⟨.binary (set_get _ _ _), rfl⟩
          · right
            constructor
            · intro ev' h; cases h; exact hs rfl
            · simp only [setItem, checkSignature, Pattern.args, ne_eq, hs, not_false_eq_true,
                if_true]; rfl
        | _ =>
          right
          refine ⟨fun ev' h => (by cases h), ?_⟩
          simp only [setItem, checkSignature]
          split <;> rfl
    · cases hcall
  rcases key with ⟨h1, h2⟩ | ⟨h1, h2⟩
  · exact ⟨⟨fun _ => ⟨_, h1⟩, fun _ => h2⟩, fun _ => h1, fun h => absurd h2 h, rfl⟩
  · refine ⟨⟨fun h => ?_, fun ⟨ev', h⟩ => absurd h (h1 ev')⟩, fun h => ?_, fun _ => h2, rfl⟩
    · rw [h2] at h; cases h
    · rw [h2] at h; cases h

/-- The wrappers refuse a wrong number of symbolic arguments. -/
theorem C39_wrapper_arity (f : PyFn T) (args : List Expr) :
    (args.length = f.arity → f.call args = .ok ⟨f, args⟩) ∧
    (args.length ≠ f.arity → f.call args = .error .typeError) := by
  constructor <;> intro h <;> simp [PyFn.call, h]

/-- Accepted: `ev[Add(*a)] = opN(a)`; rejected: `ev[Add(a)] = opN(a)` (no star),
`ev[sin(a)] = op1(b)` (other wild), `ev[sin(a)] = func1(a)` (wrong kind). -/
example :
    ∀ ev : Evaluator PyM Val Nat,
      (setItem (.sym (addH.call [star wa])) (some ⟨.opN (fun l => .ok l.sum), [wa]⟩) ev).1 = .ok () ∧
      (setItem (.sym (addH.call [wa])) (some ⟨.opN (fun l => .ok l.sum), [wa]⟩) ev).1
        = .error .badRule ∧
      (setItem (.sym (sin wa)) (some ⟨.op1 (arity1 .ok), [wb]⟩) ev).1 = .error .badRule ∧
      (setItem (.sym (sin wa)) (some ⟨.func1 (fun _ => .ok 0), [wa]⟩) ev).1 = .error .badRule :=
  fun _ => ⟨rfl, rfl, rfl, rfl⟩

/-- **C39, the built-in evaluators.** All rule assignments executed when simplecas is
imported are accepted, for every float arithmetic. -/
theorem C39_builtin_rules_accepted {F : Type} (A : FloatOps F) :
    (installRules (f64Rules A) Evaluator.new).1 = .ok () ∧
    (installRules reprRules Evaluator.new).1 = .ok () ∧
    (installRules latexRules Evaluator.new).1 = .ok () ∧
    (installRules countOpsRules Evaluator.new).1 = .ok () := installed A

end Verif.Props
