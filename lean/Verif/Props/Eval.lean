import Verif.Lemmas.Eval
import Verif.Lemmas.Log
import Verif.Spec.Transform
import Verif.Props.Topo
import Verif.Spec.EvalRules

/-!
# C14–C19: evaluation
-/

set_option linter.unusedSectionVars false

namespace Verif.Props
open Spec Samples
variable {V T : Type} [DecidableEq V]

/-! ### A concrete evaluator for the examples -/

/-- Symbols of type `S` evaluate to 1, `f` adds its arguments, `g` doubles its only one. -/
def sampleEv : Evaluator PyM String Nat :=
  ((Evaluator.new.addAtom tySymbol (fun _ => .ok 1)).addOpN f (fun vs => .ok vs.sum)).addOp1 g
    (arity1 fun n => .ok (2 * n))

/-! ### C14 -/

/-- **C14.** Evaluating `e` with supplied `values` returns `v` exactly when `v` is the
structural value of `e`: see `Spec.Evaluates` and `Spec.meaning`. -/
theorem C14_evaluation_structural [HasNone T] (ev : Evaluator PyM V T) (e : Tree V)
    (values : Dict (Tree V) T) (v : T) :
    ev.call e (some values) = .ok v ↔ Evaluates (meaning ev values.get?) e v := by
  rw [evaluates_iff]; exact evalForward_ok_iff ev e values v

/-- Without `values` no atom has a supplied value. -/
theorem C14_no_values [HasNone T] (ev : Evaluator PyM V T) (e : Tree V) (v : T) :
    ev.call e none = .ok v ↔ Evaluates (meaning ev (fun _ => none)) e v := by
  rw [evaluates_iff]; exact evalForward_ok_iff ev e Dict.empty v

/-- Strings, numbers and expressions are never mistaken for a missing value: what is supplied for an
atom is what the atom evaluates to, with any rules. -/
theorem C14_supplied_values (a : Atom V) (t : Tree V) :
    (∀ (ev : Evaluator PyM V String) (s : String),
      ev.call (.atom a) (some (Dict.ofPairs [(.atom a, s)])) = .ok s) ∧
    (∀ (ev : Evaluator PyM V Int) (n : Int),
      ev.call (.atom a) (some (Dict.ofPairs [(.atom a, n)])) = .ok n) ∧
    (∀ (ev : Evaluator PyM V Nat) (n : Nat),
      ev.call (.atom a) (some (Dict.ofPairs [(.atom a, n)])) = .ok n) ∧
    (∀ (ev : Evaluator PyM V (Tree V)),
      ev.call (.atom a) (some (Dict.ofPairs [(.atom a, t)])) = .ok t) := by
  have hd : ∀ {T : Type} (x : T), (Dict.ofPairs [((.atom a : Tree V), x)]).get? (.atom a) = some x := by
    intro T x; simp [Dict.ofPairs, Dict.update, Dict.get?, Dict.set, Dict.assign, Dict.lookup, Dict.empty]
  refine ⟨fun ev s => ?_, fun ev s => ?_, fun ev s => ?_, fun ev => ?_⟩ <;>
    (rw [C14_evaluation_structural]; refine .leaf rfl ?_; simp [meaning, hd, HasNone.isNone])

/-- `f(g(x), y, g(x))` with `y := 10`: `2*1 + 10 + 2*1`. -/
example : sampleEv.call fgxygx (some (Dict.ofPairs [(y, 10)])) = .ok 14 := by decide +kernel

/-! ### C15 -/

mutual
theorem evalRecursive_eq [HasNone T] (ev : Evaluator PyM V T) (values : Dict (Tree V) T)
    (hv : PlainValues values) : ∀ e : Tree V,
    ev.evalRecursive values e = evalTree (meaning ev values.get?) e
  | .atom a => by
    have hl := congrFun (evalLeaf_meaning ev values) (.atom a)
    simp only [Evaluator.evalRecursive, evalTree]
    rw [← hl]
    unfold Evaluator.evalLeaf
    cases h : values.get? (.atom a) with
    | none => rfl
    | some v => simp [(hv _ _ h).2]
  | .node [] => by
    have hl := congrFun (evalLeaf_meaning ev values) (.node [])
    simp only [Evaluator.evalRecursive, evalTree]
    rw [← hl]
    unfold Evaluator.evalLeaf
    cases h : values.get? (.node []) with
    | none => rfl
    | some v => simp [(hv _ _ h).2]
  | .node (hd :: args) => by
    simp only [Evaluator.evalRecursive, evalTree]
    cases h : values.get? (.node (hd :: args)) with
    | some v => have := (hv _ _ h).1; simp [Tree.children] at this
    | none =>
      simp only
      rw [evalRecursiveList_eq ev values hv args, evalOperation_meaning ev values.get?]
theorem evalRecursiveList_eq [HasNone T] (ev : Evaluator PyM V T) (values : Dict (Tree V) T)
    (hv : PlainValues values) : ∀ es : List (Tree V),
    ev.evalRecursiveList values es = evalTrees (meaning ev values.get?) es
  | [] => rfl
  | t :: ts => by
    simp only [Evaluator.evalRecursiveList, evalTrees]
    rw [evalRecursive_eq ev values hv t, evalRecursiveList_eq ev values hv ts]
end

/-- **C15** (partial: the full statement "the strategies agree for every `values`" is
refuted below). If every supplied value belongs to an atom and none is `None`, then
`eval_forward` returns `v` exactly when `eval_recursive` does. -/
theorem C15_forward_recursive_agree_partial [HasNone T] (ev : Evaluator PyM V T) (e : Tree V)
    (values : Dict (Tree V) T) (hv : PlainValues values) (v : T) :
    ev.evalForward e values = .ok v ↔ ev.evalRecursive values e = .ok v := by
  rw [evalRecursive_eq ev values hv]; exact evalForward_ok_iff ev e values v

/-- The hypothesis is met by a non-trivial `values`. -/
example : PlainValues (Dict.ofPairs [(x, 5), (y, 10)] : Dict (Tree String) Nat) ∧
    sampleEv.evalForward fgxygx (Dict.ofPairs [(x, 5), (y, 10)]) = .ok 30 := by
  constructor
  · intro t v h
    refine ⟨?_, rfl⟩
    rw [Dict.get?_ofPairs] at h
    have := lastAssoc_mem h
    simp only [List.mem_cons, List.not_mem_nil, or_false, Prod.mk.injEq] at this
    rcases this with ⟨rfl, _⟩ | ⟨rfl, _⟩ <;> rfl
  · decide +kernel

/-- Values that may be Python's `None`. -/
instance : HasNone (Option Nat) := ⟨Option.isNone⟩

/-- **C15, refutation 1.** A value supplied for a compound subexpression is used by
`eval_recursive` and ignored by `eval_forward`: `g(x)` with `{g(x): 7}`. -/
theorem C15_compound_value_false :
    ∃ (ev : Evaluator PyM String Nat) (e : Tree String) (values : Dict (Tree String) Nat),
      ev.evalForward e values = .ok 2 ∧ ev.evalRecursive values e = .ok 7 :=
  ⟨sampleEv, gx, Dict.ofPairs [(gx, 7)], by decide +kernel, by decide +kernel⟩

/-- **C15, refutation 2.** A supplied `None` is a value for `eval_recursive` and no value
for `eval_forward`. -/
theorem C15_none_value_false :
    ∃ (ev : Evaluator PyM String (Option Nat)) (e : Tree String)
      (values : Dict (Tree String) (Option Nat)),
      ev.evalForward e values = .ok (some 1) ∧ ev.evalRecursive values e = .ok none :=
  ⟨Evaluator.new.addAtom tySymbol (fun _ => .ok (some 1)), x, Dict.ofPairs [(x, none)],
    by decide +kernel, by decide +kernel⟩

/-! ### C16 -/

theorem total_leaf [HasNone T] {ev : Evaluator PyM V T} (ht : TotalRules ev)
    (values : Dict (Tree V) T) (a : Atom V) :
    (∃ w, (meaning ev values.get?).leaf (.atom a) = .ok w) ∨
    ((meaning ev values.get?).leaf (.atom a) = .error .noEvaluationRule ∧
      ev.atoms.get? a.atomType = none ∧
      ∀ v, values.get? (.atom a) = some v → HasNone.isNone v = true) := by
  have hrule : (∃ w, meaning.rule ev (.atom a) = .ok w) ∨
      (meaning.rule ev (.atom a) = .error .noEvaluationRule ∧ ev.atoms.get? a.atomType = none) := by
    simp only [meaning.rule]
    cases h : ev.atoms.get? a.atomType with
    | some f => exact Or.inl (ht.atoms _ _ h _)
    | none => right; simp only [ht.genericAtom]; exact ⟨rfl, trivial⟩
  simp only [meaning]
  cases hv : values.get? (.atom a) with
  | none =>
    rcases hrule with h | h
    · exact Or.inl h
    · exact Or.inr ⟨h.1, h.2, by intro v h'; cases h'⟩
  | some v =>
    simp only
    cases hn : HasNone.isNone v with
    | false => left; exact ⟨v, by simp⟩
    | true =>
      simp only [if_true]
      rcases hrule with h | h
      · exact Or.inl h
      · exact Or.inr ⟨h.1, h.2, by intro v' h'; cases h'; exact hn⟩

theorem total_op [HasNone T] {ev : Evaluator PyM V T} (ht : TotalRules ev)
    (values : Tree V → Option T) (h : Tree V) (vs : List T) :
    (∃ w, (meaning ev values).op h vs = .ok w ∧ ev.operations.get? h ≠ none) ∨
    ((meaning ev values).op h vs = .error .noEvaluationRule ∧ ev.operations.get? h = none) := by
  simp only [meaning]
  cases ho : ev.operations.get? h with
  | none => right; simp only [ht.genericOp]; exact ⟨rfl, trivial⟩
  | some o =>
    left
    cases o with
    | star f => obtain ⟨w, hw⟩ := ht.star _ _ ho vs; exact ⟨w, hw, by simp⟩
    | seq f => obtain ⟨w, hw⟩ := ht.seq _ _ ho vs; exact ⟨w, hw, by simp⟩

/-- **C16.** If all rules are total, evaluation raises `NoEvaluationRuleError` exactly when
a rule is missing, and returns a value otherwise.  (`Tree()` — no head, no value — is not an
expression; see `C16_degenerate`.) -/
theorem C16_missing_rules [HasNone T] (ev : Evaluator PyM V T) (ht : TotalRules ev) (e : Tree V)
    (values : Dict (Tree V) T) (hdeg : ¬ ArgSub e (.node [])) :
    (ev.call e (some values) = .error .noEvaluationRule ↔ RuleMissing ev values e) ∧
    ((∃ v, ev.call e (some values) = .ok v) ↔ ¬ RuleMissing ev values e) := by
  show (ev.evalForward e values = _ ↔ _) ∧ ((∃ v, ev.evalForward e values = _) ↔ _)
  have hok : ∀ v, ev.evalForward e values = .ok v → ¬ RuleMissing ev values e := by
    intro v hv
    rw [evalForward_ok_iff] at hv
    rintro (⟨a, ha, h1, h2⟩ | ⟨h, args, ha, hno⟩)
    · obtain ⟨w, hw⟩ := evalTree_ok_sub _ ha ⟨v, hv⟩
      rw [evalTree_leaf _ (by rfl)] at hw
      have hr : meaning.rule ev (.atom a) = .error .noEvaluationRule := by
        simp only [meaning.rule, h1, ht.genericAtom]; rfl
      simp only [meaning] at hw
      cases hv' : values.get? (.atom a) with
      | none => rw [hv'] at hw; simp only [hr] at hw; cases hw
      | some u => rw [hv'] at hw; simp only [h2 u hv', if_true, hr] at hw; cases hw
    · obtain ⟨w, hw⟩ := evalTree_ok_sub _ ha ⟨v, hv⟩
      simp only [evalTree] at hw
      cases hm : evalTrees (meaning ev values.get?) args with
      | error err => rw [hm] at hw; cases hw
      | ok vs =>
        rw [hm] at hw
        rcases total_op ht values.get? h vs with ⟨_, _, h'⟩ | ⟨h', _⟩
        · exact h' hno
        · change (meaning ev values.get?).op h vs = _ at hw
          rw [h'] at hw; cases hw
  have herr : ∀ err, ev.evalForward e values = .error err →
      err = .noEvaluationRule ∧ RuleMissing ev values e := by
    intro err he
    obtain ⟨t, hsub, ⟨hl, hlt⟩ | ⟨hl, vs, _, hop⟩⟩ := evalForward_error ev e values err he
    · cases t with
      | atom a =>
        rcases total_leaf ht values a with ⟨w, hw⟩ | ⟨h1, h2, h3⟩
        · rw [hw] at hlt; cases hlt
        · rw [h1] at hlt; cases hlt
          exact ⟨rfl, Or.inl ⟨a, hsub, h2, h3⟩⟩
      | node cs =>
        cases cs with
        | nil => exact absurd hsub hdeg
        | cons c cs => simp [isLeaf, Tree.children] at hl
    · rcases total_op ht values.get? (headOf t) vs with ⟨w, hw, _⟩ | ⟨h1, h2⟩
      · rw [hw] at hop; cases hop
      · rw [h1] at hop; cases hop
        refine ⟨rfl, Or.inr ⟨headOf t, argsOf t, ?_, h2⟩⟩
        cases t with
        | atom a => simp [isLeaf, Tree.children] at hl
        | node cs =>
          cases cs with
          | nil => simp [isLeaf, Tree.children] at hl
          | cons c cs => exact hsub
  cases hr : ev.evalForward e values with
  | ok v =>
    have := hok v hr
    refine ⟨⟨fun h => ?_, fun h => absurd h this⟩, ⟨fun _ => this, fun _ => ⟨v, rfl⟩⟩⟩
    cases h
  | error err =>
    obtain ⟨rfl, hm⟩ := herr err hr
    refine ⟨⟨fun _ => hm, fun _ => rfl⟩, ⟨?_, fun h => absurd hm h⟩⟩
    rintro ⟨v, hv⟩
    cases hv

/-- The hypotheses are met, with and without a missing rule: `h(x)` has no rule, `f(x, y)`
has. -/
example : TotalRules ((Evaluator.new.addAtom tySymbol (fun _ => .ok 1)).addOpN f (fun vs => .ok vs.sum) :
    Evaluator PyM String Nat) ∧
    ¬ ArgSub (f.call [x, gx]) (.node []) ∧
    ((Evaluator.new.addAtom tySymbol (fun _ => .ok 1)).addOpN f (fun vs => .ok vs.sum) :
      Evaluator PyM String Nat).call (f.call [x, gx]) = .error .noEvaluationRule := by
  refine ⟨⟨?_, ?_, ?_, rfl, rfl⟩, ?_, by decide +kernel⟩
  · intro ty f h v
    simp only [Evaluator.addOpN, Evaluator.addAtom, Evaluator.new] at h
    rw [Dict.get?_set] at h
    split at h
    · cases h; exact ⟨1, rfl⟩
    · cases h
  · intro hd f' h v
    simp only [Evaluator.addOpN, Evaluator.addAtom, Evaluator.new] at h
    rw [Dict.get?_set] at h
    split at h
    · cases h
    · cases h
  · intro hd f' h v
    simp only [Evaluator.addOpN, Evaluator.addAtom, Evaluator.new] at h
    rw [Dict.get?_set] at h
    split at h
    · cases h; exact ⟨_, rfl⟩
    · cases h
  · rw [← reach_topo]; decide +kernel

/-- **C16, propagation.** Whatever the rules do, an exception raised by the evaluation is
the exception of a rule applied to an atom of `e`, or to a head of `e` and the values of its
arguments; conversely an exception of such a rule makes the evaluation raise. -/
theorem C16_exceptions_propagate [HasNone T] (ev : Evaluator PyM V T) (e : Tree V)
    (values : Dict (Tree V) T) :
    (∀ err, ev.call e (some values) = .error err →
      (∃ t, ArgSub e t ∧ t.children = [] ∧ (meaning ev values.get?).leaf t = .error err) ∨
      (∃ h args vs, ArgSub e (.node (h :: args)) ∧
        EvaluatesAll (meaning ev values.get?) args vs ∧
        (meaning ev values.get?).op h vs = .error err)) ∧
    (∀ t, ArgSub e t → (¬ ∃ v, Evaluates (meaning ev values.get?) t v) →
      ∃ err, ev.call e (some values) = .error err) := by
  constructor
  · intro err he
    obtain ⟨t, hsub, ⟨hl, hlt⟩ | ⟨hl, vs, hvs, hop⟩⟩ := evalForward_error ev e values err he
    · left; exact ⟨t, hsub, by simpa [isLeaf] using hl, hlt⟩
    · right
      refine ⟨headOf t, argsOf t, vs, ?_, ?_, hop⟩
      · cases t with
        | atom a => simp [isLeaf, Tree.children] at hl
        | node cs =>
          cases cs with
          | nil => simp [isLeaf, Tree.children] at hl
          | cons c cs => exact hsub
      · rw [← evalTrees_eq] at hvs; exact evalTrees_evaluates hvs
  · intro t hsub hno
    cases hr : ev.call e (some values) with
    | error err => exact ⟨err, rfl⟩
    | ok v =>
      exfalso
      apply hno
      have h1 := (evalForward_ok_iff ev e values v).1 hr
      obtain ⟨w, hw⟩ := evalTree_ok_sub _ hsub ⟨v, h1⟩
      exact ⟨w, evaluates_iff.2 hw⟩

/-- `Tree()` cannot be evaluated: reading its `value` raises `AttributeError`. -/
theorem C16_degenerate [HasNone T] (ev : Evaluator PyM V T) :
    ev.call (.node []) none = .error .attributeError := by
  cases h : ev.call (.node []) none with
  | ok v =>
    have := (evalForward_ok_iff ev (.node []) Dict.empty v).1 h
    cases this
  | error err =>
    obtain ⟨t, hsub, ⟨_, h2⟩ | ⟨h1, _⟩⟩ := evalForward_error ev (.node []) Dict.empty err h
    · cases hsub with
      | refl => cases h2; rfl
      | down _ hc _ => cases hc
    · cases hsub with
      | refl => simp [isLeaf, Tree.children] at h1
      | down _ hc _ => cases hc

/-! ### C17 -/

section C17
variable {m : Type → Type} [Monad m] [LawfulMonad m] [MonadExceptOf PyErr m]

omit [LawfulMonad m] [MonadExceptOf PyErr m] in
theorem memoRun_congr {leaf leaf' : Tree V → m T} {op op' : Tree V → List T → m T} :
    ∀ (l : List (Tree V)) (memo : List (Tree V × T)),
    (∀ t ∈ l, isLeaf t = true → leaf t = leaf' t) →
    (∀ t ∈ l, isLeaf t = false → op (headOf t) = op' (headOf t)) →
    memoRun leaf op memo l = memoRun leaf' op' memo l := by
  intro l
  induction l with
  | nil => intro _ _ _; rfl
  | cons t l ih =>
    intro memo h1 h2
    have hc : memoCall leaf op memo t = memoCall leaf' op' memo t := by
      unfold memoCall
      cases hl : isLeaf t with
      | true => simp only [if_true]; exact h1 t (by simp) hl
      | false => simp only [Bool.false_eq_true, if_false]; rw [h2 t (by simp) hl]
    simp only [memoRun, hc]
    congr 1
    funext v
    exact ih _ (fun t ht => h1 t (by simp [ht])) (fun t ht => h2 t (by simp [ht]))

/-- **C17.** Two evaluators with the same generic rules, and two sets of supplied values,
that agree on the atoms in argument position and on the heads of the compound
subexpressions of `e` behave identically on `e` (same value, same exception, same effects).
In particular values supplied for, and rules attached to, anything else are irrelevant, and
expressions that only occur in head position are never evaluated. -/
theorem C17_depends_only_on_occurring [HasNone T] (ev ev' : Evaluator m V T) (e : Tree V)
    (values values' : Dict (Tree V) T)
    (hga : ev.genericAtomFunc = ev'.genericAtomFunc)
    (hgo : ev.genericOperationFunc = ev'.genericOperationFunc)
    (hatoms : ∀ a, ArgSub e (.atom a) → ev.atoms.get? a.atomType = ev'.atoms.get? a.atomType)
    (hvalues : ∀ t, ArgSub e t → t.children = [] → values.get? t = values'.get? t)
    (hheads : ∀ h args, ArgSub e (.node (h :: args)) →
      ev.operations.get? h = ev'.operations.get? h) :
    ev.call e (some values) = ev'.call e (some values') := by
  show ev.evalForward e values = ev'.evalForward e values'
  rw [evalForward_memo, evalForward_memo]
  congr 1
  apply memoRun_congr
  · intro t ht hl
    have hsub := mem_graphOrder.1 ht
    unfold Evaluator.evalLeaf
    rw [hvalues t hsub (by simpa [isLeaf] using hl)]
    have : ev.evalAtom t = ev'.evalAtom t := by
      unfold Evaluator.evalAtom
      cases t with
      | atom a => simp only [Tree.value]; rw [hatoms a hsub, hga]
      | node cs => rfl
    rw [this]
  · intro t ht hl
    have hsub := mem_graphOrder.1 ht
    funext vs
    unfold Evaluator.evalOperation
    cases t with
    | atom a => simp [isLeaf, Tree.children] at hl
    | node cs =>
      cases cs with
      | nil => simp [isLeaf, Tree.children] at hl
      | cons c cs =>
        have : headOf (.node (c :: cs)) = c := rfl
        rw [this, hheads c cs hsub, hgo]

/-- Values for expressions that only occur as heads change nothing: `f(x)(y)` with a value
for `f` and `f(x)`; and nothing but `x`, `f`, `g` matters for `f(g(x))`. -/
example : ¬ ArgSub fx_y f ∧ ¬ ArgSub fx_y (f.call [x]) ∧ ArgSub fx_y y := by
  refine ⟨?_, ?_, ?_⟩ <;> rw [← reach_topo] <;> decide +kernel

/-- **C17, rule replacement.** `add_atom` replaces exactly the rule of its atom type,
`add_op1`/`add_op2`/`add_opn` exactly the rule of their head, the generic setters exactly
the generic rule; everything else is left alone. -/
theorem C17_adding_rules (ev : Evaluator m V T) (ty : AtomType) (h : Tree V) (fa : V → m T)
    (fo : List T → m T) (ga : Tree V → m T) (go : Tree V → List T → m T) :
    (∀ ty', (ev.addAtom ty fa).atoms.get? ty' =
      if ty = ty' then some fa else ev.atoms.get? ty') ∧
    (∀ h', (ev.addOp1 h fo).operations.get? h' =
      if h = h' then some (.star fo) else ev.operations.get? h') ∧
    (∀ h', (ev.addOp2 h fo).operations.get? h' =
      if h = h' then some (.star fo) else ev.operations.get? h') ∧
    (∀ h', (ev.addOpN h fo).operations.get? h' =
      if h = h' then some (.seq fo) else ev.operations.get? h') ∧
    (ev.addAtom ty fa).operations = ev.operations ∧
    (ev.addOp1 h fo).atoms = ev.atoms ∧ (ev.addOp2 h fo).atoms = ev.atoms ∧
    (ev.addOpN h fo).atoms = ev.atoms ∧
    (ev.addAtomGeneric ga) = { ev with genericAtomFunc := ga } ∧
    (ev.addOpGeneric go) = { ev with genericOperationFunc := go } := by
  exact ⟨fun _ => Dict.get?_set _ _ _ _, fun _ => Dict.get?_set _ _ _ _, fun _ => Dict.get?_set _ _ _ _,
    fun _ => Dict.get?_set _ _ _ _, rfl, rfl, rfl, rfl, rfl, rfl⟩

end C17

/-! ### C18 -/

/-- **C18.** Observe the calls made during one evaluation: there is a duplicate-free
topological order of the subexpressions of `e`, atoms first, such that the calls are exactly
the expected ones, one per listed subexpression and in that order (up to the point where a
rule raised); recording does not change the outcome. -/
theorem C18_each_evaluated_once [HasNone T] (ev : Evaluator PyM V T) (e : Tree V)
    (values : Dict (Tree V) T) :
    ∃ (atoms nodes : List (Tree V)) (k : Nat),
      IsTopoOrder e (atoms ++ nodes) ∧
      (∀ t ∈ atoms, t.children = []) ∧ (∀ t ∈ nodes, t.children ≠ []) ∧
      (logged ev).call e (some values) [] =
        (ev.call e (some values),
         ((atoms ++ nodes).take k).filterMap (expectedCall ev values.get?)) ∧
      ((∃ v, ev.call e (some values) = .ok v) → k = (atoms ++ nodes).length) := by
  have hgo : (topologicalSort false [] e).filter isLeaf ++
      (topologicalSort false [] e).filter (fun t => !isLeaf t) = graphOrder e := rfl
  obtain ⟨k, hk, h1, h2⟩ := logged_run ev values (graphOrder e) (argsFirst_graphOrder e)
    (graphOrder e) [] [] rfl (by intro p hp; cases hp)
  refine ⟨(topologicalSort false [] e).filter isLeaf,
    (topologicalSort false [] e).filter (fun t => !isLeaf t), k, ?_, ?_, ?_, ?_, ?_⟩
  · rw [hgo]; exact isTopoOrder_graphOrder e
  · intro t ht; simpa [isLeaf] using (List.mem_filter.1 ht).2
  · intro t ht; simpa [isLeaf] using (List.mem_filter.1 ht).2
  · rw [hgo]
    show (logged ev).evalForward e values [] = _
    rw [evalForward_memo, logged_bind, h1]
    show _ = (ev.evalForward e values, _)
    rw [evalForward_py]
    cases hm : (graphOrder e).mapM (evalTree (meaning ev values.get?)) with
    | error err => rfl
    | ok vs =>
      have hlen := mapM_length _ _ _ hm
      simp only [Functor.map, Except.map, List.nil_append, bind, Except.bind]
      rw [List.map_snd_zip (by omega)]
      cases pyLast vs <;> rfl
  · rintro ⟨v, hv⟩
    rw [hgo]
    apply h2
    have hv' : ev.evalForward e values = .ok v := hv
    rw [evalForward_py] at hv'
    cases hm : (graphOrder e).mapM (evalTree (meaning ev values.get?)) with
    | error err => rw [hm] at hv'; cases hv'
    | ok vs => exact ⟨vs, rfl⟩

/-- `f(g(x), y, g(x))` with `y` supplied: three calls, `g(x)` evaluated once. -/
example : Id.run ((logged sampleEv).call fgxygx (some (Dict.ofPairs [(y, 10)])) []) =
    (.ok 14, [.leaf x, .op g [1], .op f [2, 10, 2]]) := by decide +kernel

/-! ### C19 -/

mutual
theorem rewrites_evaluates {ev : Evaluator PyM V (Tree V)} {σ : Tree V → Option (Tree V)}
    (hg : ev.genericAtomFunc = (Transformer.new : Evaluator PyM V (Tree V)).genericAtomFunc)
    (ho : ev.genericOperationFunc =
      (Transformer.new : Evaluator PyM V (Tree V)).genericOperationFunc)
    (ha : ev.atoms = (Transformer.new : Evaluator PyM V (Tree V)).atoms) {t u : Tree V} :
    Rewrites σ (headRules ev) t u → Evaluates (meaning ev σ) t u
  | .given h => .leaf rfl (by simp only [meaning, h]; rfl)
  | .atom h => .leaf rfl (by simp only [meaning, h, meaning.rule, ha, hg]; rfl)
  | @Rewrites.rebuild _ _ _ hd _ args' h1 h2 => by
    refine .op (rewritesAll_evaluates hg ho ha h1) ?_
    simp only [meaning]
    unfold headRules at h2
    cases h : ev.operations.get? hd with
    | none => simp only [ho]; rfl
    | some o => rw [h] at h2; cases o <;> cases h2
  | @Rewrites.rule _ _ _ hd _ args' f _ h1 h2 h3 => by
    refine .op (rewritesAll_evaluates hg ho ha h1) ?_
    simp only [meaning]
    unfold headRules at h2
    cases h : ev.operations.get? hd with
    | none => rw [h] at h2; cases h2
    | some o => rw [h] at h2; cases o <;> cases h2 <;> exact h3
theorem rewritesAll_evaluates {ev : Evaluator PyM V (Tree V)} {σ : Tree V → Option (Tree V)}
    (hg : ev.genericAtomFunc = (Transformer.new : Evaluator PyM V (Tree V)).genericAtomFunc)
    (ho : ev.genericOperationFunc =
      (Transformer.new : Evaluator PyM V (Tree V)).genericOperationFunc)
    (ha : ev.atoms = (Transformer.new : Evaluator PyM V (Tree V)).atoms) {ts us : List (Tree V)} :
    RewritesAll σ (headRules ev) ts us → EvaluatesAll (meaning ev σ) ts us
  | .nil => .nil
  | .cons h1 h2 => .cons (rewrites_evaluates hg ho ha h1) (rewritesAll_evaluates hg ho ha h2)
end

mutual
theorem evaluates_rewrites {ev : Evaluator PyM V (Tree V)} {σ : Tree V → Option (Tree V)}
    (hg : ev.genericAtomFunc = (Transformer.new : Evaluator PyM V (Tree V)).genericAtomFunc)
    (ho : ev.genericOperationFunc =
      (Transformer.new : Evaluator PyM V (Tree V)).genericOperationFunc)
    (ha : ev.atoms = (Transformer.new : Evaluator PyM V (Tree V)).atoms)
    (hσ : σ (.node []) = none) {t u : Tree V} :
    Evaluates (meaning ev σ) t u → Rewrites σ (headRules ev) t u
  | @Evaluates.leaf _ _ _ t _ h1 h2 => by
    cases t with
    | atom a =>
      simp only [meaning] at h2
      cases h : σ (.atom a) with
      | some w => rw [h] at h2; cases h2; exact .given h
      | none =>
        rw [h] at h2
        simp only [meaning.rule, ha, hg] at h2
        cases h2
        exact .atom h
    | node cs =>
      simp only [Tree.children] at h1
      subst h1
      simp only [meaning, hσ, meaning.rule] at h2
      cases h2
  | @Evaluates.op _ _ _ hd args vs _ h1 h2 => by
    simp only [meaning] at h2
    cases h : ev.operations.get? hd with
    | none =>
      rw [h] at h2
      simp only [ho] at h2
      cases h2
      exact .rebuild (evaluatesAll_rewrites hg ho ha hσ h1) (by simp [headRules, h])
    | some o =>
      rw [h] at h2
      cases o with
      | star f => exact .rule (evaluatesAll_rewrites hg ho ha hσ h1) (by simp only [headRules, h]) h2
      | seq f => exact .rule (evaluatesAll_rewrites hg ho ha hσ h1) (by simp only [headRules, h]) h2
theorem evaluatesAll_rewrites {ev : Evaluator PyM V (Tree V)} {σ : Tree V → Option (Tree V)}
    (hg : ev.genericAtomFunc = (Transformer.new : Evaluator PyM V (Tree V)).genericAtomFunc)
    (ho : ev.genericOperationFunc =
      (Transformer.new : Evaluator PyM V (Tree V)).genericOperationFunc)
    (ha : ev.atoms = (Transformer.new : Evaluator PyM V (Tree V)).atoms)
    (hσ : σ (.node []) = none) {ts us : List (Tree V)} :
    EvaluatesAll (meaning ev σ) ts us → RewritesAll σ (headRules ev) ts us
  | .nil => .nil
  | .cons h1 h2 => .cons (evaluates_rewrites hg ho ha hσ h1) (evaluatesAll_rewrites hg ho ha hσ h2)
end

/-- **C19, rules.** A `Transformer` to which only head rules have been added rewrites
bottom-up: see `Spec.Rewrites`. -/
theorem C19_transformer_rewrites (ev : Evaluator PyM V (Tree V))
    (hg : ev.genericAtomFunc = (Transformer.new : Evaluator PyM V (Tree V)).genericAtomFunc)
    (ho : ev.genericOperationFunc =
      (Transformer.new : Evaluator PyM V (Tree V)).genericOperationFunc)
    (ha : ev.atoms = (Transformer.new : Evaluator PyM V (Tree V)).atoms)
    (e : Tree V) (values : Dict (Tree V) (Tree V)) (hv : values.get? (.node []) = none) (u : Tree V) :
    ev.call e (some values) = .ok u ↔ Rewrites values.get? (headRules ev) e u := by
  rw [C14_evaluation_structural]
  exact ⟨evaluates_rewrites hg ho ha hv, rewrites_evaluates hg ho ha⟩

/-- The docstring's transformer `f(x, y) -> g(y, x)`. -/
example : (Transformer.new.addOp2 f (arity2 fun a b => .ok (g.call [b, a])) :
      Evaluator PyM String (Tree String)).call (f.call [f.call [x, y], z]) =
    .ok (g.call [z, g.call [y, x]]) := by decide +kernel

mutual
theorem substArgs_evaluates (σ : Tree V → Option (Tree V)) : ∀ e : Tree V,
    ¬ ArgSub e (.node []) →
    Evaluates (meaning (Transformer.new : Evaluator PyM V (Tree V)) σ) e (substArgs σ e)
  | .atom a, _ => by
    refine .leaf rfl ?_
    simp only [meaning, substArgs]
    cases h : σ (.atom a) <;> rfl
  | .node [], h => absurd (Reach.refl (by simp)) h
  | .node (hd :: args), h => by
    simp only [substArgs]
    exact .op (substArgsList_evaluates σ args (fun c hc hr =>
      h (Reach.down (by simp) (by simpa [kids] using hc) hr))) rfl
theorem substArgsList_evaluates (σ : Tree V → Option (Tree V)) : ∀ es : List (Tree V),
    (∀ e ∈ es, ¬ ArgSub e (.node [])) →
    EvaluatesAll (meaning (Transformer.new : Evaluator PyM V (Tree V)) σ) es (substArgsList σ es)
  | [], _ => .nil
  | e :: es, h => .cons (substArgs_evaluates σ e (h e (by simp)))
      (substArgsList_evaluates σ es (fun c hc => h c (by simp [hc])))
end

mutual
theorem substArgs_none : ∀ e : Tree V, substArgs (fun _ => none) e = e
  | .atom _ => rfl
  | .node [] => rfl
  | .node (h :: args) => by simp only [substArgs]; rw [substArgsList_none args]
theorem substArgsList_none : ∀ es : List (Tree V), substArgsList (fun _ => none) es = es
  | [] => rfl
  | e :: es => by simp only [substArgsList]; rw [substArgs_none e, substArgsList_none es]
end

/-- **C19, no rules.** `Transformer()(e, values)` replaces the supplied atoms in argument
position and nothing else; in particular `Transformer()(e)` is `e`.  (`Tree()` is not an
expression and raises.) -/
theorem C19_transformer_identity (e : Tree V) (hdeg : ¬ ArgSub e (.node [])) :
    (Transformer.new : Evaluator PyM V (Tree V)).call e none = .ok e ∧
    ∀ values : Dict (Tree V) (Tree V),
      (Transformer.new : Evaluator PyM V (Tree V)).call e (some values) =
        .ok (substArgs values.get? e) := by
  constructor
  · rw [C14_no_values]
    have := substArgs_evaluates (fun _ => none) e hdeg
    rwa [substArgs_none] at this
  · intro values
    rw [C14_evaluation_structural]
    exact substArgs_evaluates _ e hdeg

/-- Heads are left alone: `f(f)` with `f := x` becomes `f(x)`. -/
example : ¬ ArgSub (f.call [f]) (.node []) ∧
    (Transformer.new : Evaluator PyM String (Tree String)).call (f.call [f])
      (some (Dict.ofPairs [(f, x)])) = .ok (f.call [x]) := by
  refine ⟨?_, by decide +kernel⟩
  rw [← reach_topo]; decide +kernel

end Verif.Props
