import Verif.Props.Eval
import Verif.Lemmas.F64
import Verif.Spec.Float
import Verif.Spec.Real

/-!
# C51: what `eval_f64` computes
-/

set_option linter.unusedSectionVars false

namespace Verif.Props
open Spec Expr
variable {F : Type} [HasNone F]

theorem f64_leaf_given (A : FloatOps F) (values : Expr → Option F) {t : Expr} {v : F}
    (h : values t = some v) (hn : HasNone.isNone v = false) :
    (meaning (evalF64 A) values).leaf t = .ok v := by
  simp only [meaning, h, hn]; rfl

theorem f64_leaf_not_given (A : FloatOps F) (values : Expr → Option F) {a : Atom Val}
    (h : NotGiven values (.atom a)) : (meaning (evalF64 A) values).leaf (.atom a) =
      if a.atomType = Ty.integer then A.fromVal a.value else .error .noEvaluationRule := by
  have hr : meaning.rule (evalF64 A) (.atom a) =
      if a.atomType = Ty.integer then A.fromVal a.value else .error .noEvaluationRule := by
    simp only [meaning.rule, evalF64_eq, Dict.get?, Dict.lookup, eq_comm (a := Ty.integer)]
    split <;> simp_all
  simp only [meaning]
  cases hv : values (.atom a) with
  | none => exact hr
  | some v => simp only [h v hv, if_true]; exact hr

mutual
theorem f64Value_evaluates (A : FloatOps F) (values : Expr → Option F) {e : Expr} {v : F} :
    F64Value A values e v → Evaluates (meaning (evalF64 A) values) e v
  | .given hl h hn => .leaf hl (f64_leaf_given A values h hn)
  | .integer h hn => .leaf rfl ((f64_leaf_not_given A values h).trans hn)
  | .sum h hv => .op (f64Values_evaluates A values h) (by rw [f64_op]; exact hv)
  | .product h hv => .op (f64Values_evaluates A values h) (by rw [f64_op]; exact hv)
  | .power h1 h2 hv => .op (.cons (f64Value_evaluates A values h1)
      (.cons (f64Value_evaluates A values h2) .nil)) (by rw [f64_op]; exact hv)
  | .sine h hv => .op (.cons (f64Value_evaluates A values h) .nil) (by rw [f64_op]; exact hv)
  | .cosine h hv => .op (.cons (f64Value_evaluates A values h) .nil) (by rw [f64_op]; exact hv)
theorem f64Values_evaluates (A : FloatOps F) (values : Expr → Option F) {es : List Expr}
    {vs : List F} : F64Values A values es vs → EvaluatesAll (meaning (evalF64 A) values) es vs
  | .nil => .nil
  | .cons h1 h2 => .cons (f64Value_evaluates A values h1) (f64Values_evaluates A values h2)
end

theorem f64Value_of_op (A : FloatOps F) (values : Expr → Option F) {h : Expr} {args : List Expr}
    {vs : List F} {v : F} (hvs : F64Values A values args vs) (hv : f64Op A h vs = .ok v) :
    F64Value A values (.node (h :: args)) v := by
  unfold f64Op at hv
  split at hv
  · rename_i he; subst he; exact .sum hvs hv
  split at hv
  · rename_i he; subst he; exact .product hvs hv
  split at hv
  · rename_i he; subst he
    cases hvs with
    | nil => cases hv
    | cons h1 h2 => cases h2 with
      | nil => cases hv
      | cons h2 h3 => cases h3 with
        | nil => exact .power h1 h2 hv
        | cons h3 h4 => cases hv
  split at hv
  · rename_i he; subst he
    cases hvs with
    | nil => cases hv
    | cons h1 h2 => cases h2 with
      | nil => exact .sine h1 hv
      | cons h2 h3 => cases hv
  split at hv
  · rename_i he; subst he
    cases hvs with
    | nil => cases hv
    | cons h1 h2 => cases h2 with
      | nil => exact .cosine h1 hv
      | cons h2 h3 => cases hv
  cases hv

mutual
theorem evaluates_f64Value (A : FloatOps F) (values : Expr → Option F) {e : Expr} {v : F} :
    Evaluates (meaning (evalF64 A) values) e v → F64Value A values e v
  | .leaf hl h => by
    by_cases hg : NotGiven values e
    · cases e with
      | atom a =>
        rw [f64_leaf_not_given A values hg] at h
        split at h
        · obtain ⟨ty, val⟩ := a
          rename_i hty
          cases hty
          cases val with
          | int n => exact .integer hg h
          | str s => cases h
        · cases h
      | node cs =>
        cases hl
        simp only [meaning] at h
        cases hv : values (.node []) with
        | none => rw [hv] at h; cases h
        | some w => rw [hv] at h; simp only [hg w hv, if_true] at h; cases h
    · simp only [NotGiven, not_forall] at hg
      obtain ⟨w, hw, hn⟩ := hg
      have hn : HasNone.isNone w = false := by simpa using hn
      rw [f64_leaf_given A values hw hn] at h
      cases h
      exact .given hl hw hn
  | .op h hv => f64Value_of_op A values (evaluatesAll_f64Values A values h) (by rwa [f64_op] at hv)
theorem evaluatesAll_f64Values (A : FloatOps F) (values : Expr → Option F) {es : List Expr}
    {vs : List F} : EvaluatesAll (meaning (evalF64 A) values) es vs → F64Values A values es vs
  | .nil => .nil
  | .cons h1 h2 => .cons (evaluates_f64Value A values h1) (evaluatesAll_f64Values A values h2)
end

/-- **C51.** `e.eval_f64(values)` returns `v` exactly when `v` is the value of `e`: given numbers,
integers, sums, products, binary powers, sines and cosines of one argument, in whatever
arithmetic; nothing else has a value.  (`values` is a dict: its keys are distinct.) -/
theorem C51_eval_f64 (A : FloatOps F) (e : Expr) (values : Dict Expr F)
    (hd : values.keys.Nodup) (v : F) :
    e.evalF64 A (some values) = .ok v ↔ F64Value A values.get? e v := by
  rw [evalF64_ok_iff A e values hd, ← evaluates_iff]
  exact ⟨evaluates_f64Value A _, f64Value_evaluates A _⟩

/-- Without `values` no number is given. -/
theorem C51_no_values (A : FloatOps F) (e : Expr) (v : F) :
    e.evalF64 A none = .ok v ↔ F64Value A (fun _ => none) e v :=
  C51_eval_f64 A e Dict.empty List.nodup_nil v

/-- Integer arithmetic as an example of an arithmetic (powers with exponents `≥ 0` only). -/
def intOps : FloatOps Int where
  ofInt n := .ok n
  fsum vs := .ok vs.sum
  prod vs := .ok vs.prod
  pow a b := if 0 ≤ b then .ok (a ^ b.toNat) else .error .valueError
  sin _ := .ok 0
  cos _ := .ok 1

/-- `x**2 + 3*y*cos(x)` at `x = 5`, `y = 7` in that arithmetic. -/
example : Expr.evalF64 intOps (add (pow x (integer 2)) (mulH.call [integer 3, y, cos x]))
    (some (Dict.ofPairs [(x, 5), (y, 7)])) = .ok 46 := by decide +kernel

theorem f64Values_length (A : FloatOps F) (values : Expr → Option F) {es : List Expr}
    {vs : List F} : F64Values A values es vs → es.length = vs.length
  | .nil => rfl
  | .cons _ h => by simp [f64Values_length A values h]

theorem f64Fails_of_op (A : FloatOps F) (values : Expr → Option F) {h : Expr} {args : List Expr}
    {vs : List F} {err : PyErr} (hvs : F64Values A values args vs) (hv : f64Op A h vs = .error err) :
    F64Fails A values (.node (h :: args)) err := by
  have hlen := f64Values_length A values hvs
  unfold f64Op at hv
  split at hv
  · rename_i he; subst he; exact .sum hvs hv
  split at hv
  · rename_i he; subst he; exact .product hvs hv
  split at hv
  · rename_i he; subst he
    cases hvs with
    | nil => cases hv; exact .powArity (by simp) .nil
    | cons h1 h2 => cases h2 with
      | nil => cases hv; exact .powArity (by simp) (.cons h1 .nil)
      | cons h2 h3 => cases h3 with
        | nil => exact .power h1 h2 hv
        | cons h3 h4 => cases hv; exact .powArity (by simp) (.cons h1 (.cons h2 (.cons h3 h4)))
  split at hv
  · rename_i he; subst he
    cases hvs with
    | nil => cases hv; exact .unaryArity (.inl rfl) (by simp) .nil
    | cons h1 h2 => cases h2 with
      | nil => exact .sine h1 hv
      | cons h2 h3 => cases hv; exact .unaryArity (.inl rfl) (by simp) (.cons h1 (.cons h2 h3))
  split at hv
  · rename_i he; subst he
    cases hvs with
    | nil => cases hv; exact .unaryArity (.inr rfl) (by simp) .nil
    | cons h1 h2 => cases h2 with
      | nil => exact .cosine h1 hv
      | cons h2 h3 => cases hv; exact .unaryArity (.inr rfl) (by simp) (.cons h1 (.cons h2 h3))
  cases hv
  refine .unknown ?_ hvs
  intro name hn
  simp only [List.mem_cons, List.not_mem_nil, or_false] at hn
  rcases hn with rfl | rfl | rfl | rfl | rfl <;> assumption

theorem f64Fails_no_value (A : FloatOps F) (values : Expr → Option F) {t : Expr} {err : PyErr}
    (h : F64Fails A values t err) : ¬ ∃ v, F64Value A values t v := by
  rintro ⟨v, hv⟩
  have hv := evaluates_iff.1 (f64Value_evaluates A values hv)
  have node : ∀ {hd : Expr} {args vs}, F64Values A values args vs →
      evalTree (meaning (evalF64 A) values) (.node (hd :: args)) = f64Op A hd vs := by
    intro hd args vs hvs
    have := evaluatesAll_evalTrees (f64Values_evaluates A values hvs)
    simp only [evalTree, this, bind, Except.bind, f64_op]
  cases h with
  | atom hg ht =>
    rw [show evalTree (meaning (evalF64 A) values) (.atom _) =
      (meaning (evalF64 A) values).leaf (.atom _) from rfl, f64_leaf_not_given A values hg,
      if_neg ht] at hv
    cases hv
  | integer hg he =>
    have hv : A.ofInt _ = .ok v := (f64_leaf_not_given A values hg).symm.trans hv
    rw [he] at hv; cases hv
  | unknown hh hvs =>
    rw [node hvs] at hv
    unfold f64Op at hv
    rw [if_neg (show _ ≠ addH from hh "Add" (by simp)),
      if_neg (show _ ≠ mulH from hh "Mul" (by simp)),
      if_neg (show _ ≠ powH from hh "pow" (by simp)),
      if_neg (show _ ≠ sinH from hh "sin" (by simp)),
      if_neg (show _ ≠ cosH from hh "cos" (by simp))] at hv
    cases hv
  | powArity hl hvs =>
    have hlen := f64Values_length A values hvs
    rw [show app "pow" _ = .node (powH :: _) from rfl, node hvs] at hv
    change arity2 A.pow _ = .ok v at hv
    rw [hlen] at hl
    unfold arity2 at hv
    split at hv
    · simp at hl
    · cases hv
  | unaryArity hn hl hvs =>
    have hlen := f64Values_length A values hvs
    rw [hlen] at hl
    rcases hn with rfl | rfl
    · rw [show app "sin" _ = .node (sinH :: _) from rfl, node hvs] at hv
      change arity1 A.sin _ = .ok v at hv
      unfold arity1 at hv
      split at hv
      · simp at hl
      · cases hv
    · rw [show app "cos" _ = .node (cosH :: _) from rfl, node hvs] at hv
      change arity1 A.cos _ = .ok v at hv
      unfold arity1 at hv
      split at hv
      · simp at hl
      · cases hv
  | sum hvs he =>
    rw [show app "Add" _ = .node (addH :: _) from rfl, node hvs] at hv
    change A.fsum _ = .ok v at hv
    rw [he] at hv; cases hv
  | product hvs he =>
    rw [show app "Mul" _ = .node (mulH :: _) from rfl, node hvs] at hv
    change A.prod _ = .ok v at hv
    rw [he] at hv; cases hv
  | power h1 h2 he =>
    rw [show app "pow" _ = .node (powH :: _) from rfl, node (.cons h1 (.cons h2 .nil))] at hv
    change A.pow _ _ = .ok v at hv
    rw [he] at hv; cases hv
  | sine h1 he =>
    rw [show app "sin" _ = .node (sinH :: _) from rfl, node (.cons h1 .nil)] at hv
    change A.sin _ = .ok v at hv
    rw [he] at hv; cases hv
  | cosine h1 he =>
    rw [show app "cos" _ = .node (cosH :: _) from rfl, node (.cons h1 .nil)] at hv
    change A.cos _ = .ok v at hv
    rw [he] at hv; cases hv

/-- **C51, exceptions.** `e.eval_f64(values)` raises `err` only because of a subexpression that
fails with `err`, and raises whenever there is a subexpression that fails: a symbol without a
number or an unknown function (`NoEvaluationRuleError`), a wrong number of arguments
(`TypeError`), or an exception of the arithmetic itself. -/
theorem C51_raises (A : FloatOps F) (e : Expr) (values : Dict Expr F)
    (hd : values.keys.Nodup) (hw : Wellformed e) :
    (∀ err, e.evalF64 A (some values) = .error err →
      ∃ t, ArgSub e t ∧ F64Fails A values.get? t err) ∧
    (∀ t err, ArgSub e t → F64Fails A values.get? t err →
      ∃ err', e.evalF64 A (some values) = .error err') := by
  have hget : (Dict.ofPairs values.items).get? = values.get? := by
    funext k; exact Dict.get?_ofPairs_items values hd k
  have hp := C16_exceptions_propagate (evalF64 A) e (Dict.ofPairs values.items)
  rw [hget] at hp
  refine ⟨fun err he => ?_, fun t err hs hf => hp.2 t hs ?_⟩
  · rcases hp.1 err he with ⟨t, hs, hl, h⟩ | ⟨h, args, vs, hs, hvs, hop⟩
    · refine ⟨t, hs, ?_⟩
      by_cases hg : NotGiven values.get? t
      · cases t with
        | node cs => cases hl; exact absurd hs hw.1
        | atom a =>
          rw [f64_leaf_not_given A _ hg] at h
          split at h
          · obtain ⟨ty, val⟩ := a
            rename_i hty
            cases hty
            cases val with
            | int n => exact .integer hg h
            | str s => exact absurd hs (hw.2 s)
          · rename_i hty; cases h; exact .atom hg hty
      · simp only [NotGiven, not_forall] at hg
        obtain ⟨w, hw', hn⟩ := hg
        rw [f64_leaf_given A _ hw' (by simpa using hn)] at h
        cases h
    · rw [f64_op] at hop
      exact ⟨_, hs, f64Fails_of_op A _ (evaluatesAll_f64Values A _ hvs) hop⟩
  · rintro ⟨v, hv⟩
    exact f64Fails_no_value A _ hf ⟨v, evaluates_f64Value A _ hv⟩

/-- All kinds of failures occur: `x + y` without a number for `y`, `f(x)`, `sin(x, x)`,
`2**(-1)` in integer arithmetic. -/
example :
    Expr.evalF64 intOps (add x y) (some (Dict.ofPairs [(x, 5)])) = .error .noEvaluationRule ∧
    Expr.evalF64 intOps (f.call [x]) (some (Dict.ofPairs [(x, 5)])) = .error .noEvaluationRule ∧
    Expr.evalF64 intOps (sinH.call [x, x]) (some (Dict.ofPairs [(x, 5)])) = .error .typeError ∧
    Expr.evalF64 intOps (pow (integer 2) (integer (-1))) none = .error .valueError := by
  decide +kernel

/-- **C51, total arithmetic.** In an arithmetic that never raises, `eval_f64` raises
`NoEvaluationRuleError` or `TypeError` only. -/
theorem C51_total_arithmetic (A : FloatOps F) (e : Expr) (values : Dict Expr F)
    (hd : values.keys.Nodup) (hw : Wellformed e)
    (hA : (∀ n, ∃ v, A.ofInt n = .ok v) ∧ (∀ vs, ∃ v, A.fsum vs = .ok v) ∧
      (∀ vs, ∃ v, A.prod vs = .ok v) ∧ (∀ a b, ∃ v, A.pow a b = .ok v) ∧
      (∀ a, ∃ v, A.sin a = .ok v) ∧ (∀ a, ∃ v, A.cos a = .ok v)) :
    (∃ v, e.evalF64 A (some values) = .ok v) ↔
      (∀ a, ArgSub e (.atom a) → a.atomType = Ty.integer ∨ ¬ NotGiven values.get? (.atom a)) ∧
      (∀ h args, ArgSub e (.node (h :: args)) →
        h = addH ∨ h = mulH ∨ h = powH ∧ args.length = 2 ∨
        (h = sinH ∨ h = cosH) ∧ args.length = 1) := by
  obtain ⟨hA1, hA2, hA3, hA4, hA5, hA6⟩ := hA
  constructor
  · rintro ⟨v, hv⟩
    rw [evalF64_ok_iff A e values hd] at hv
    constructor
    · intro a hs
      by_cases hty : a.atomType = Ty.integer
      · exact .inl hty
      · refine .inr fun hg => ?_
        obtain ⟨w, hw⟩ := evalTree_ok_sub _ hs ⟨v, hv⟩
        rw [show evalTree (meaning (evalF64 A) values.get?) (.atom a) =
          (meaning (evalF64 A) values.get?).leaf (.atom a) from rfl,
          f64_leaf_not_given A _ hg, if_neg hty] at hw
        cases hw
    · intro h args hs
      obtain ⟨w, hw⟩ := evalTree_ok_sub _ hs ⟨v, hv⟩
      obtain ⟨vs, h1, h2⟩ := f64_node_ok hw
      have hlen := mapM_length _ _ _ h1
      unfold f64Op at h2
      split at h2
      · exact .inl ‹_›
      split at h2
      · exact .inr (.inl ‹_›)
      split at h2
      · refine .inr (.inr (.inl ⟨‹_›, ?_⟩))
        unfold arity2 at h2
        split at h2
        · simpa using hlen
        · cases h2
      split at h2
      · refine .inr (.inr (.inr ⟨.inl ‹_›, ?_⟩))
        unfold arity1 at h2
        split at h2
        · simpa using hlen
        · cases h2
      split at h2
      · refine .inr (.inr (.inr ⟨.inr ‹_›, ?_⟩))
        unfold arity1 at h2
        split at h2
        · simpa using hlen
        · cases h2
      cases h2
  · rintro ⟨h1, h2⟩
    cases hr : e.evalF64 A (some values) with
    | ok v => exact ⟨v, rfl⟩
    | error err =>
      exfalso
      obtain ⟨t, hs, hf⟩ := (C51_raises A e values hd hw).1 err hr
      cases hf with
      | atom hg hty => rcases h1 _ hs with h | h; exacts [hty h, h hg]
      | integer hg he => obtain ⟨v, hv⟩ := hA1 _; rw [he] at hv; cases hv
      | unknown hh hvs =>
        rcases h2 _ _ hs with rfl | rfl | ⟨rfl, _⟩ | ⟨rfl | rfl, _⟩
        · exact hh "Add" (by simp) rfl
        · exact hh "Mul" (by simp) rfl
        · exact hh "pow" (by simp) rfl
        · exact hh "sin" (by simp) rfl
        · exact hh "cos" (by simp) rfl
      | powArity hl hvs =>
        rcases h2 _ _ hs with h | h | ⟨_, h⟩ | ⟨h | h, _⟩
        · exact absurd h (by decide)
        · exact absurd h (by decide)
        · exact hl h
        · exact absurd h (by decide)
        · exact absurd h (by decide)
      | unaryArity hn hl hvs =>
        rcases h2 _ _ hs with h | h | ⟨h, _⟩ | ⟨_, h⟩
        · rcases hn with rfl | rfl <;> exact absurd h (by decide)
        · rcases hn with rfl | rfl <;> exact absurd h (by decide)
        · rcases hn with rfl | rfl <;> exact absurd h (by decide)
        · exact hl h
      | sum _ he => obtain ⟨v, hv⟩ := hA2 _; rw [he] at hv; cases hv
      | product _ he => obtain ⟨v, hv⟩ := hA3 _; rw [he] at hv; cases hv
      | power _ _ he => obtain ⟨v, hv⟩ := hA4 _ _; rw [he] at hv; cases hv
      | sine _ he => obtain ⟨v, hv⟩ := hA5 _; rw [he] at hv; cases hv
      | cosine _ he => obtain ⟨v, hv⟩ := hA6 _; rw [he] at hv; cases hv

/-- An arithmetic that never raises. -/
example : (∀ n, ∃ v, ({ intOps with pow := fun a b => .ok (a ^ b.toNat) } : FloatOps Int).ofInt n =
    .ok v) ∧ Expr.evalF64 { intOps with pow := fun a b => .ok (a ^ b.toNat) }
      (pow x (sin y)) (some (Dict.ofPairs [(x, 5), (y, 7)])) = .ok 1 :=
  ⟨fun n => ⟨n, rfl⟩, by decide +kernel⟩

end Verif.Props
