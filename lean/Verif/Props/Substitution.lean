import Verif.Props.Subs
import Verif.Props.Eval
import Verif.Spec.EvalValues

/-!
# C47: substitution and evaluation; C13 and C15 without provisos
-/

set_option linter.unusedSectionVars false

namespace Verif.Props
open Spec Samples
variable {V T : Type} [DecidableEq V]

/-! ### C13: `xreplace` in every case -/

theorem mapM_expressify_error (l : List PyObj) (err : PyErr) (h : l.mapM expressify = .error err) :
    err = .expressify ∧ ∃ o ∈ l, expressify o = .error .expressify := by
  obtain ⟨pre, o, post, h1, h2, _⟩ := mapM_error _ _ _ h
  cases o with
  | expr e => cases h2
  | int n => cases h2
  | other n => cases h2; exact ⟨rfl, .other n, by rw [h1]; simp, rfl⟩

/-- **C13, `xreplace` in every case.**  It raises `ExpressifyError` exactly when a key or a
value cannot be expressified, and raises nothing else.  Otherwise the result is the
simultaneous substitution, except that when the expression itself is one of the keys the
*last* value of the dict is returned. -/
theorem C13_xreplace_exact (e : Expr) (reps : Dict PyObj PyObj) :
    (¬ GoodReps reps → xreplace e reps = .error .expressify) ∧
    (GoodReps reps → repsMap reps e = none → xreplace e reps = .ok (subst (repsMap reps) e)) ∧
    (GoodReps reps → repsMap reps e ≠ none →
      ∃ k v, reps.items.getLast? = some (k, v) ∧ xreplace e reps = expressify v) := by
  refine ⟨?_, fun hg he => C13_xreplace_subst_partial e reps hg (Or.inl he), ?_⟩
  · intro hg
    unfold xreplace asFunction exprFunctionNew
    simp only [expressify, bind, Except.bind]
    cases hk : reps.keys.mapM expressify with
    | error err => obtain ⟨rfl, _⟩ := mapM_expressify_error _ _ hk; rfl
    | ok ks =>
      simp only
      obtain ⟨f, hf, _⟩ := C12_subs_total e ks
      rw [hf]
      simp only [exprFunctionCall, bind, Except.bind]
      cases hv : reps.vals.mapM expressify with
      | error err => obtain ⟨rfl, _⟩ := mapM_expressify_error _ _ hv; rfl
      | ok vs =>
        exfalso
        apply hg
        intro p hp
        obtain ⟨k, hk'⟩ := mapM_ok_mem _ _ _ hk p.1 (List.mem_map.2 ⟨p, hp, rfl⟩)
        obtain ⟨v, hv'⟩ := mapM_ok_mem _ _ _ hv p.2 (List.mem_map.2 ⟨p, hp, rfl⟩)
        exact ⟨k, v, hk', hv'⟩
  · intro hg he
    obtain ⟨ks, vs, h1, h2, h3, h4⟩ := mapM_expressify_items reps.items hg
    have hmap : repsMap reps = pairing ks vs := by
      funext t; exact congrArg (lastAssoc t) h4
    have hin : e ∈ ks := by
      apply Classical.byContradiction
      intro hn
      apply he
      rw [hmap]
      cases hc : pairing ks vs e with
      | none => rfl
      | some w =>
        exfalso
        have := lastAssoc_mem hc
        exact hn (List.of_mem_zip this).1
    have hne : reps.items ≠ [] := by
      intro h0
      rw [h0] at h1
      cases h1; cases hin
    obtain ⟨⟨k, v⟩, hl⟩ : ∃ q, reps.items.getLast hne = q := ⟨_, rfl⟩
    refine ⟨k, v, by rw [List.getLast?_eq_some_getLast hne, hl], ?_⟩
    obtain ⟨f, hf1, hf2⟩ := C11_whole_expression e ks hin
    unfold xreplace asFunction exprFunctionNew exprFunctionCall Dict.keys Dict.vals
    simp only [h1, h2, expressify, bind, Except.bind, hf1]
    rw [hf2 vs h3.symm]
    have hsplit : reps.items.map Prod.snd = (reps.items.dropLast).map Prod.snd ++ [v] := by
      have h5 := List.dropLast_concat_getLast hne
      rw [hl] at h5
      have h6 := congrArg (List.map Prod.snd) h5
      rw [List.map_append] at h6
      exact h6.symm
    rw [hsplit, List.mapM_append] at h2
    cases ha : ((reps.items.dropLast).map Prod.snd).mapM expressify with
    | error err => rw [ha] at h2; cases h2
    | ok ws =>
      rw [ha] at h2
      simp only [List.mapM_cons, List.mapM_nil] at h2
      cases hv : expressify v with
      | error err => rw [hv] at h2; cases h2
      | ok w =>
        rw [hv] at h2
        cases h2
        show pyLast (ws ++ [w]) = expressify v
        rw [hv]
        simp [pyLast]

/-- All three cases occur: `{x: object()}`, `{x: y}` on `cos(x)`, `{x: 1, y: 2}` on `x`. -/
example :
    xreplace Expr.x (Dict.ofPairs [(.expr Expr.x, .other 0)]) = .error .expressify ∧
    xreplace (Expr.cos Expr.x) (Dict.ofPairs [(.expr Expr.x, .expr Expr.y)]) =
      .ok (Expr.cos Expr.y) ∧
    xreplace Expr.x (Dict.ofPairs [(.expr Expr.x, .int 1), (.expr Expr.y, .int 2)]) =
      .ok (Expr.integer 2) := by decide +kernel

/-! ### C15: what `eval_recursive` computes in every case -/

mutual
theorem evalRecursive_iff [HasNone T] (ev : Evaluator PyM V T) (values : Dict (Tree V) T) :
    ∀ (e : Tree V) (v : T), ev.evalRecursive values e = .ok v ↔
      EvaluatesFirst (meaning ev (fun _ => none)) values.get? e v
  | .atom a, v => by
    have hl := congrFun (evalLeaf_meaning ev Dict.empty) (.atom a)
    simp only [Evaluator.evalRecursive]
    cases h : values.get? (.atom a) with
    | some w =>
      constructor
      · intro h'; cases h'; exact .given h
      · intro h'
        cases h' with
        | given h1 => rw [h] at h1; cases h1; rfl
        | leaf h1 _ _ => rw [h] at h1; cases h1
    | none =>
      constructor
      · intro h'; exact .leaf h rfl (hl.symm.trans h')
      · intro h'
        cases h' with
        | given h1 => rw [h] at h1; cases h1
        | leaf _ _ h1 => exact hl.trans h1
  | .node [], v => by
    have hl := congrFun (evalLeaf_meaning ev Dict.empty) (.node [])
    simp only [Evaluator.evalRecursive]
    cases h : values.get? (.node []) with
    | some w =>
      constructor
      · intro h'; cases h'; exact .given h
      · intro h'
        cases h' with
        | given h1 => rw [h] at h1; cases h1; rfl
        | leaf h1 _ _ => rw [h] at h1; cases h1
    | none =>
      constructor
      · intro h'; exact .leaf h rfl (hl.symm.trans h')
      · intro h'
        cases h' with
        | given h1 => rw [h] at h1; cases h1
        | leaf _ _ h1 => exact hl.trans h1
  | .node (hd :: args), v => by
    have ih := evalRecursiveList_iff ev values args
    simp only [Evaluator.evalRecursive]
    cases h : values.get? (.node (hd :: args)) with
    | some w =>
      constructor
      · intro h'; cases h'; exact .given h
      · intro h'
        cases h' with
        | given h1 => rw [h] at h1; cases h1; rfl
        | leaf h1 _ _ => rw [h] at h1; cases h1
        | op h1 _ _ => rw [h] at h1; cases h1
    | none =>
      simp only
      rw [evalOperation_meaning ev (fun _ => none)]
      cases hr : ev.evalRecursiveList values args with
      | error err =>
        constructor
        · intro h'; cases h'
        · intro h'
          cases h' with
          | given h1 => rw [h] at h1; cases h1
          | leaf _ h1 _ => cases h1
          | op _ h1 _ => rw [← ih, hr] at h1; cases h1
      | ok vs =>
        constructor
        · intro h'; exact .op h ((ih vs).1 hr) h'
        · intro h'
          cases h' with
          | given h1 => rw [h] at h1; cases h1
          | leaf _ h1 _ => cases h1
          | op _ h1 h2 => rw [← ih, hr] at h1; cases h1; exact h2
theorem evalRecursiveList_iff [HasNone T] (ev : Evaluator PyM V T) (values : Dict (Tree V) T) :
    ∀ (es : List (Tree V)) (vs : List T), ev.evalRecursiveList values es = .ok vs ↔
      EvaluatesFirstAll (meaning ev (fun _ => none)) values.get? es vs
  | [], vs => by
    simp only [Evaluator.evalRecursiveList]
    constructor
    · intro h; cases h; exact .nil
    · intro h; cases h; rfl
  | t :: ts, vs => by
    have ih1 := evalRecursive_iff ev values t
    have ih2 := evalRecursiveList_iff ev values ts
    simp only [Evaluator.evalRecursiveList]
    constructor
    · intro h
      cases h1 : ev.evalRecursive values t with
      | error err => rw [h1] at h; cases h
      | ok w =>
        cases h2 : ev.evalRecursiveList values ts with
        | error err => rw [h1, h2] at h; cases h
        | ok ws => rw [h1, h2] at h; cases h; exact .cons ((ih1 w).1 h1) ((ih2 ws).1 h2)
    · intro h
      cases h with
      | cons h1 h2 => rw [(ih1 _).2 h1, (ih2 _).2 h2]; rfl
end

/-- **C15, `eval_recursive` in every case.**  It returns `v` exactly when `v` is the structural
value of `e` in which a value supplied for any subexpression (compound ones and `None`
included) replaces the evaluation of that subexpression. -/
theorem C15_recursive_exact [HasNone T] (ev : Evaluator PyM V T) (e : Tree V)
    (values : Dict (Tree V) T) (v : T) :
    ev.evalRecursive values e = .ok v ↔
      EvaluatesFirst (meaning ev (fun _ => none)) values.get? e v :=
  evalRecursive_iff ev values e v

/-- `f(g(x), y, g(x))` with `{g(x): 7, y: 10}`. -/
example : sampleEv.evalRecursive (Dict.ofPairs [(gx, 7), (y, 10)]) fgxygx = .ok 24 := by
  decide +kernel

mutual
theorem evalRecursive_raises [HasNone T] (ev : Evaluator PyM V T) (values : Dict (Tree V) T) :
    ∀ (e : Tree V) (err : PyErr), ev.evalRecursive values e = .error err →
      RaisesFirst (meaning ev (fun _ => none)) values.get? e err
  | .atom a, err => by
    have hl := congrFun (evalLeaf_meaning ev Dict.empty) (.atom a)
    simp only [Evaluator.evalRecursive]
    cases h : values.get? (.atom a) with
    | some w => intro h'; cases h'
    | none => intro h'; exact .leaf h rfl (hl.symm.trans h')
  | .node [], err => by
    have hl := congrFun (evalLeaf_meaning ev Dict.empty) (.node [])
    simp only [Evaluator.evalRecursive]
    cases h : values.get? (.node []) with
    | some w => intro h'; cases h'
    | none => intro h'; exact .leaf h rfl (hl.symm.trans h')
  | .node (hd :: args), err => by
    have ih := evalRecursiveList_raises ev values args
    simp only [Evaluator.evalRecursive]
    cases h : values.get? (.node (hd :: args)) with
    | some w => intro h'; cases h'
    | none =>
      simp only
      rw [evalOperation_meaning ev (fun _ => none)]
      cases hr : ev.evalRecursiveList values args with
      | error err' =>
        intro h'
        cases h'
        obtain ⟨before, a, after, vs, rfl, h1, h2⟩ := ih _ hr
        exact .argument h h1 h2
      | ok vs => intro h'; exact .op h ((evalRecursiveList_iff ev values args vs).1 hr) h'
theorem evalRecursiveList_raises [HasNone T] (ev : Evaluator PyM V T) (values : Dict (Tree V) T) :
    ∀ (es : List (Tree V)) (err : PyErr), ev.evalRecursiveList values es = .error err →
      ∃ before a after vs, es = before ++ a :: after ∧
        EvaluatesFirstAll (meaning ev (fun _ => none)) values.get? before vs ∧
        RaisesFirst (meaning ev (fun _ => none)) values.get? a err
  | [], err => by intro h; cases h
  | t :: ts, err => by
    have ih1 := evalRecursive_raises ev values t
    have ih2 := evalRecursiveList_raises ev values ts
    simp only [Evaluator.evalRecursiveList]
    intro h
    cases h1 : ev.evalRecursive values t with
    | error err' =>
      rw [h1] at h; cases h
      exact ⟨[], t, ts, [], rfl, .nil, ih1 _ h1⟩
    | ok w =>
      cases h2 : ev.evalRecursiveList values ts with
      | ok ws => rw [h1, h2] at h; cases h
      | error err' =>
        rw [h1, h2] at h; cases h
        obtain ⟨before, a, after, vs, rfl, h3, h4⟩ := ih2 _ h2
        exact ⟨t :: before, a, after, w :: vs, rfl, .cons ((evalRecursive_iff ev values t w).1 h1) h3,
          h4⟩
end

/-- **C15, exceptions of `eval_recursive`.**  It raises `err` exactly when `err` is the first
failure met when the arguments are evaluated from left to right, depth first. -/
theorem C15_recursive_which_exception [HasNone T] (ev : Evaluator PyM V T) (e : Tree V)
    (values : Dict (Tree V) T) (err : PyErr) :
    ev.evalRecursive values e = .error err ↔
      RaisesFirst (meaning ev (fun _ => none)) values.get? e err := by
  refine ⟨evalRecursive_raises ev values e err, fun h => ?_⟩
  have append : ∀ before a after vs err,
      EvaluatesFirstAll (meaning ev (fun _ => none)) values.get? before vs →
      ev.evalRecursive values a = .error err →
      ev.evalRecursiveList values (before ++ a :: after) = .error err := by
    intro before
    induction before with
    | nil =>
      intro a after vs err _ h2
      simp only [List.nil_append, Evaluator.evalRecursiveList, h2]; rfl
    | cons b bs ih =>
      intro a after vs err h1 h2
      cases h1 with
      | cons h3 h4 =>
        have h5 := ih a after _ err h4 h2
        simp only [List.cons_append, Evaluator.evalRecursiveList,
          (evalRecursive_iff ev values _ _).2 h3, h5]
        rfl
  induction h with
  | @leaf t err hn hc he =>
    have hl := congrFun (evalLeaf_meaning ev Dict.empty) t
    cases t with
    | atom a => simp only [Evaluator.evalRecursive, hn]; exact hl.trans he
    | node cs => cases hc; simp only [Evaluator.evalRecursive, hn]; exact hl.trans he
  | argument hn hb _ ih =>
    simp only [Evaluator.evalRecursive, hn, append _ _ _ _ _ hb ih]; rfl
  | op hn hvs he =>
    simp only [Evaluator.evalRecursive, hn, (evalRecursiveList_iff ev values _ _).2 hvs]
    rw [evalOperation_meaning ev (fun _ => none)]
    exact he

/-- `f(g(x, y), h)` where `g` takes one argument and `h` has no rule: the first failure is that
of `g`; `eval_forward`, which evaluates atoms first, meets that of `h`. -/
example :
    sampleEv.evalRecursive Dict.empty (f.call [g.call [x, y], .atom ⟨tyFunction, "h"⟩]) =
      .error .typeError ∧
    sampleEv.evalForward (f.call [g.call [x, y], .atom ⟨tyFunction, "h"⟩]) Dict.empty =
      .error .noEvaluationRule := by
  decide +kernel

/-! ### C16: which exception -/

/-- **C16, which exception.**  Evaluation raises `err` exactly when, going through the atoms of
`e` and then its compound subexpressions (both in the order of `topological_sort`), the first
one without a value fails with `err`: its rule, applied to the values of its arguments if it has
any, raises `err`. -/
theorem C16_which_exception [HasNone T] (ev : Evaluator PyM V T) (e : Tree V)
    (values : Dict (Tree V) T) (err : PyErr) :
    ev.call e (some values) = .error err ↔
      ∃ pre t post,
        (topologicalSort false [] e).filter (fun t => t.children.isEmpty) ++
          (topologicalSort false [] e).filter (fun t => !t.children.isEmpty) = pre ++ t :: post ∧
        (∀ s ∈ pre, ∃ w, Evaluates (meaning ev values.get?) s w) ∧
        ((t.children = [] ∧ (meaning ev values.get?).leaf t = .error err) ∨
          ∃ h args vs, t = .node (h :: args) ∧ EvaluatesAll (meaning ev values.get?) args vs ∧
            (meaning ev values.get?).op h vs = .error err) := by
  show ev.evalForward e values = .error err ↔ _
  have horder : (topologicalSort false [] e).filter (fun t => t.children.isEmpty) ++
      (topologicalSort false [] e).filter (fun t => !t.children.isEmpty) = graphOrder e := rfl
  rw [horder, evalForward_py]
  have hsub : ∀ pre t post, graphOrder e = pre ++ t :: post →
      (∀ s ∈ pre, ∃ w, evalTree (meaning ev values.get?) s = .ok w) →
      (evalTree (meaning ev values.get?) t = .error err ↔
        ((t.children = [] ∧ (meaning ev values.get?).leaf t = .error err) ∨
          ∃ h args vs, t = .node (h :: args) ∧ EvaluatesAll (meaning ev values.get?) args vs ∧
            (meaning ev values.get?).op h vs = .error err)) := by
    intro pre t post h1 h2
    cases hl : isLeaf t with
    | true =>
      have hc : t.children = [] := by simpa [isLeaf] using hl
      rw [evalTree_leaf _ hl]
      constructor
      · intro h; exact Or.inl ⟨hc, h⟩
      · rintro (⟨_, h⟩ | ⟨h, args, vs, rfl, _⟩)
        · exact h
        · cases hc
    | false =>
      obtain ⟨vs, hvs⟩ := mapM_ok_of_forall (evalTree (meaning ev values.get?)) (argsOf t)
        (fun c hc => h2 c (argsFirst_graphOrder e pre t post h1 c hc))
      rw [evalTree_node _ hl, hvs]
      cases t with
      | atom a => cases hl
      | node cs =>
        cases cs with
        | nil => cases hl
        | cons h args =>
          constructor
          · intro h'
            refine Or.inr ⟨h, args, vs, rfl, ?_, h'⟩
            apply evalTrees_evaluates
            rw [evalTrees_eq]; exact hvs
          · rintro (⟨h', _⟩ | ⟨h', args', vs', heq, h5, h6⟩)
            · cases h'
            · cases heq
              have := evaluatesAll_evalTrees h5
              rw [evalTrees_eq] at this
              have h7 : args.mapM (evalTree (meaning ev values.get?)) = .ok vs := hvs
              rw [h7] at this
              cases this
              exact h6
  constructor
  · intro h
    cases hm : (graphOrder e).mapM (evalTree (meaning ev values.get?)) with
    | ok vs =>
      rw [hm] at h
      obtain ⟨l, hl⟩ := graphOrder_last e
      have hlen := mapM_length _ _ _ hm
      rw [hl] at hlen
      simp only [bind, Except.bind] at h
      unfold pyLast at h
      split at h
      · cases h
      · rename_i hn
        rw [List.getLast?_eq_none_iff] at hn
        rw [hn] at hlen; simp at hlen
    | error err' =>
      rw [hm] at h
      cases h
      obtain ⟨pre, t, post, h1, h2, h3⟩ := mapM_error _ _ _ hm
      refine ⟨pre, t, post, h1, ?_, (hsub pre t post h1 h3).1 h2⟩
      intro s hs
      obtain ⟨w, hw⟩ := h3 s hs
      exact ⟨w, evaluates_iff.2 hw⟩
  · rintro ⟨pre, t, post, h1, h2, h3⟩
    have h2' : ∀ s ∈ pre, ∃ w, evalTree (meaning ev values.get?) s = .ok w := by
      intro s hs
      obtain ⟨w, hw⟩ := h2 s hs
      exact ⟨w, evaluates_iff.1 hw⟩
    have h4 := (hsub pre t post h1 h2').2 h3
    obtain ⟨vs, hvs⟩ := mapM_ok_of_forall _ pre h2'
    rw [h1, List.mapM_append, hvs, List.mapM_cons, h4]
    rfl

/-- `f(g(x), y)` with an unknown `g` and failing symbols: the atom is reported, not `g`. -/
example : (((Evaluator.new.addAtom tySymbol (fun _ => .error .valueError)) :
    Evaluator PyM String Nat).call fgxy) = .error .valueError ∧
    (((Evaluator.new.addAtom tySymbol (fun _ => .ok 1)) :
    Evaluator PyM String Nat).call fgxy) = .error .noEvaluationRule := by decide +kernel

/-! ### C47 -/

theorem subst_absent (σ : Tree V → Option (Tree V)) (e : Tree V)
    (h : ∀ t, OccursIn t e → σ t = none) : subst σ e = e := by
  induction e using Tree.induction with
  | h e ih =>
    cases e with
    | atom a => exact subst_none_atom (h _ (occursIn_self _))
    | node cs =>
      rw [subst_none_node (h _ (occursIn_self _))]
      congr 1
      have : cs.map (subst σ) = cs.map id :=
        List.map_congr_left (fun c hc => ih c hc (fun t ht => h t (occursIn_child hc ht)))
      simpa using this

theorem evalTree_subst [HasNone T] (ev : Evaluator PyM V T) (σ : Tree V → Option (Tree V))
    (vals vals' : Tree V → Option T)
    (hother : ∀ t, σ t = none → vals' t = vals t) (e : Tree V)
    (hkeys : ∀ k, σ k ≠ none → k.children = [] ∧
      ∀ h args, ArgSub e (.node (h :: args)) → ¬ OccursIn k h)
    (hval : ∀ k u, ArgSub e k → σ k = some u → ∃ w, evalTree (meaning ev vals) u = .ok w ∧
      HasNone.isNone w = false ∧ vals' k = some w) :
    evalTree (meaning ev vals) (subst σ e) = evalTree (meaning ev vals') e := by
  have hleaf : ∀ t, isLeaf t = true → (∀ u, σ t = some u → ∃ w,
      evalTree (meaning ev vals) u = .ok w ∧ HasNone.isNone w = false ∧ vals' t = some w) →
      evalTree (meaning ev vals) (subst σ t) = evalTree (meaning ev vals') t := by
    intro t hl hv
    cases hs : σ t with
    | some u =>
      obtain ⟨w, h1, h2, h3⟩ := hv u hs
      rw [subst_some hs, h1, evalTree_leaf _ hl]
      simp [meaning, h3, h2]
    | none =>
      have hsub : subst σ t = t := by
        cases t with
        | atom a => exact subst_none_atom hs
        | node cs =>
          cases cs with
          | nil => rw [subst_none_node hs]; rfl
          | cons c cs => cases hl
      rw [hsub, evalTree_leaf _ hl, evalTree_leaf _ hl]
      simp only [meaning, hother t hs]
  induction e using Tree.induction with
  | h e ih =>
    cases hl : isLeaf e with
    | true => exact hleaf e hl (fun u hu => hval e u (Reach.refl (by simp)) hu)
    | false =>
      cases e with
      | atom a => cases hl
      | node cs =>
        cases cs with
        | nil => cases hl
        | cons hd args =>
          have hnone : σ (.node (hd :: args)) = none := by
            cases hs : σ (.node (hd :: args)) with
            | none => rfl
            | some u => have := (hkeys _ (by rw [hs]; simp)).1; cases this
          rw [subst_none_node hnone]
          have hhd : subst σ hd = hd := by
            apply subst_absent
            intro t ht
            cases hs : σ t with
            | none => rfl
            | some u =>
              exact absurd ht ((hkeys t (by rw [hs]; simp)).2 hd args (Reach.refl (by simp)))
          rw [List.map_cons, hhd]
          simp only [evalTree, evalTrees_eq]
          have hm : ∀ as : List (Tree V), (∀ c ∈ as, c ∈ args) →
              (as.map (subst σ)).mapM (evalTree (meaning ev vals)) =
                as.mapM (evalTree (meaning ev vals')) := by
            intro as
            induction as with
            | nil => intro _; rfl
            | cons c cs ihc =>
              intro hsub
              have hc := hsub c (by simp)
              have hd' : ∀ {t}, ArgSub c t → ArgSub (.node (hd :: args)) t := fun h =>
                Reach.down (by simp) (by simpa [kids] using hc) h
              rw [List.map_cons, List.mapM_cons, List.mapM_cons,
                ih c (by simp [Tree.children, hc])
                  (fun k hk => ⟨(hkeys k hk).1, fun h' as' h2 => (hkeys k hk).2 h' as' (hd' h2)⟩)
                  (fun k u h1 h2 => hval k u (hd' h1) h2),
                ihc (fun d hd => hsub d (by simp [hd]))]
          rw [hm args (fun _ h => h)]
          rfl

/-- **C47, the substitution lemma.**  `he` is the proviso of C13: the whole expression is not
itself replaced, or is the only key.
Let `r` be `e.xreplace(reps)` where `reps` replaces atoms in argument position.  Evaluating `r`
with `values` returns `v` exactly when evaluating `e` does with the values in which every
replaced atom that occurs has the value of its replacement. -/
theorem C47_substitution [HasNone T] (ev : Evaluator PyM Val T) (e r : Expr)
    (reps : Dict PyObj PyObj) (hr : xreplace e reps = .ok r)
    (he : repsMap reps e = none ∨ reps.items.length = 1)
    (hkeys : ReplacesArguments reps e) (values values' : Dict Expr T)
    (hval : ∀ k u, ArgSub e k → repsMap reps k = some u →
      ∃ w, ev.call u (some values) = .ok w ∧ HasNone.isNone w = false ∧ values'.get? k = some w)
    (hother : ∀ t, repsMap reps t = none → values'.get? t = values.get? t) (v : T) :
    ev.call r (some values) = .ok v ↔ ev.call e (some values') = .ok v := by
  have hg : GoodReps reps := by
    apply Classical.byContradiction
    intro hn
    rw [(C13_xreplace_exact e reps).1 hn] at hr
    cases hr
  rw [C13_xreplace_subst_partial e reps hg he] at hr
  obtain rfl := Except.ok.inj hr
  show ev.evalForward _ values = _ ↔ ev.evalForward _ values' = _
  rw [evalForward_ok_iff, evalForward_ok_iff,
    evalTree_subst ev (repsMap reps) values.get? values'.get? hother e hkeys]
  intro k u h1 h2
  obtain ⟨w, h3, h4, h5⟩ := hval k u h1 h2
  exact ⟨w, (evalForward_ok_iff ev u values w).1 h3, h4, h5⟩

/-- Integers are themselves, `Add` adds. -/
def intEv : Evaluator PyM Val Int :=
  (Evaluator.new.addAtom Ty.integer (fun v => match v with
    | .int n => .ok n
    | .str _ => .error .typeError)).addOpN Expr.addH (fun vs => .ok vs.sum)

/-- `(x + y).xreplace({x: y + 2})` at `y = 3` is `x + y` at `x = 5, y = 3`. -/
example :
    let reps : Dict PyObj PyObj :=
      Dict.ofPairs [(.expr Expr.x, .expr (Expr.add Expr.y (Expr.integer 2)))]
    let e := Expr.add Expr.x Expr.y
    repsMap reps e = none ∧ ReplacesArguments reps e ∧
    (∀ k u, ArgSub e k → repsMap reps k = some u →
      ∃ w, intEv.call u (some (Dict.ofPairs [(Expr.y, 3)])) = .ok w ∧
        HasNone.isNone w = false ∧
        (Dict.ofPairs [(Expr.y, 3), (Expr.x, 5)] : Dict Expr Int).get? k = some w) ∧
    (∀ t, repsMap reps t = none →
      (Dict.ofPairs [(Expr.y, 3), (Expr.x, 5)] : Dict Expr Int).get? t =
        (Dict.ofPairs [(Expr.y, 3)] : Dict Expr Int).get? t) ∧
    intEv.call e (some (Dict.ofPairs [(Expr.y, 3), (Expr.x, 5)])) = .ok 8 := by
  intro reps e
  have hm : ∀ t, repsMap reps t =
      if Expr.x = t then some (Expr.add Expr.y (Expr.integer 2)) else none := by
    intro t
    simp [reps, repsMap, Dict.ofPairs, Dict.update, Dict.set, Dict.empty, Dict.assign, expressify,
      lastAssoc]
  refine ⟨by rw [hm]; decide, ?_, ?_, ?_, by decide +kernel⟩
  · intro k hk
    rw [hm] at hk
    split at hk
    · rename_i h
      subst h
      refine ⟨rfl, ?_⟩
      intro h args hsub ho
      have : Expr.addH = h := by
        change ArgSub (.node [Expr.addH, Expr.x, Expr.y]) _ at hsub
        cases hsub with
        | refl => rfl
        | down _ hc hr =>
          simp only [kids, Bool.false_eq_true, if_false, List.mem_cons, List.not_mem_nil,
            or_false] at hc
          rcases hc with rfl | rfl <;> cases hr with
          | down _ hc _ => cases hc
      subst this
      generalize hx : Expr.x = t at ho
      cases ho with
      | refl => exact absurd hx (by decide)
      | down _ hc _ => cases hc
    · exact absurd rfl hk
  · intro k u _ hk
    rw [hm] at hk
    split at hk
    · rename_i h
      subst h
      cases hk
      exact ⟨5, by decide +kernel, rfl, by decide +kernel⟩
    · cases hk
  · intro t ht
    rw [hm] at ht
    split at ht
    · cases ht
    · rename_i h
      rw [Dict.get?_ofPairs, Dict.get?_ofPairs]
      simp [lastAssoc, h]

theorem subst_comp (σ τ ρ : Expr → Option Expr) (e : Expr)
    (hτ : ∀ cs, τ (.node cs) = none) (hρ : ∀ t, ρ t = andThen σ τ t) :
    subst τ (subst σ e) = subst ρ e := by
  induction e using Tree.induction with
  | h e ih =>
    have he := hρ e
    unfold andThen at he
    cases hs : σ e with
    | some u => rw [hs] at he; rw [subst_some hs, subst_some he]
    | none =>
      rw [hs] at he
      cases e with
      | atom a =>
        rw [subst_none_atom hs]
        cases ht : τ (.atom a) with
        | some u => rw [ht] at he; rw [subst_some ht, subst_some he]
        | none => rw [ht] at he; rw [subst_none_atom ht, subst_none_atom he]
      | node cs =>
        rw [hτ] at he
        rw [subst_none_node hs, subst_none_node (hτ _), subst_none_node he]
        congr 1
        rw [List.map_map]
        exact List.map_congr_left (fun c hc => ih c hc)

/-- **C13, composition.**  For a compound expression `e` that is not itself a key,
`e.xreplace(reps1).xreplace(reps2)` is `e.xreplace(reps12)`, if `reps2` replaces atoms only and
`reps12` is the composition: what `reps1` replaces it replaces by the value of `reps1` with
`reps2` performed in it, and everything else as `reps2` does. -/
theorem C13_xreplace_compose (e : Expr) (reps1 reps2 reps12 : Dict PyObj PyObj)
    (h1 : GoodReps reps1) (h2 : GoodReps reps2) (h3 : GoodReps reps12)
    (hcomp : e.children ≠ []) (hkey : repsMap reps1 e = none)
    (hatoms : ∀ k, repsMap reps2 k ≠ none → ∃ a, k = .atom a)
    (h12 : ∀ t, repsMap reps12 t = andThen (repsMap reps1) (repsMap reps2) t) :
    ∃ r, xreplace e reps1 = .ok r ∧ xreplace r reps2 = xreplace e reps12 := by
  have hnode : ∀ cs, repsMap reps2 (.node cs) = none := by
    intro cs
    cases h : repsMap reps2 (.node cs) with
    | none => rfl
    | some u => obtain ⟨a, ha⟩ := hatoms _ (by rw [h]; simp); cases ha
  obtain ⟨cs, rfl⟩ : ∃ cs, e = .node cs := by
    cases e with
    | atom a => exact absurd rfl hcomp
    | node cs => exact ⟨cs, rfl⟩
  refine ⟨_, C13_xreplace_subst_partial _ reps1 h1 (Or.inl hkey), ?_⟩
  have hk12 : repsMap reps12 (.node cs) = none := by rw [h12, andThen, hkey]; exact hnode cs
  rw [C13_xreplace_subst_partial _ reps12 h3 (Or.inl hk12)]
  rw [C13_xreplace_subst_partial _ reps2 h2 (Or.inl (by
    rw [subst_none_node hkey]; exact hnode _))]
  rw [subst_comp _ _ _ _ hnode h12]

/-- **C13, independent replacements commute.**  If two dicts replace atoms, no atom is replaced by
both, and neither replaces anything in the values of the other, they can be applied to a compound
expression in either order. -/
theorem C13_xreplace_commute (e : Expr) (reps1 reps2 : Dict PyObj PyObj)
    (h1 : GoodReps reps1) (h2 : GoodReps reps2) (hcomp : e.children ≠ [])
    (hatoms1 : ∀ k, repsMap reps1 k ≠ none → ∃ a, k = .atom a)
    (hatoms2 : ∀ k, repsMap reps2 k ≠ none → ∃ a, k = .atom a)
    (hdis : ∀ k, repsMap reps1 k ≠ none → repsMap reps2 k = none)
    (hval1 : ∀ k u, repsMap reps1 k = some u → ∀ t, OccursIn t u → repsMap reps2 t = none)
    (hval2 : ∀ k u, repsMap reps2 k = some u → ∀ t, OccursIn t u → repsMap reps1 t = none) :
    ((xreplace e reps1).bind fun r => xreplace r reps2) =
      ((xreplace e reps2).bind fun r => xreplace r reps1) := by
  obtain ⟨cs, rfl⟩ : ∃ cs, e = .node cs := by
    cases e with
    | atom a => exact absurd rfl hcomp
    | node cs => exact ⟨cs, rfl⟩
  have hn1 : ∀ cs, repsMap reps1 (.node cs) = none := by
    intro cs
    cases h : repsMap reps1 (.node cs) with
    | none => rfl
    | some u => obtain ⟨a, ha⟩ := hatoms1 _ (by rw [h]; simp); cases ha
  have hn2 : ∀ cs, repsMap reps2 (.node cs) = none := by
    intro cs
    cases h : repsMap reps2 (.node cs) with
    | none => rfl
    | some u => obtain ⟨a, ha⟩ := hatoms2 _ (by rw [h]; simp); cases ha
  rw [C13_xreplace_subst_partial _ reps1 h1 (Or.inl (hn1 _)),
    C13_xreplace_subst_partial _ reps2 h2 (Or.inl (hn2 _))]
  show xreplace _ reps2 = xreplace _ reps1
  rw [C13_xreplace_subst_partial _ reps2 h2 (Or.inl (by rw [subst_none_node (hn1 _)]; exact hn2 _)),
    C13_xreplace_subst_partial _ reps1 h1 (Or.inl (by rw [subst_none_node (hn2 _)]; exact hn1 _))]
  congr 1
  have e1 : ∀ t, (fun t => match repsMap reps1 t with
      | some u => some u
      | none => repsMap reps2 t) t = andThen (repsMap reps1) (repsMap reps2) t := by
    intro t
    unfold andThen
    simp only
    cases h : repsMap reps1 t with
    | none => rfl
    | some u => simp only; rw [subst_absent _ u (hval1 t u h)]
  have e2 : ∀ t, (fun t => match repsMap reps1 t with
      | some u => some u
      | none => repsMap reps2 t) t = andThen (repsMap reps2) (repsMap reps1) t := by
    intro t
    unfold andThen
    simp only
    cases h : repsMap reps1 t with
    | none =>
      cases h' : repsMap reps2 t with
      | none => rfl
      | some u => simp only; rw [subst_absent _ u (hval2 t u h')]
    | some u => rw [hdis t (by rw [h]; simp)]
  rw [subst_comp _ _ _ _ hn2 e1, subst_comp _ _ _ _ hn1 e2]

/-- The hypotheses hold of `sin(x + y)`, `{x: y*y}` and `{y: 2}`, whose composition is
`{x: 2*2, y: 2}`; and `{x: 1}` and `{y: 2}` commute. -/
example :
    let r1 : Dict PyObj PyObj := Dict.ofPairs [(.expr Expr.x, .expr (Expr.mul Expr.y Expr.y))]
    let r2 : Dict PyObj PyObj := Dict.ofPairs [(.expr Expr.y, .int 2)]
    let r12 : Dict PyObj PyObj := Dict.ofPairs
      [(.expr Expr.x, .expr (Expr.mul (Expr.integer 2) (Expr.integer 2))), (.expr Expr.y, .int 2)]
    let e := Expr.sin (Expr.add Expr.x Expr.y)
    (GoodReps r1 ∧ GoodReps r2 ∧ GoodReps r12 ∧ e.children ≠ [] ∧ repsMap r1 e = none) ∧
    (∀ t, repsMap r12 t = andThen (repsMap r1) (repsMap r2) t) ∧
    (∀ k, repsMap r2 k ≠ none → ∃ a, k = .atom a) ∧
    xreplace e r12 = .ok (Expr.sin (Expr.add (Expr.mul (Expr.integer 2) (Expr.integer 2))
      (Expr.integer 2))) := by
  intro r1 r2 r12 e
  have m1 : ∀ t, repsMap r1 t = if Expr.x = t then some (Expr.mul Expr.y Expr.y) else none := by
    intro t
    simp [r1, repsMap, Dict.ofPairs, Dict.update, Dict.set, Dict.empty, Dict.assign, expressify, lastAssoc]
  have m2 : ∀ t, repsMap r2 t = if Expr.y = t then some (Expr.integer 2) else none := by
    intro t
    simp [r2, repsMap, Dict.ofPairs, Dict.update, Dict.set, Dict.empty, Dict.assign, expressify, lastAssoc]
  refine ⟨⟨?_, ?_, ?_, by decide, by rw [m1]; decide⟩, ?_, ?_, by decide +kernel⟩
  · intro p hp
    have : p = (.expr Expr.x, .expr (Expr.mul Expr.y Expr.y)) := by
      simpa [r1, Dict.ofPairs, Dict.update, Dict.set, Dict.empty, Dict.assign] using hp
    subst this; exact ⟨_, _, rfl, rfl⟩
  · intro p hp
    have : p = (.expr Expr.y, .int 2) := by
      simpa [r2, Dict.ofPairs, Dict.update, Dict.set, Dict.empty, Dict.assign] using hp
    subst this; exact ⟨_, _, rfl, rfl⟩
  · have hi : r12.items = [(.expr Expr.x, .expr (Expr.mul (Expr.integer 2) (Expr.integer 2))),
        (.expr Expr.y, .int 2)] := by decide
    intro p hp
    rw [hi] at hp
    simp only [List.mem_cons, List.not_mem_nil, or_false] at hp
    rcases hp with rfl | rfl <;> exact ⟨_, _, rfl, rfl⟩
  · intro t
    have hi : r12.items = [(.expr Expr.x, .expr (Expr.mul (Expr.integer 2) (Expr.integer 2))),
        (.expr Expr.y, .int 2)] := by decide
    have hs : subst (repsMap r2) (Expr.mul Expr.y Expr.y) =
        Expr.mul (Expr.integer 2) (Expr.integer 2) := by decide +kernel
    have m12 : repsMap r12 t = if Expr.y = t then some (Expr.integer 2) else
        if Expr.x = t then some (Expr.mul (Expr.integer 2) (Expr.integer 2)) else none := by
      unfold repsMap
      rw [hi]
      by_cases hx : Expr.x = t <;> by_cases hy : Expr.y = t <;>
        simp [expressify, lastAssoc, hx, hy]
    rw [m12, andThen, m1, m2]
    by_cases hx : Expr.x = t
    · subst hx
      have hyx : ¬ Expr.y = Expr.x := by decide
      simp [hyx, hs]
    · by_cases hy : Expr.y = t
      · simp [hx, hy]
      · simp [hx, hy]
  · intro k hk
    rw [m2] at hk
    by_cases hy : Expr.y = k
    · exact ⟨_, hy.symm⟩
    · rw [if_neg hy] at hk; exact absurd rfl hk

end Verif.Props
