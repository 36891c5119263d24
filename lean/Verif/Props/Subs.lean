import Verif.Lemmas.Subs
import Verif.Lemmas.Eval
import Verif.Model.Expr
import Verif.Props.Samples
import Verif.Spec.Replace

/-!
# C11–C13: substitution
-/

set_option linter.unusedSectionVars false

namespace Verif.Props
open Spec Samples
variable {V : Type} [DecidableEq V]

/-- **C11** (partial). `SubsFunc(e, params)(*values)` is the simultaneous substitution of
`Spec.subst`, provided `e` itself is not a parameter, or is the last one.  The full statement
(without that proviso) is refuted by `C11_whole_expression_false`. -/
theorem C11_subs_simultaneous_partial (e : Tree V) (params : List (Tree V))
    (h : e ∉ params ∨ params.getLast? = some e) :
    ∃ f, SubsFunc.new e params = .ok f ∧
      ∀ values : List (Tree V), values.length = params.length →
        f.call values = .ok (subst (pairing params values) e) := by
  by_cases he : e ∈ params
  · obtain ⟨f, h1, _, h3⟩ := subsFunc_param e params he
    refine ⟨f, h1, ?_⟩
    intro values hlen
    rw [h3 values hlen]
    have hlast : params.getLast? = some e := by
      rcases h with h | h
      · exact absurd he h
      · exact h
    obtain ⟨ps, rfl⟩ : ∃ ps, params = ps ++ [e] := by
      rw [List.getLast?_eq_some_iff] at hlast; exact hlast
    have hv : values ≠ [] := by intro h0; rw [h0] at hlen; simp at hlen
    obtain ⟨vs, w, rfl⟩ : ∃ vs w, values = vs ++ [w] :=
      ⟨_, _, (List.dropLast_concat_getLast hv).symm⟩
    have hl : ps.length = vs.length := by simpa using hlen.symm
    have hp : pairing (ps ++ [e]) (vs ++ [w]) e = some w := by
      unfold pairing
      rw [List.zip_append hl]
      clear h1 h3 hlast hlen hv h he
      induction ps.zip vs with
      | nil => simp [lastAssoc]
      | cons p l ih =>
        obtain ⟨a, b⟩ := p
        simp only [List.cons_append, lastAssoc, ih]
    rw [subst_some hp]
    simp [pyLast]
  · obtain ⟨f, h1, _, h3⟩ := subsFunc_main e params he
    exact ⟨f, h1, h3⟩

/-- Overlapping compound and atomic parameters, a parameter in head position, a repeated
parameter: `f(g(x), x)(g(x), y)`. -/
example :
    ((SubsFunc.new fgxygx [gx, x]).bind fun s => s.call [z, gx]) = .ok (f.call [z, y, z]) ∧
    ((SubsFunc.new (f.call [gx, x]) [gx, x]).bind fun s => s.call [z, gx]) = .ok (f.call [z, gx]) ∧
    ((SubsFunc.new fx_y [f, y, y]).bind fun s => s.call [g, x, z]) = .ok ((g.call [x]).call [z]) := by
  decide +kernel

/-- **C11, what happens instead.** When `e` is one of the parameters, the *last* value is
returned, whatever the value paired with `e` is. -/
theorem C11_whole_expression (e : Tree V) (params : List (Tree V)) (he : e ∈ params) :
    ∃ f, SubsFunc.new e params = .ok f ∧
      ∀ values : List (Tree V), values.length = params.length →
        f.call values = pyLast values := by
  obtain ⟨f, h1, _, h3⟩ := subsFunc_param e params he
  exact ⟨f, h1, h3⟩

/-- **C11, refutation** of the unrestricted statement: `SubsFunc(x, [x, y])(y, z)` should be
`y` and is `z`. -/
theorem C11_whole_expression_false :
    ¬ ∀ (e : Tree String) (params values : List (Tree String)),
      values.length = params.length →
      ((SubsFunc.new e params).bind fun s => s.call values) =
        .ok (subst (pairing params values) e) := by
  intro h
  have := h x [x, y] [y, z] rfl
  revert this
  decide +kernel

/-- **C12.** Building a `SubsFunc` never raises; a call with the wrong number of values
raises `TypeError`; a call with the right number never raises.  (A `SubsFunc` is immutable in
the model: calls cannot influence each other.) -/
theorem C12_subs_total (e : Tree V) (params : List (Tree V)) :
    ∃ f, SubsFunc.new e params = .ok f ∧
      (∀ values, values.length ≠ params.length → f.call values = .error .typeError) ∧
      (∀ values, values.length = params.length → ∃ r, f.call values = .ok r) := by
  have hbad : ∀ f : SubsFunc V, f.nargs = params.length → ∀ values : List (Tree V),
      values.length ≠ params.length → f.call values = .error .typeError := by
    intro f hf values hne
    unfold SubsFunc.call
    rw [hf]
    simp [hne, bind, Except.bind, throw, throwThe, MonadExceptOf.throw]
  by_cases he : e ∈ params
  · obtain ⟨f, h1, h2, h3⟩ := subsFunc_param e params he
    refine ⟨f, h1, hbad f h2, ?_⟩
    intro values hlen
    rw [h3 values hlen]
    have hv : values ≠ [] := by
      intro h0; rw [h0] at hlen
      rw [List.eq_nil_of_length_eq_zero hlen.symm] at he; cases he
    exact ⟨values.getLast hv, by simp [pyLast, List.getLast?_eq_some_getLast hv]⟩
  · obtain ⟨f, h1, h2, h3⟩ := subsFunc_main e params he
    exact ⟨f, h1, hbad f h2, fun values hlen => ⟨_, h3 values hlen⟩⟩

example : ((SubsFunc.new fgxy [x]).bind fun s => s.call []) = .error .typeError ∧
    ((SubsFunc.new fgxy []).bind fun s => s.call []) = .ok fgxy := by decide +kernel

/-! ### C13: laws of `xreplace` -/

theorem occursIn_child {t e c : Tree V} (hc : c ∈ e.children) (h : OccursIn t c) : OccursIn t e :=
  Reach.down (by simp) (by rw [kids_true_eq]; exact hc) h

theorem occursIn_self (e : Tree V) : OccursIn e e := Reach.refl (by simp)

theorem mapM_expressify_items (items : List (PyObj × PyObj))
    (h : ∀ p ∈ items, ∃ k v, expressify p.1 = .ok k ∧ expressify p.2 = .ok v) :
    ∃ ks vs : List Expr, (items.map Prod.fst).mapM expressify = .ok ks ∧
      (items.map Prod.snd).mapM expressify = .ok vs ∧ ks.length = vs.length ∧
      (items.filterMap fun p => match expressify p.1, expressify p.2 with
        | .ok k, .ok v => some (k, v)
        | _, _ => none) = ks.zip vs := by
  induction items with
  | nil => exact ⟨[], [], rfl, rfl, rfl, rfl⟩
  | cons p items ih =>
    obtain ⟨ks, vs, h1, h2, h3, h4⟩ := ih (fun q hq => h q (by simp [hq]))
    obtain ⟨k, v, hk, hv⟩ := h p (by simp)
    refine ⟨k :: ks, v :: vs, ?_, ?_, by simp [h3], ?_⟩
    · rw [List.map_cons, List.mapM_cons, hk, h1]; rfl
    · rw [List.map_cons, List.mapM_cons, hv, h2]; rfl
    · rw [List.filterMap_cons]; simp only [hk, hv, h4, List.zip_cons_cons]

/-- **C13, meaning of `xreplace`** (partial, same proviso as C11: the whole expression is
not one of the replaced expressions, unless it is the only key). -/
theorem C13_xreplace_subst_partial (e : Expr) (reps : Dict PyObj PyObj) (hg : GoodReps reps)
    (he : repsMap reps e = none ∨ reps.items.length = 1) :
    xreplace e reps = .ok (subst (repsMap reps) e) := by
  obtain ⟨ks, vs, h1, h2, h3, h4⟩ := mapM_expressify_items reps.items hg
  have hmap : repsMap reps = pairing ks vs := by
    funext t; exact congrArg (lastAssoc t) h4
  have hcond : e ∉ ks ∨ ks.getLast? = some e := by
    by_cases hin : e ∈ ks
    · right
      rcases he with he | he
      · rw [hmap, pairing_isSome h3] at he; exact absurd hin he
      · have hl : ks.length = 1 := by
          have := mapM_length expressify (reps.items.map Prod.fst) ks h1
          rw [List.length_map, he] at this; omega
        match ks, hl, hin with
        | [k], _, hin => simp at hin; subst hin; rfl
    · exact Or.inl hin
  obtain ⟨f, hf1, hf2⟩ := C11_subs_simultaneous_partial e ks hcond
  unfold xreplace asFunction exprFunctionNew exprFunctionCall Dict.keys Dict.vals
  simp only [h1, h2, expressify, bind, Except.bind, hf1]
  rw [hf2 vs h3.symm, hmap]

/-- `cos(x) + x` with `{cos(x): x, x: y}`, from the docstring. -/
example :
    GoodReps (Dict.ofPairs [(.expr (Expr.cos Expr.x), .expr Expr.x), (.expr Expr.x, .expr Expr.y)]) ∧
    xreplace (Expr.add (Expr.cos Expr.x) Expr.x)
      (Dict.ofPairs [(.expr (Expr.cos Expr.x), .expr Expr.x), (.expr Expr.x, .expr Expr.y)])
      = .ok (Expr.add Expr.x Expr.y) := by
  refine ⟨?_, by decide +kernel⟩
  intro p hp
  simp only [Dict.ofPairs, Dict.update, Dict.set, Dict.empty, Dict.assign, List.foldl_cons,
    List.foldl_nil] at hp
  split at hp <;> simp at hp <;> rcases hp with rfl | rfl <;> exact ⟨_, _, rfl, rfl⟩

theorem subst_self (σ : Tree V → Option (Tree V)) (h : ∀ t u, σ t = some u → u = t) (e : Tree V) :
    subst σ e = e := by
  induction e using Tree.induction with
  | h e ih =>
    cases hs : σ e with
    | some u => rw [subst_some hs, h _ _ hs]
    | none =>
      cases e with
      | atom a => exact subst_none_atom hs
      | node cs =>
        rw [subst_none_node hs]
        congr 1
        have : cs.map (subst σ) = cs.map id := List.map_congr_left (fun c hc => ih c hc)
        simpa using this

/-- **C13.** `xreplace({})` is the identity. -/
theorem C13_xreplace_empty (e : Expr) : xreplace e Dict.empty = .ok e := by
  rw [C13_xreplace_subst_partial e Dict.empty (by intro p hp; cases hp) (Or.inl rfl)]
  rw [subst_self _ (by intro t u h; cases h)]

theorem occurs_noArg (params : List (Tree V)) (e : Tree V)
    (h : ∀ t ∈ params, ¬ OccursIn t e) : e ∉ params ∧ hasArgBelow params e = false := by
  refine ⟨fun he => h e he (occursIn_self e), ?_⟩
  induction e using Tree.induction with
  | h e ih =>
    rw [hasArgBelow_eq, List.any_eq_false]
    intro c hc
    have hc' : ∀ t ∈ params, ¬ OccursIn t c := fun t ht ho => h t ht (occursIn_child hc ho)
    simp only [Bool.or_eq_true, decide_eq_true_eq, not_or, Bool.not_eq_true]
    exact ⟨fun hin => hc' c hin (occursIn_self c), ih c hc hc'⟩

/-- **C13.** Replacing expressions that do not occur changes nothing. -/
theorem C13_xreplace_absent (e : Expr) (reps : Dict PyObj PyObj) (hg : GoodReps reps)
    (h : ∀ p ∈ reps.items, ∀ k, expressify p.1 = .ok k → ¬ OccursIn k e) :
    xreplace e reps = .ok e := by
  have hdom : ∀ t, repsMap reps t ≠ none → ∃ p ∈ reps.items, expressify p.1 = .ok t := by
    intro t ht
    obtain ⟨w, hw⟩ := Option.ne_none_iff_exists'.1 ht
    have := lastAssoc_mem hw
    rw [List.mem_filterMap] at this
    obtain ⟨p, hp, hpw⟩ := this
    obtain ⟨k, v, hk, hv⟩ := hg p hp
    rw [hk, hv] at hpw
    cases hpw
    exact ⟨p, hp, hk⟩
  have hnone : ∀ t, OccursIn t e → repsMap reps t = none := by
    intro t ht
    apply Classical.byContradiction
    intro hne
    obtain ⟨p, hp, hk⟩ := hdom t hne
    exact h p hp t hk ht
  rw [C13_xreplace_subst_partial e reps hg (Or.inl (hnone e (occursIn_self e)))]
  congr 1
  clear hg h hdom
  induction e using Tree.induction with
  | h e ih =>
    cases e with
    | atom a => exact subst_none_atom (hnone _ (occursIn_self _))
    | node cs =>
      rw [subst_none_node (hnone _ (occursIn_self _))]
      congr 1
      have : cs.map (subst (repsMap reps)) = cs.map id :=
        List.map_congr_left (fun c hc => ih c hc (fun t ht => hnone t (occursIn_child hc ht)))
      simpa using this

/-- **C13** (partial, same proviso). Replacing expressions by themselves changes nothing. -/
theorem C13_xreplace_self_partial (e : Expr) (reps : Dict PyObj PyObj) (hg : GoodReps reps)
    (h : ∀ p ∈ reps.items, expressify p.1 = expressify p.2)
    (he : repsMap reps e = none ∨ reps.items.length = 1) :
    xreplace e reps = .ok e := by
  rw [C13_xreplace_subst_partial e reps hg he]
  congr 1
  apply subst_self
  intro t u htu
  have := lastAssoc_mem htu
  rw [List.mem_filterMap] at this
  obtain ⟨p, hp, hpw⟩ := this
  obtain ⟨k, v, hk, hv⟩ := hg p hp
  have hkv := h p hp
  rw [hk, hv] at hkv hpw
  cases hkv; cases hpw; rfl

/-- **C13, refutation** of the law without proviso: `x.xreplace({x: x, y: y})` is `y`. -/
theorem C13_xreplace_self_false :
    xreplace Expr.x (Dict.ofPairs [(.expr Expr.x, .expr Expr.x), (.expr Expr.y, .expr Expr.y)])
      = .ok Expr.y ∧ Expr.y ≠ Expr.x := by
  decide +kernel

/-- What occurs in the result of a substitution. -/
theorem occurs_subst (σ : Tree V → Option (Tree V)) (a : Atom V) (e : Tree V)
    (h : OccursIn (.atom a) (subst σ e)) :
    (σ (.atom a) = none ∧ OccursIn (.atom a) e) ∨
    ∃ t u, σ t = some u ∧ OccursIn t e ∧ OccursIn (.atom a) u := by
  induction e using Tree.induction with
  | h e ih =>
    cases hs : σ e with
    | some u =>
      rw [subst_some hs] at h
      exact Or.inr ⟨e, u, hs, occursIn_self e, h⟩
    | none =>
      cases e with
      | atom b =>
        rw [subst_none_atom hs] at h
        cases h with
        | refl => exact Or.inl ⟨hs, occursIn_self _⟩
        | down _ hc _ => cases hc
      | node cs =>
        rw [subst_none_node hs] at h
        cases h with
        | down _ hc hr =>
          rw [kids_true_eq] at hc
          simp only [Tree.children, List.mem_map] at hc
          obtain ⟨c, hc, rfl⟩ := hc
          rcases ih c hc hr with ⟨h1, h2⟩ | ⟨t, u, h1, h2, h3⟩
          · exact Or.inl ⟨h1, occursIn_child hc h2⟩
          · exact Or.inr ⟨t, u, h1, occursIn_child hc h2, h3⟩

/-- **C13** (partial, same proviso). An atom that is replaced, and does not occur in any of
the new values, does not occur in the result. -/
theorem C13_xreplace_eliminates_partial (e : Expr) (reps : Dict PyObj PyObj) (hg : GoodReps reps)
    (he : repsMap reps e = none ∨ reps.items.length = 1)
    (a : Atom Val) (p : PyObj × PyObj) (hp : p ∈ reps.items) (hk : expressify p.1 = .ok (.atom a))
    (hnew : ∀ q ∈ reps.items, ∀ v, expressify q.2 = .ok v → ¬ OccursIn (.atom a) v) :
    ∃ r, xreplace e reps = .ok r ∧ ¬ OccursIn (.atom a) r := by
  refine ⟨_, C13_xreplace_subst_partial e reps hg he, ?_⟩
  intro ho
  rcases occurs_subst _ _ _ ho with ⟨h1, _⟩ | ⟨t, u, h1, _, h3⟩
  · unfold repsMap at h1
    rw [lastAssoc_eq_none_iff] at h1
    apply h1
    obtain ⟨k, v, hk', hv⟩ := hg p hp
    rw [List.mem_map]
    refine ⟨(.atom a, v), ?_, rfl⟩
    rw [List.mem_filterMap]
    exact ⟨p, hp, by simp only [hk, hv]⟩
  · have := lastAssoc_mem h1
    rw [List.mem_filterMap] at this
    obtain ⟨q, hq, hqw⟩ := this
    obtain ⟨k, v, hk', hv⟩ := hg q hq
    rw [hk', hv] at hqw
    cases hqw
    exact hnew q hq u hv h3

/-- Composition of substitutions when the second one only replaces atoms that are not in the
original expression. -/
theorem subst_subst (σ τ : Tree V → Option (Tree V)) (e : Tree V)
    (hatom : ∀ cs, τ (.node cs) = none) (hfresh : ∀ a, OccursIn (.atom a) e → τ (.atom a) = none) :
    subst τ (subst σ e) = subst (fun t => (σ t).map (subst τ)) e := by
  induction e using Tree.induction with
  | h e ih =>
    cases hs : σ e with
    | some u =>
      have hs' : (fun t => (σ t).map (subst τ)) e = some (subst τ u) := by simp [hs]
      rw [subst_some hs]
      exact (subst_some (σ := fun t => (σ t).map (subst τ)) hs').symm
    | none =>
      have hs' : (fun t => (σ t).map (subst τ)) e = none := by simp [hs]
      cases e with
      | atom a =>
        rw [subst_none_atom hs, subst_none_atom (hfresh a (occursIn_self _)), subst_none_atom hs']
      | node cs =>
        rw [subst_none_node hs, subst_none_node (hatom _), subst_none_node hs']
        congr 1
        rw [List.map_map]
        apply List.map_congr_left
        intro c hc
        exact ih c hc (fun a ha => hfresh a (occursIn_child hc ha))

/-- **C13, renaming.** Replacing the expression `k` by a symbol (any atom) that does not
occur in `e`, and then that symbol by `k`, gives `e` back. -/
theorem C13_rename_roundtrip (e k : Expr) (u : Atom Val) (hu : ¬ OccursIn (.atom u) e) :
    ((xreplace e (Dict.ofPairs [(.expr k, .expr (.atom u))])).bind fun r =>
      xreplace r (Dict.ofPairs [(.expr (.atom u), .expr k)])) = .ok e := by
  have hgood : ∀ a b : Expr, GoodReps (Dict.ofPairs [(.expr a, .expr b)]) := by
    intro a b p hp
    simp only [Dict.ofPairs, Dict.update, Dict.set, Dict.empty, Dict.assign, List.foldl_cons,
      List.foldl_nil, List.mem_singleton] at hp
    subst hp
    exact ⟨a, b, rfl, rfl⟩
  have hm : ∀ a b t : Expr, repsMap (Dict.ofPairs [(.expr a, .expr b)]) t =
      if a = t then some b else none := by
    intro a b t
    simp [repsMap, Dict.ofPairs, Dict.update, Dict.set, Dict.empty, Dict.assign, expressify, lastAssoc]
  rw [C13_xreplace_subst_partial e _ (hgood _ _) (Or.inr rfl)]
  simp only [Except.bind]
  rw [C13_xreplace_subst_partial _ _ (hgood _ _) (Or.inr rfl)]
  rw [subst_subst]
  · congr 1
    apply subst_self
    intro t w h
    rw [hm] at h
    by_cases hk : k = t
    · rw [if_pos hk] at h
      simp only [Option.map_some, Option.some.injEq] at h
      rw [← h, subst_some (u := k) (by rw [hm]; simp), hk]
    · rw [if_neg hk] at h; cases h
  · intro cs; rw [hm]; simp
  · intro a ha
    rw [hm]
    split
    · rename_i heq; rw [heq] at hu; exact absurd ha hu
    · rfl

example : ¬ OccursIn (Expr.symbol "t") (Expr.add (Expr.cos Expr.x) Expr.x) ∧
    xreplace (Expr.add (Expr.cos Expr.x) Expr.x)
      (Dict.ofPairs [(.expr (Expr.cos Expr.x), .expr (Expr.symbol "t"))]) =
      .ok (Expr.add (Expr.symbol "t") Expr.x) := by
  refine ⟨?_, by decide +kernel⟩
  unfold OccursIn
  have := mem_topologicalSort true [] (Expr.add (Expr.cos Expr.x) Expr.x) (Expr.symbol "t")
  simp only [List.not_mem_nil] at this
  rw [← this]
  decide +kernel

end Verif.Props
