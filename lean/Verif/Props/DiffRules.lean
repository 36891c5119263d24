import Verif.Props.Diff
import Verif.Lemmas.Rename

/-!
# C24, C25, C27, C28: rules, failures, repetition and distribution
-/

set_option linter.unusedSectionVars false

namespace Verif.Props
open Spec Expr

/-! ### C24 -/

theorem rule_call {p : DiffProps Val} (hp : DiffHistory p) {k : Expr × Nat} {rule : SubsFunc Val}
    (hr : p.diffRules.get? k = some rule) (args : List Expr) :
    (args.length = rule.nargs → ∃ r, rule.call args = .ok r) ∧
    (args.length ≠ rule.nargs → rule.call args = .error .typeError) := by
  obtain ⟨rhs, params, hf⟩ := hp.rules k rule hr
  have hn : rule.nargs = params.length := by
    by_cases he : rhs ∈ params
    · obtain ⟨f, h1, h2, _⟩ := subsFunc_param rhs params he
      rw [hf] at h1; cases h1; exact h2
    · obtain ⟨f, h1, h2, _⟩ := subsFunc_main rhs params he
      rw [hf] at h1; cases h1; exact h2
  obtain ⟨f, h1, h2, h3⟩ := C12_subs_total rhs params
  rw [hf] at h1; cases h1
  rw [hn]
  exact ⟨h3 args, h2 args⟩

theorem chainTerm_cases {p : DiffProps Val} (hp : DiffHistory p) (h : Expr) (args : List Expr)
    (q : Expr × Nat) :
    ((∃ r, chainTerm p h args q = .ok r) ∧ HasRule p h args.length q.2) ∨
    (chainTerm p h args q = .error .keyError ∧ p.diffRules.get? (h, q.2) = none) ∨
    (chainTerm p h args q = .error .typeError ∧
      ∃ rule, p.diffRules.get? (h, q.2) = some rule ∧ rule.nargs ≠ args.length) := by
  unfold chainTerm
  cases hg : p.diffRules.get? (h, q.2) with
  | none => exact Or.inr (Or.inl ⟨rfl, rfl⟩)
  | some rule =>
    obtain ⟨h1, h2⟩ := rule_call hp hg args
    by_cases hl : args.length = rule.nargs
    · obtain ⟨r, hr⟩ := h1 hl
      left
      simp only [hr]
      exact ⟨⟨_, rfl⟩, rule, hg, hl.symm⟩
    · right; right
      simp only [h2 hl]
      exact ⟨trivial, rule, rfl, fun h => hl h.symm⟩

theorem deriv_total {p : DiffProps Val} (hp : DiffHistory p) (x e : Expr)
    (h : ∀ hd args i, NeedsRule p x e hd args i → HasRule p hd args.length i) :
    ∃ d, deriv p x e = .ok d := by
  induction e using Tree.induction with
  | _ e ih =>
  cases hl : isLeaf e with
  | true => exact ⟨_, deriv_leaf p x hl⟩
  | false =>
    cases e with
    | atom a => cases hl
    | node cs =>
      cases cs with
      | nil => cases hl
      | cons hd args =>
        obtain ⟨ds, hds⟩ := mapM_ok_of_forall (deriv p x) args (fun c hc =>
          ih c (by simp [Tree.children, hc]) (fun h' as i hn => h h' as i
            ⟨Reach.down (by simp) (by simpa [kids] using hc) hn.1, hn.2⟩))
        rw [deriv_node, hds]
        show ∃ d, derivStep p hd args ds = .ok d
        unfold derivStep
        split
        · exact ⟨_, rfl⟩
        · rename_i hdist
          split
          · exact ⟨_, rfl⟩
          · rename_i hadd
            split
            · exact ⟨_, rfl⟩
            · rename_i hmul
              obtain ⟨ts, hts⟩ := mapM_ok_of_forall (chainTerm p hd args) (varying p ds)
                (fun q hq => by
                  obtain ⟨d, i⟩ := q
                  obtain ⟨h1, h2⟩ := mem_varying.1 hq
                  have hlen := mapM_length _ _ _ hds
                  have hi : i < args.length := by
                    have := (List.getElem?_eq_some_iff.1 h1).1
                    omega
                  obtain ⟨b, hb1, hb2⟩ := mapM_getElem? _ _ _ hds i args[i]
                    (List.getElem?_eq_getElem hi)
                  rw [h1] at hb1; cases hb1
                  have hr := h hd args i ⟨Reach.refl (by simp), hdist, hadd, hmul, args[i], d,
                    List.getElem?_eq_getElem hi, (diff_ok_iff _ _ _ _).2 hb2, h2⟩
                  rcases chainTerm_cases hp hd args (d, i) with ⟨h3, _⟩ | ⟨_, h3⟩ | ⟨_, rule, h3, h4⟩
                  · exact h3
                  · obtain ⟨rule, hr1, _⟩ := hr; rw [h3] at hr1; cases hr1
                  · obtain ⟨rule', hr1, hr2⟩ := hr
                    rw [h3] at hr1; cases hr1; exact absurd hr2 h4)
              rw [hts]
              exact ⟨_, rfl⟩

theorem diff_error_cause {p : DiffProps Val} (hp : DiffHistory p) (x e : Expr) (err : PyErr)
    (h : e.diff x 1 p = .error err) :
    ∃ hd args i, NeedsRule p x e hd args i ∧
      ((err = .keyError ∧ p.diffRules.get? (hd, i) = none) ∨
       (err = .typeError ∧ ∃ rule, p.diffRules.get? (hd, i) = some rule ∧
          rule.nargs ≠ args.length)) := by
  rw [diff_one, diffForward_py] at h
  have h' : ((graphOrder e).mapM (evalTree (pairMeaning p x)) >>= pyLast) = .error err := by
    cases hg : ((graphOrder e).mapM (evalTree (pairMeaning p x)) >>= pyLast) with
    | ok q => rw [hg] at h; cases h
    | error err' => rw [hg] at h; cases h; rfl
  obtain ⟨t, hs, ⟨_, h2⟩ | ⟨h1, vs, h2, h3⟩⟩ := graph_error _ e err h'
  · cases h2
  · cases t with
    | atom a => cases h1
    | node cs =>
      cases cs with
      | nil => cases h1
      | cons hd args =>
        have h2 : args.mapM (evalTree (pairMeaning p x)) = .ok vs := h2
        have hpair : ∀ (as : List Expr) (ws : List (Expr × Expr)),
            as.mapM (evalTree (pairMeaning p x)) = .ok ws →
            ws.map Prod.fst = as ∧ as.mapM (deriv p x) = .ok (ws.map Prod.snd) := by
          intro as
          induction as with
          | nil => intro ws h; cases h; exact ⟨rfl, rfl⟩
          | cons c cs ihc =>
            intro ws h
            rw [List.mapM_cons, evalTree_pair] at h
            cases hc : deriv p x c with
            | error err => rw [hc] at h; cases h
            | ok d =>
              rw [hc] at h
              cases hm : cs.mapM (evalTree (pairMeaning p x)) with
              | error err => rw [hm] at h; cases h
              | ok ws' =>
                rw [hm] at h
                cases h
                obtain ⟨h1, h2⟩ := ihc ws' hm
                refine ⟨by simp [h1], ?_⟩
                rw [List.mapM_cons, hc, h2]; rfl
        obtain ⟨hfst, hds⟩ := hpair args vs h2
        have h3 : (diffStep p hd (vs.map Prod.fst) (vs.map Prod.snd)).map
            (fun d => (hd.call (vs.map Prod.fst), d)) = .error err := h3
        rw [hfst] at h3
        have hlen := mapM_length _ _ _ hds
        rw [diffStep_eq p hd args _ (by omega)] at h3
        have h4 : derivStep p hd args (vs.map Prod.snd) = .error err := by
          cases hst : derivStep p hd args (vs.map Prod.snd) with
          | ok d => rw [hst] at h3; cases h3
          | error err' => rw [hst] at h3; cases h3; rfl
        unfold derivStep at h4
        split at h4
        · cases h4
        · rename_i hdist
          split at h4
          · cases h4
          · rename_i hadd
            split at h4
            · cases h4
            · rename_i hmul
              cases hts : (varying p (vs.map Prod.snd)).mapM (chainTerm p hd args) with
              | ok ts => rw [hts] at h4; cases h4
              | error err' =>
                rw [hts] at h4
                cases h4
                obtain ⟨pre, q, post, hq1, hq2, _⟩ := mapM_error _ _ _ hts
                obtain ⟨d, i⟩ := q
                have hq : (d, i) ∈ varying p (vs.map Prod.snd) := by rw [hq1]; simp
                obtain ⟨hi1, hi2⟩ := mem_varying.1 hq
                have hi : i < args.length := by
                  have := (List.getElem?_eq_some_iff.1 hi1).1
                  omega
                obtain ⟨b, hb1, hb2⟩ := mapM_getElem? _ _ _ hds i args[i]
                  (List.getElem?_eq_getElem hi)
                rw [hi1] at hb1; cases hb1
                refine ⟨hd, args, i, ⟨hs, hdist, hadd, hmul, args[i], d,
                  List.getElem?_eq_getElem hi, (diff_ok_iff _ _ _ _).2 hb2, hi2⟩, ?_⟩
                rcases chainTerm_cases hp hd args (d, i) with ⟨⟨r, h5⟩, _⟩ | ⟨h5, h6⟩ | ⟨h5, h6⟩
                · rw [h5] at hq2; cases hq2
                · rw [h5] at hq2; cases hq2; exact Or.inl ⟨rfl, h6⟩
                · rw [h5] at hq2; cases hq2; exact Or.inr ⟨rfl, h6⟩

/-- **C24.** For every differentiator a program can build: `e.diff(x)` returns exactly when
every needed rule exists for the right number of arguments; otherwise it raises `KeyError`
because a needed rule is missing, or `TypeError` because the rule was given for another number
of arguments.  It never returns when a needed rule is missing. -/
theorem C24_diff_fails_iff (p : DiffProps Val) (hp : DiffHistory p) (e x : Expr) :
    ((∃ d, e.diff x 1 p = .ok d) ↔
      ∀ h args i, NeedsRule p x e h args i → HasRule p h args.length i) ∧
    (∀ err, e.diff x 1 p = .error err →
      ∃ h args i, NeedsRule p x e h args i ∧
        ((err = .keyError ∧ p.diffRules.get? (h, i) = none) ∨
         (err = .typeError ∧ ∃ rule, p.diffRules.get? (h, i) = some rule ∧
            rule.nargs ≠ args.length))) := by
  refine ⟨⟨?_, ?_⟩, fun err h => diff_error_cause hp x e err h⟩
  · rintro ⟨d, hd⟩ h args i ⟨hs, h1, h2, h3, c, dc, h4, h5, h6⟩
    have hd' := (diff_ok_iff e x p d).1 hd
    have hpe := evalTree_pair p x e
    rw [hd'] at hpe
    obtain ⟨q, hq⟩ := evalTree_ok_sub _ hs ⟨_, hpe⟩
    rw [evalTree_pair] at hq
    cases hdn : deriv p x (.node (h :: args)) with
    | error err => rw [hdn] at hq; cases hq
    | ok dn =>
      rw [deriv_node] at hdn
      cases hm : args.mapM (deriv p x) with
      | error err => rw [hm] at hdn; cases hdn
      | ok ds =>
        rw [hm] at hdn
        have hdn : derivStep p h args ds = .ok dn := hdn
        unfold derivStep at hdn
        rw [if_neg h1, if_neg h2, if_neg h3] at hdn
        obtain ⟨b, hb1, hb2⟩ := mapM_getElem? _ _ _ hm i c h4
        rw [(diff_ok_iff _ _ _ _).1 h5] at hb2
        cases hb2
        have hv := varying_of_mem p ds i dc hb1 h6
        cases hts : (varying p ds).mapM (chainTerm p h args) with
        | error err => rw [hts] at hdn; cases hdn
        | ok ts =>
          obtain ⟨r, hr⟩ := mapM_ok_mem _ _ _ hts _ hv
          rcases chainTerm_cases hp h args (dc, i) with ⟨_, h7⟩ | ⟨h7, _⟩ | ⟨h7, _⟩
          · exact h7
          · rw [h7] at hr; cases hr
          · rw [h7] at hr; cases hr
  · intro h
    obtain ⟨d, hd⟩ := deriv_total hp x e h
    exact ⟨d, (diff_ok_iff e x p d).2 hd⟩

/-- With the built-in rules: the variable in an exponent, an unknown function of the
variable, a function applied to too many arguments. -/
example : DiffHistory builtinDiff ∧
    (pow (integer 2) x).diff x = .error .keyError ∧ Expr.diff (f.call [x]) x = .error .keyError ∧
    Expr.diff (sinH.call [x, y]) x = .error .typeError ∧ Expr.diff (sinH.call [y, x]) x = .error .keyError := by
  refine ⟨?_, by decide +kernel, by decide +kernel, by decide +kernel, by decide +kernel⟩
  obtain ⟨_, _, _, _, _, _, h, _⟩ := builtinDiff_eq
  exact h

/-! ### C25 -/

theorem iterPy_add {α : Type} (f : α → PyM α) (n m : Nat) (a : α) :
    iterPy f (n + m) a = iterPy f n a >>= iterPy f m := by
  induction n generalizing a with
  | zero => rw [Nat.zero_add]; rfl
  | succ n ih =>
    rw [show n + 1 + m = (n + m) + 1 by omega]
    simp only [iterPy]
    cases f a with
    | error err => rfl
    | ok b => exact ih b

theorem iterPy_congr {α : Type} (f g : α → PyM α) (h : ∀ a, f a = g a) (n : Nat) (a : α) :
    iterPy f n a = iterPy g n a := by
  have : f = g := funext h
  rw [this]

/-- **C25.** For every differentiator: `e.diff(x, n)` and `diff(e, x, n)` agree for every
integer `n`; both return `e` for `n ≤ 0`; and differentiating `n` times and then `m` times is
differentiating `n + m` times (including what is raised), so that `n` times is `n` successive
single derivatives. -/
theorem C25_repeated (p : DiffProps Val) (e x : Expr) :
    (∀ n : Int, e.diff x n p = SymDifferentiator.call p e x n) ∧
    (∀ n : Int, n ≤ 0 → e.diff x n p = .ok e) ∧
    (∀ n m : Int, 0 ≤ n → 0 ≤ m →
      e.diff x (n + m) p = (e.diff x n p).bind (fun d => d.diff x m p)) ∧
    (∀ n : Int, 0 ≤ n → e.diff x (n + 1) p = (e.diff x n p).bind (fun d => d.diff x 1 p)) := by
  have hadd : ∀ n m : Int, 0 ≤ n → 0 ≤ m →
      e.diff x (n + m) p = (e.diff x n p).bind (fun d => d.diff x m p) := by
    intro n m hn hm
    unfold Expr.diff
    rw [Int.toNat_add hn hm, iterPy_add]
    rfl
  refine ⟨?_, ?_, hadd, fun n hn => hadd n 1 hn (by omega)⟩
  · intro n
    unfold Expr.diff SymDifferentiator.call
    exact iterPy_congr _ _ (fun a => iterPy_one _ a) _ _
  · intro n hn
    unfold Expr.diff
    rw [Int.toNat_eq_zero.2 hn]
    rfl

/-- The docstring's `sin(x).diff(x, 4)`. -/
example : (sin x).diff x 4 = .ok (mul negone (mul negone (sin x))) ∧
    (sin x).diff x (-3) = .ok (sin x) := by decide +kernel

/-! ### C27 -/

/-- **C27, rejection.** A pattern without arguments raises `IndexError` (an atom) or
`TypeError`; a pattern in which the variable is not exactly one of the arguments raises
`TypeError`; every other pattern is accepted, and then exactly the rule for that head and
position is replaced. -/
theorem C27_rule_assignment (p : DiffProps Val) (sym rhs : Expr) :
    (∀ e : Expr, e.children = [] → SymDifferentiator.setItem p e sym rhs = .error .indexError) ∧
    (∀ h params, params.count sym ≠ 1 →
      SymDifferentiator.setItem p (.node (h :: params)) sym rhs = .error .typeError) ∧
    (∀ h params, params.count sym = 1 →
      ∃ p' rule, SymDifferentiator.setItem p (.node (h :: params)) sym rhs = .ok p' ∧
        SubsFunc.new rhs params = .ok rule ∧
        (∀ h' i, p'.diffRules.get? (h', i) =
          if h' = h ∧ params[i]? = some sym then some rule else p.diffRules.get? (h', i)) ∧
        p'.distributive = p.distributive ∧ p'.zero = p.zero ∧ p'.one = p.one ∧ p'.add = p.add ∧
        p'.mul = p.mul) := by
  refine ⟨?_, ?_, ?_⟩
  · intro e he
    unfold SymDifferentiator.setItem
    rw [he]; rfl
  · intro h params hc
    unfold SymDifferentiator.setItem
    simp only [Tree.children, pyGet, List.getElem?_cons_zero, bind, Except.bind,
      List.drop_succ_cons, List.drop_zero]
    rw [if_pos hc]
  · intro h params hc
    obtain ⟨fn, hf, hs⟩ := setItem_accepts p h sym rhs params hc
    refine ⟨_, fn, hs, hf, ?_, rfl, rfl, rfl, rfl, rfl⟩
    intro h' i
    simp only [DiffProps.addDiffRule, Dict.get?_set]
    have hmem : sym ∈ params := by
      apply List.count_pos_iff.1; omega
    have key : ∀ (l : List Expr) (i : Nat), l.count sym = 1 →
        (l[i]? = some sym ↔ i = l.idxOf sym) := by
      intro l
      induction l with
      | nil => intro i h; simp at h
      | cons a l ih =>
        intro i hcount
        by_cases ha : a = sym
        · subst ha
          have h0 : l.count a = 0 := by simpa using hcount
          have hno : a ∉ l := List.count_eq_zero.1 h0
          rw [List.idxOf_cons_self]
          cases i with
          | zero => simp
          | succ i =>
            simp only [List.getElem?_cons_succ, Nat.add_eq_zero_iff, Nat.one_ne_zero, and_false,
              iff_false]
            intro hl
            exact hno (List.mem_of_getElem? hl)
        · have h1 : l.count sym = 1 := by rwa [List.count_cons_of_ne ha] at hcount
          rw [show (a :: l).idxOf sym = l.idxOf sym + 1 by rw [List.idxOf_cons, show (a == sym) = false from beq_false_of_ne ha]; rfl]
          cases i with
          | zero => simp [ha]
          | succ i => simp only [List.getElem?_cons_succ, ih i h1]; omega
    have := key params i hc
    by_cases h1 : h' = h
    · subst h1
      by_cases h2 : i = params.idxOf sym
      · subst h2; simp [this]
      · have h3 : ¬ params[i]? = some sym := fun h => h2 (this.1 h)
        have h4 : ¬ params.idxOf sym = i := fun h => h2 h.symm
        simp [h3, h4]
    · have h2 : ¬ h = h' := fun h => h1 h.symm
      simp [h1, h2]

theorem filter_single {α : Type} {l : List α} {f : α → Bool} {i : Nat} {a : α}
    (hi : l[i]? = some a) (ha : f a = true)
    (hothers : ∀ j b, l[j]? = some b → j ≠ i → f b = false) : l.filter f = [a] := by
  induction l generalizing i with
  | nil => cases hi
  | cons b l ih =>
    cases i with
    | zero =>
      simp only [List.getElem?_cons_zero, Option.some.injEq] at hi
      subst hi
      rw [List.filter_cons_of_pos ha]
      have : l.filter f = [] := by
        rw [List.filter_eq_nil_iff]
        intro c hc
        obtain ⟨j, hj⟩ := List.getElem?_of_mem hc
        have := hothers (j + 1) c (by simpa using hj) (by omega)
        simp [this]
      rw [this]
    | succ i =>
      have hb := hothers 0 b rfl (by omega)
      rw [List.filter_cons_of_neg (by simp [hb])]
      exact ih (by simpa using hi) (fun j c hj hne => hothers (j + 1) c (by simpa using hj) (by omega))

theorem varying_single (p : DiffProps Val) (ds : List Expr) (i : Nat) (d : Expr)
    (hi : ds[i]? = some d) (hd : d ≠ p.zero)
    (hothers : ∀ j d', ds[j]? = some d' → j ≠ i → d' = p.zero) : varying p ds = [(d, i)] := by
  unfold varying
  refine filter_single (i := i) ?_ (by simpa using hd) ?_
  · rw [List.getElem?_zipIdx, hi]; simp
  · intro j q hq hne
    rw [List.getElem?_zipIdx] at hq
    cases hj : ds[j]? with
    | none => rw [hj] at hq; cases hq
    | some d' =>
      rw [hj] at hq
      cases hq
      simp [hothers j d' hj hne]

/-- **C27** (partial: see `C27_rule_is_parameter_false` for the excluded right-hand sides).
After `diff[f(p₁,…,pₙ), pᵢ] = rhs`, differentiating `f(e₁,…,eₙ)` where only `eᵢ` depends on `x`
gives `rhs` with each pattern argument replaced by the actual argument, times the derivative
of `eᵢ` unless that is 1. -/
theorem C27_rule_instantiated_partial (p p' : DiffProps Val) (f sym rhs x : Expr)
    (params args : List Expr) (i : Nat) (di : Expr)
    (hset : SymDifferentiator.setItem p (.node (f :: params)) sym rhs = .ok p')
    (hf : f ∉ p.distributive ∧ f ≠ p.add ∧ f ≠ p.mul)
    (hrhs : rhs ∉ params ∨ params.getLast? = some rhs)
    (hlen : args.length = params.length) (hi : params[i]? = some sym)
    (hdep : ∀ c : Expr, args[i]? = some c → c.diff x 1 p' = .ok di) (hdi : di ≠ p.zero)
    (hconst : ∀ (j : Nat) (c : Expr), args[j]? = some c → j ≠ i → c.diff x 1 p' = .ok p.zero) :
    Expr.diff (.node (f :: args)) x 1 p' =
      .ok (if di = p.one then subst (pairing params args) rhs
           else .node [p.mul, subst (pairing params args) rhs, di]) := by
  have hcount : params.count sym = 1 := by
    obtain ⟨hd, ps, fn, h1, h2, _⟩ := setItem_ok hset
    cases h1; exact h2
  obtain ⟨p'', rule, h1, h2, h3, h4, h5, h6, h7, h8⟩ :=
    (C27_rule_assignment p sym rhs).2.2 f params hcount
  rw [hset] at h1; cases h1
  have hcall : rule.call args = .ok (subst (pairing params args) rhs) := by
    obtain ⟨rule', hr1, hr2⟩ := C11_subs_simultaneous_partial rhs params hrhs
    rw [h2] at hr1; cases hr1
    exact hr2 args hlen
  rw [diff_ok_iff, deriv_node]
  have hall : ∀ c ∈ args, ∃ d, deriv p' x c = .ok d := by
    intro c hc
    obtain ⟨j, hj⟩ := List.getElem?_of_mem hc
    by_cases hji : j = i
    · subst hji; exact ⟨di, (diff_ok_iff _ _ _ _).1 (hdep c hj)⟩
    · exact ⟨_, (diff_ok_iff _ _ _ _).1 (hconst j c hj hji)⟩
  obtain ⟨ds, hds⟩ := mapM_ok_of_forall _ _ hall
  have hlen' := mapM_length _ _ _ hds
  have hilt : i < args.length := by
    have := (List.getElem?_eq_some_iff.1 hi).1; omega
  have hdsi : ds[i]? = some di := by
    obtain ⟨b, hb1, hb2⟩ := mapM_getElem? _ _ _ hds i args[i] (List.getElem?_eq_getElem hilt)
    rw [(diff_ok_iff _ _ _ _).1 (hdep _ (List.getElem?_eq_getElem hilt))] at hb2
    cases hb2; exact hb1
  have hv : varying p' ds = [(di, i)] := by
    refine varying_single p' ds i di hdsi (by rw [h5]; exact hdi) ?_
    intro j d' hj hne
    have hjlt : j < args.length := by
      have := (List.getElem?_eq_some_iff.1 hj).1; omega
    obtain ⟨b, hb1, hb2⟩ := mapM_getElem? _ _ _ hds j args[j] (List.getElem?_eq_getElem hjlt)
    rw [hj] at hb1; cases hb1
    rw [(diff_ok_iff _ _ _ _).1 (hconst j _ (List.getElem?_eq_getElem hjlt) hne)] at hb2
    cases hb2; rw [h5]
  rw [hds]
  show derivStep p' f args ds = _
  unfold derivStep
  rw [h4, h7, h8, if_neg hf.1, if_neg hf.2.1, if_neg hf.2.2, hv]
  have hrule : p'.diffRules.get? (f, i) = some rule := by rw [h3 f i]; simp [hi]
  have hterm : chainTerm p' f args (di, i) =
      .ok (if di = p.one then subst (pairing params args) rhs
           else .node [p.mul, subst (pairing params args) rhs, di]) := by
    unfold chainTerm
    simp only [hrule, hcall, h6, h8]
  rw [List.mapM_cons, hterm]
  rfl

/-- `diff[f(a, b), b] = sin(a) * b` at `f(y, x**2)`. -/
example :
    ∃ p', SymDifferentiator.setItem builtinDiff (f.call [wild "a", wild "b"]) (wild "b")
        (mul (sin (wild "a")) (wild "b")) = .ok p' ∧
      Expr.diff (f.call [y, sin x]) x 1 p' = .ok (mul (mul (sin y) (sin x)) (cos x)) := by
  cases h : SymDifferentiator.setItem builtinDiff (f.call [wild "a", wild "b"]) (wild "b")
        (mul (sin (wild "a")) (wild "b")) with
  | error err =>
    obtain ⟨p', _, h', _⟩ := (C27_rule_assignment builtinDiff (wild "b")
      (mul (sin (wild "a")) (wild "b"))).2.2 f [wild "a", wild "b"] (by decide)
    rw [show f.call [wild "a", wild "b"] = .node [f, wild "a", wild "b"] from rfl, h'] at h; cases h
  | ok p' =>
    refine ⟨p', rfl, ?_⟩
    have : ((SymDifferentiator.setItem builtinDiff (f.call [wild "a", wild "b"]) (wild "b")
        (mul (sin (wild "a")) (wild "b"))).bind fun p' => Expr.diff (f.call [y, sin x]) x 1 p') =
        .ok (mul (mul (sin y) (sin x)) (cos x)) := by decide +kernel
    rw [h] at this
    exact this

/-- **C27, refutation** of the unrestricted statement, inherited from C11: after
`diff[f(a, b), a] = a` the derivative of `f(x, y)` should be `x` and is `y`. -/
theorem C27_rule_is_parameter_false :
    ((SymDifferentiator.setItem builtinDiff (f.call [wild "a", wild "b"]) (wild "a")
        (wild "a")).bind fun p' => Expr.diff (f.call [x, y]) x 1 p') = .ok y := by
  decide +kernel

/-- **C27, a trap.** Literals in a pattern are not matched, they are parameters too: after
`diff[f(a, 2), a] = 2*a` the derivative of `f(x, 3)` is `3*x`. -/
theorem C27_literals_are_parameters :
    ((SymDifferentiator.setItem builtinDiff (f.call [wild "a", integer 2]) (wild "a")
        (mul (integer 2) (wild "a"))).bind fun p' => Expr.diff (f.call [x, integer 3]) x 1 p') =
      .ok (mul (integer 3) x) := by
  decide +kernel

theorem deriv_congr (p p' : DiffProps Val) (x : Expr) (hz : p'.zero = p.zero) (ho : p'.one = p.one)
    (ha : p'.add = p.add) (hm : p'.mul = p.mul) (hd : p'.distributive = p.distributive) (e : Expr)
    (hr : ∀ h args i, ArgSub e (.node (h :: args)) →
      p'.diffRules.get? (h, i) = p.diffRules.get? (h, i)) : deriv p' x e = deriv p x e := by
  have hvary : ∀ ds, varying p' ds = varying p ds := by intro ds; unfold varying; rw [hz]
  have hsum : ∀ ts, sumOf p' ts = sumOf p ts := by
    intro ts
    match ts with
    | [] => exact hz
    | [t] => rfl
    | a :: b :: ts => simp only [sumOf, ha]
  induction e using Tree.induction with
  | _ e ih =>
  cases hl : isLeaf e with
  | true => rw [deriv_leaf p x hl, deriv_leaf p' x hl, hz, ho]
  | false =>
    cases e with
    | atom a => cases hl
    | node cs =>
      cases cs with
      | nil => cases hl
      | cons h args =>
        rw [deriv_node, deriv_node]
        have hmm : ∀ as : List Expr, (∀ c ∈ as, c ∈ args) →
            as.mapM (deriv p' x) = as.mapM (deriv p x) := by
          intro as
          induction as with
          | nil => intro _; rfl
          | cons c cs ihc =>
            intro hsub
            have hc := hsub c (by simp)
            rw [List.mapM_cons, List.mapM_cons, ih c (by simp [Tree.children, hc])
              (fun h' as' i h2 => hr h' as' i
                (Reach.down (by simp) (by simpa [kids] using hc) h2)),
              ihc (fun d hd => hsub d (by simp [hd]))]
        rw [hmm args (fun _ h => h)]
        congr 1
        funext ds
        have hct : chainTerm p' h args = chainTerm p h args := by
          funext q
          unfold chainTerm
          rw [hr h args q.2 (Reach.refl (by simp)), ho, hm]
        unfold derivStep
        rw [hd, ha, hm, hvary ds, hct]
        simp only [hsum]

/-- **C27, nothing else changes.** Adding a rule for `f` does not change the derivative of an
expression in which `f` does not occur as a head (in argument position), nor the exception that
is raised instead. -/
theorem C27_other_heads_unaffected (p p' : DiffProps Val) (f sym rhs x e : Expr)
    (params : List Expr) (hset : SymDifferentiator.setItem p (.node (f :: params)) sym rhs = .ok p')
    (hf : ∀ args, ¬ ArgSub e (.node (f :: args))) : e.diff x 1 p' = e.diff x 1 p := by
  have hcount : params.count sym = 1 := by
    obtain ⟨hd, ps, fn, h1, h2, _⟩ := setItem_ok hset
    cases h1; exact h2
  obtain ⟨p'', rule, h1, h2, h3, h4, h5, h6, h7, h8⟩ :=
    (C27_rule_assignment p sym rhs).2.2 f params hcount
  rw [hset] at h1; cases h1
  rw [diff_one, diff_one, diffForward_order, diffForward_order]
  congr 1
  have hmm : ∀ l : List Expr, (∀ t ∈ l, deriv p' x t = deriv p x t) →
      l.mapM (deriv p' x) = l.mapM (deriv p x) := by
    intro l
    induction l with
    | nil => intro _; rfl
    | cons c cs ih =>
      intro h
      rw [List.mapM_cons, List.mapM_cons, h c (by simp), ih fun t ht => h t (by simp [ht])]
  apply hmm
  intro t ht
  apply deriv_congr p p' x h5 h6 h7 h8 h4 t
  intro h args i hs
  rw [h3 h i, if_neg]
  rintro ⟨rfl, _⟩
  exact hf args (Reach.trans (mem_graphOrder.1 ht) hs)

/-! ### C28 -/

/-- **C28.** For a distributive head `f`: `f(e₁,…,eₙ).diff(x)` returns exactly when every
`eᵢ.diff(x)`, each taken on its own, returns, and is then `f(e₁.diff(x),…,eₙ.diff(x))`;
subexpressions shared between the `eᵢ` do not matter. -/
theorem C28_distributive (p : DiffProps Val) (f x : Expr) (hf : f ∈ p.distributive)
    (es : List Expr) (d : Expr) :
    Expr.diff (.node (f :: es)) x 1 p = .ok d ↔
      ∃ ds, d = .node (f :: ds) ∧ ds.length = es.length ∧
        ∀ (i : Nat) (e d : Expr), es[i]? = some e → ds[i]? = some d → e.diff x 1 p = .ok d := by
  rw [diff_ok_iff, deriv_node]
  constructor
  · intro h
    cases hm : es.mapM (deriv p x) with
    | error err => rw [hm] at h; cases h
    | ok ds =>
      rw [hm] at h
      have h : derivStep p f es ds = .ok d := h
      unfold derivStep at h
      rw [if_pos hf] at h
      cases h
      refine ⟨ds, rfl, (mapM_length _ _ _ hm).symm, ?_⟩
      intro i e d he hd
      obtain ⟨b, hb1, hb2⟩ := mapM_getElem? _ _ _ hm i e he
      rw [hd] at hb1; cases hb1
      exact (diff_ok_iff _ _ _ _).2 hb2
  · rintro ⟨ds, rfl, hlen, hpt⟩
    have hm : ∀ (es ds : List Expr), ds.length = es.length →
        (∀ (i : Nat) (e d : Expr), es[i]? = some e → ds[i]? = some d → deriv p x e = .ok d) →
        es.mapM (deriv p x) = .ok ds := by
      intro es
      induction es with
      | nil => intro ds h _; rw [List.eq_nil_of_length_eq_zero h]; rfl
      | cons e es ih =>
        intro ds h hpt
        cases ds with
        | nil => cases h
        | cons d ds =>
          rw [List.mapM_cons, hpt 0 e d rfl rfl, ih ds (by simpa using h)
            (fun i e d he hd => hpt (i + 1) e d (by simpa using he) (by simpa using hd))]
          rfl
    rw [hm es ds hlen (fun i e d he hd => (diff_ok_iff _ _ _ _).1 (hpt i e d he hd))]
    show derivStep p f es ds = _
    unfold derivStep
    rw [if_pos hf]

/-- `List` is distributive in simplecas: `List(sin(x), y, sin(x)*2)`. -/
example : listH ∈ builtinDiff.distributive ∧
    Expr.diff (listH.call [sin x, y, mul (sin x) (integer 2)]) x =
      .ok (listH.call [cos x, zero, mul (cos x) (integer 2)]) := by decide +kernel

end Verif.Props
