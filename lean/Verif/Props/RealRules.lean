import Verif.Spec.RealRules
import Verif.Props.DiffExact
import Verif.Props.Substitution
import Verif.Props.RealDiff

/-!
# C53: a differentiator with right rules computes the derivative
-/

set_option linter.unusedSectionVars false

namespace Verif.Props
open Spec Expr

section RightRulesProofs

variable {ev : Evaluator PyM Val ℝ} {values : Dict Expr ℝ} {x : Expr}

/-- Structural evaluation with `x := t`. -/
noncomputable def vEval (ev : Evaluator PyM Val ℝ) (values : Dict Expr ℝ) (x : Expr) (t : ℝ) :
    Expr → PyM ℝ :=
  evalTree (meaning ev (values.set x t).get?)

theorem evAt_iff (e : Expr) (t v : ℝ) :
    evAt ev values x e t = .ok v ↔ vEval ev values x t e = .ok v :=
  evalForward_ok_iff ev e (values.set x t) v

/-- The value if there is one. -/
noncomputable def vVal (ev : Evaluator PyM Val ℝ) (values : Dict Expr ℝ) (x : Expr) (t : ℝ)
    (e : Expr) : ℝ :=
  match vEval ev values x t e with
  | .ok v => v
  | .error _ => 0

theorem vVal_eq {t : ℝ} {e : Expr} {v : ℝ} (h : vEval ev values x t e = .ok v) :
    vVal ev values x t e = v := by
  unfold vVal; rw [h]

theorem vDom_iff {e : Expr} {t : ℝ} : t ∈ evDomain ev values x e ↔
    vEval ev values x t e = .ok (vVal ev values x t e) := by
  constructor
  · rintro ⟨v, hv⟩
    rw [evAt_iff] at hv
    rw [vVal_eq hv, hv]
  · intro h; exact ⟨_, (evAt_iff _ _ _).2 h⟩

theorem mapM_vVal {t : ℝ} {args : List Expr} {vs : List ℝ}
    (h : args.mapM (vEval ev values x t) = .ok vs) :
    vs = args.map (vVal ev values x t) ∧ ∀ c ∈ args, t ∈ evDomain ev values x c := by
  induction args generalizing vs with
  | nil => cases h; simp
  | cons c cs ih =>
    rw [List.mapM_cons] at h
    cases hc : vEval ev values x t c with
    | error err => rw [hc] at h; cases h
    | ok v =>
      cases hm : cs.mapM (vEval ev values x t) with
      | error err => rw [hc, hm] at h; cases h
      | ok ws =>
        rw [hc, hm] at h
        cases h
        obtain ⟨h1, h2⟩ := ih hm
        refine ⟨by simp [h1, vVal_eq hc], ?_⟩
        intro c' hc'
        rcases List.mem_cons.1 hc' with rfl | hc'
        · exact ⟨v, (evAt_iff _ _ _).2 hc⟩
        · exact h2 c' hc'

theorem vDom_node {h : Expr} {args : List Expr} {t : ℝ}
    (ht : t ∈ evDomain ev values x (.node (h :: args))) :
    (∀ c ∈ args, t ∈ evDomain ev values x c) ∧
    ev.evalOperation h (args.map (vVal ev values x t)) =
      .ok (vVal ev values x t (.node (h :: args))) := by
  rw [vDom_iff] at ht
  have h0 := ht
  unfold vEval at h0
  rw [evalTree_node _ rfl] at h0
  cases hm : args.mapM (vEval ev values x t) with
  | error err =>
    have : (argsOf (Tree.node (h :: args))).mapM (evalTree (meaning ev (values.set x t).get?)) =
      .error err := hm
    rw [this] at h0; cases h0
  | ok vs =>
    have : (argsOf (Tree.node (h :: args))).mapM (evalTree (meaning ev (values.set x t).get?)) =
      .ok vs := hm
    rw [this] at h0
    obtain ⟨h3, h4⟩ := mapM_vVal hm
    refine ⟨h4, ?_⟩
    rw [← h3, ← h0, ← evalOperation_meaning]
    rfl

/-- Evaluation of an expression without `x` does not depend on `x`. -/
theorem vEval_const (e : Expr) (hx : ¬ ArgSub e x) (t t' : ℝ) :
    vEval ev values x t e = vEval ev values x t' e := by
  induction e using Tree.induction with
  | _ e ih =>
  cases hl : isLeaf e with
  | true =>
    unfold vEval
    rw [evalTree_leaf _ hl, evalTree_leaf _ hl]
    have hne : x ≠ e := by rintro rfl; exact hx (Reach.refl (by simp))
    simp only [meaning, Dict.get?_set, if_neg hne]
  | false =>
    cases e with
    | atom a => cases hl
    | node cs =>
      cases cs with
      | nil => cases hl
      | cons h args =>
        unfold vEval
        rw [evalTree_node _ rfl, evalTree_node _ rfl]
        have : ∀ as : List Expr, (∀ c ∈ as, c ∈ args) →
            as.mapM (vEval ev values x t) = as.mapM (vEval ev values x t') := by
          intro as
          induction as with
          | nil => intro _; rfl
          | cons c cs ihc =>
            intro hsub
            have hc := hsub c (by simp)
            rw [List.mapM_cons, List.mapM_cons, ih c (by simp [Tree.children, hc])
              (fun h2 => hx (Reach.down (by simp) (by simpa [kids] using hc) h2)),
              ihc (fun d hd => hsub d (by simp [hd]))]
        have h2 := this args (fun _ h => h)
        unfold vEval at h2
        rw [show argsOf (Tree.node (h :: args)) = args from rfl, h2]
        rfl

theorem total_value {T : DiffTable} (hr : RightRules T ev values x) {t : ℝ} (ts : List Expr)
    (ht : t ∈ evDomain ev values x (T.total ts)) :
    (∀ c ∈ ts, t ∈ evDomain ev values x c) ∧
      vVal ev values x t (T.total ts) = (ts.map (vVal ev values x t)).sum := by
  match ts with
  | [] =>
    refine ⟨by simp, ?_⟩
    exact vVal_eq ((evAt_iff _ _ _).1 (hr.zero t))
  | [c] => exact ⟨by simpa [DiffTable.total] using ht, by simp [DiffTable.total]⟩
  | a :: b :: ts =>
    obtain ⟨h1, h2⟩ := vDom_node (h := T.add) (args := a :: b :: ts) ht
    rw [hr.sum] at h2
    exact ⟨h1, (Except.ok.inj h2).symm⟩

theorem vVal_zero {T : DiffTable} (hr : RightRules T ev values x) (t : ℝ) :
    vVal ev values x t T.zero = 0 := vVal_eq ((evAt_iff _ _ _).1 (hr.zero t))

theorem rightRules_nonzero {T : DiffTable} {p : DiffProps Val} (hm : Made T p)
    (hr : RightRules T ev values x) : RuleNonzero p := by
  obtain ⟨hz, _⟩ := made_fields hm
  rintro ⟨h, i⟩ f hk args r hc
  obtain ⟨h1, h2, h3⟩ := made_rule hm h i
  rcases h3 with ⟨params, rhs, hrule⟩ | hn
  · obtain ⟨f', hg, hf⟩ := h1 params rhs hrule
    rw [hk] at hg; cases hg
    have hp := hr.plain h i params rhs hrule
    have hi := ((call_instance hf args).1 r).1 hc
    cases hi with
    | last hmem _ _ => exact absurd hmem hp.notParameter
    | replaced hnot hlen =>
      rw [hz]
      have hσ : pairing params args rhs = none := (pairing_isSome hlen.symm rhs).2 hnot
      cases rhs with
      | atom a => rw [subst_none_atom hσ]; exact hp.notZero
      | node cs =>
        rw [subst_none_node hσ]
        intro he
        have hza := hr.zeroAtom
        rw [← he] at hza
        cases cs with
        | nil => exact hp.notZero (by rw [← he]; rfl)
        | cons c cs => cases hza
  · rw [h2 hn] at hk; cases hk

theorem lastAssoc_zip_map {K A B : Type} [DecidableEq K] (f : A → B) (k : K) (ks : List K) (as : List A) :
    lastAssoc k (ks.zip (as.map f)) = (lastAssoc k (ks.zip as)).map f := by
  induction ks generalizing as with
  | nil => rfl
  | cons k' ks ih =>
    cases as with
    | nil => rfl
    | cons a as =>
      simp only [List.map_cons, List.zip_cons_cons, lastAssoc, ih]
      cases lastAssoc k (ks.zip as) with
      | some w => rfl
      | none => simp only [Option.map_none]; split <;> rfl

theorem lastAssoc_mem {K W : Type} [DecidableEq K] (k : K) (w : W) (ps : List (K × W))
    (h : lastAssoc k ps = some w) : (k, w) ∈ ps := by
  induction ps with
  | nil => cases h
  | cons p ps ih =>
    obtain ⟨k', w'⟩ := p
    simp only [lastAssoc] at h
    cases hr : lastAssoc k ps with
    | some u => rw [hr] at h; cases h; exact List.mem_cons_of_mem _ (ih hr)
    | none =>
      rw [hr] at h
      simp only at h
      split at h
      · rename_i he; cases h; rw [he]; simp
      · cases h

/-- The value of a rule's instance. -/
theorem instance_value {T : DiffTable} (hr : RightRules T ev values x) {h : Expr} {i : ℕ}
    {params : List Expr} {rhs : Expr} (hrule : T.IsRule h i params rhs) {args : List Expr} {g : Expr}
    (hi : Instance params rhs args g) {t : ℝ} (hargs : ∀ c ∈ args, t ∈ evDomain ev values x c)
    (hg : t ∈ evDomain ev values x g) :
    params.length = args.length ∧
    ev.call rhs (some ((values.set x t).update (params.zip (args.map (vVal ev values x t))))) =
      .ok (vVal ev values x t g) := by
  have hp := hr.plain h i params rhs hrule
  cases hi with
  | last hmem _ _ => exact absurd hmem hp.notParameter
  | replaced hnot hlen =>
    refine ⟨hlen.symm, ?_⟩
    show ev.evalForward _ _ = _
    rw [evalForward_ok_iff]
    rw [vDom_iff] at hg
    rw [← hg]
    unfold vEval
    refine (evalTree_subst ev (pairing params args) _ _ ?_ rhs ?_ ?_).symm
    · intro k hk
      rw [Dict.get?_update, lastAssoc_zip_map]
      have : lastAssoc k (params.zip args) = none := hk
      rw [this]; rfl
    · intro k hk
      have hmem : k ∈ params := by
        by_contra hn
        exact hk ((pairing_isSome hlen.symm k).2 hn)
      exact ⟨hp.atoms k hmem, fun h' as hsub => hp.notInHeads k hmem h' as hsub⟩
    · intro k u _ hk
      have hk : lastAssoc k (params.zip args) = some u := hk
      have hu : u ∈ args := (List.of_mem_zip (lastAssoc_mem _ _ _ hk)).2
      refine ⟨vVal ev values x t u, vDom_iff.1 (hargs u hu), rfl, ?_⟩
      rw [Dict.get?_update, lastAssoc_zip_map, hk]; rfl

theorem sum_filter_ite {α : Type} (l : List α) (q : α → Bool) (f : α → ℝ) :
    ((l.filter q).map f).sum = (l.map (fun a => if q a then f a else 0)).sum := by
  induction l with
  | nil => rfl
  | cons a l ih =>
    cases hq : q a with
    | true => simp [hq, ih]
    | false => simp [hq, ih]

theorem zipIdx_map_ofFn {α β : Type} (l : List α) (g : α × ℕ → β) :
    l.zipIdx.map g = List.ofFn (fun i : Fin l.length => g (l[i], i)) := by
  apply List.ext_getElem
  · simp
  · intro i h1 h2
    simp

theorem map_ofFn_get {α β : Type} (l : List α) (g : α → β) :
    l.map g = List.ofFn (fun i : Fin l.length => g l[i]) := by
  apply List.ext_getElem
  · simp
  · intro i h1 h2
    simp

theorem deriv_rules {T : DiffTable} {p : DiffProps Val} (hm : Made T p)
    (hr : RightRules T ev values x) (hx : x.children = []) (t₀ : ℝ) (e : Expr) :
    ∀ d, deriv p x e = .ok d → t₀ ∈ evDomain ev values x e → t₀ ∈ evDomain ev values x d →
    HasDerivWithinAt (fun t => vVal ev values x t e) (vVal ev values x t₀ d)
      (evDomain ev values x e) t₀ := by
  obtain ⟨hz, ho, ha, hmul, hdis⟩ := made_fields hm
  have hone : T.one ≠ T.zero := by
    intro h
    have h1 := hr.one 0
    rw [h, hr.zero] at h1
    have := Except.ok.inj h1
    norm_num at this
  have hnz := deriv_nonzero p x hx (by rw [hz]; exact hr.zeroAtom) (by rw [ho, hz]; exact hone)
    (rightRules_nonzero hm hr)
  induction e using Tree.induction with
  | _ e ih =>
  intro d hd he hdd
  cases hl : isLeaf e with
  | true =>
    rw [deriv_leaf _ x hl, ho, hz] at hd
    by_cases hex : e = x
    · subst hex
      rw [if_pos rfl] at hd
      cases hd
      have h1 : vVal ev values e t₀ T.one = 1 := vVal_eq ((evAt_iff _ _ _).1 (hr.one t₀))
      rw [h1]
      have h2 : (fun t => vVal ev values e t e) = fun t => t := by
        funext t
        apply vVal_eq
        unfold vEval
        rw [evalTree_leaf _ hl]
        simp only [meaning, Dict.get?_set, if_true]
        rfl
      rw [h2]
      exact hasDerivWithinAt_id _ _
    · rw [if_neg hex] at hd
      cases hd
      rw [vVal_zero hr]
      have hocc : ¬ ArgSub e x := by
        intro hs
        cases hs with
        | refl => exact hex rfl
        | down _ hc _ =>
          cases e with
          | atom a => cases hc
          | node cs => cases cs with
            | nil => cases hc
            | cons => cases hl
      have : (fun t => vVal ev values x t e) = fun _ => vVal ev values x t₀ e := by
        funext t; unfold vVal; rw [vEval_const e hocc t t₀]
      rw [this]
      exact hasDerivWithinAt_const _ _ _
  | false =>
    cases e with
    | atom a => cases hl
    | node cs =>
      cases cs with
      | nil => cases hl
      | cons h args =>
        rw [deriv_node] at hd
        cases hmm : args.mapM (deriv p x) with
        | error err => rw [hmm] at hd; cases hd
        | ok ds =>
          rw [hmm] at hd
          replace hd : derivStep p h args ds = .ok d := hd
          obtain ⟨hargs, hop⟩ := vDom_node he
          have hF := forall₂_of_mapM _ _ _ hmm
          have hlen : ds.length = args.length := by
            have := mapM_length _ _ _ hmm; omega
          have key : (∀ dc ∈ ds, dc ≠ T.zero → t₀ ∈ evDomain ev values x dc) →
              List.Forall₂ (fun f d => HasDerivWithinAt f d
                  (evDomain ev values x (.node (h :: args))) t₀)
                (args.map (fun c t => vVal ev values x t c)) (ds.map (vVal ev values x t₀)) := by
            intro hev
            rw [List.forall₂_map_left_iff, List.forall₂_map_right_iff]
            rw [List.forall₂_iff_get] at hF ⊢
            refine ⟨hF.1, fun i h1 h2 => ?_⟩
            have hc := hF.2 i h1 h2
            have hmem : args.get ⟨i, h1⟩ ∈ args := List.get_mem _ _
            have hmem2 : ds.get ⟨i, h2⟩ ∈ ds := List.get_mem _ _
            refine (ih _ (by simp only [Tree.children]; exact List.mem_cons_of_mem _ hmem) _ hc
              (hargs _ hmem) ?_).mono ?_
            · by_cases h0 : ds.get ⟨i, h2⟩ = T.zero
              · rw [h0]; exact ⟨_, hr.zero t₀⟩
              · exact hev _ hmem2 h0
            · intro t ht
              exact (vDom_node ht).1 _ hmem
          -- the same by positions
          have keyAt : (∀ dc ∈ ds, dc ≠ T.zero → t₀ ∈ evDomain ev values x dc) →
              ∀ i : Fin args.length, HasDerivWithinAt (fun t => vVal ev values x t args[i])
                (vVal ev values x t₀ (ds[i]'(by have := i.2; omega)))
                (evDomain ev values x (.node (h :: args))) t₀ := by
            intro hev i
            have h1 := key hev
            rw [List.forall₂_map_left_iff, List.forall₂_map_right_iff,
              List.forall₂_iff_get] at h1
            exact h1.2 i i.2 (by have := i.2; omega)
          have hcurve : ∀ t, args.map (vVal ev values x t) =
              List.ofFn (fun i : Fin args.length => vVal ev values x t args[i]) :=
            fun t => map_ofFn_get _ _
          unfold derivStep at hd
          split at hd
          · -- a distributive head
            rename_i hdist
            obtain rfl := Except.ok.inj hd
            obtain ⟨hds, hdop⟩ := vDom_node hdd
            obtain ⟨c, hc⟩ := hr.linear h ((hdis h).1 hdist) args.length
            have h1 := keyAt (fun dc hdc _ => hds dc hdc)
            have hval : vVal ev values x t₀ (.node (h :: ds)) = ∑ i : Fin args.length,
                c i * vVal ev values x t₀ (ds[i]'(by have := i.2; omega)) := by
              refine hc _ _ ?_
              rw [← hdop]
              congr 1
              apply List.ext_getElem
              · simp [hlen]
              · intro i h1 h2; simp
            rw [hval]
            have h2 : HasDerivWithinAt (fun t => ∑ i : Fin args.length,
                c i * vVal ev values x t args[i]) (∑ i : Fin args.length,
                c i * vVal ev values x t₀ (ds[i]'(by have := i.2; omega)))
                (evDomain ev values x (.node (h :: args))) t₀ :=
              HasDerivWithinAt.fun_sum (fun i _ => (h1 i).const_mul (c i))
            have h3 : ∀ t ∈ evDomain ev values x (.node (h :: args)),
                vVal ev values x t (.node (h :: args)) =
                  ∑ i : Fin args.length, c i * vVal ev values x t args[i] := by
              intro t ht
              refine hc _ _ ?_
              rw [← hcurve]; exact (vDom_node ht).2
            exact h2.congr h3 (h3 t₀ he)
          · rename_i hndist
            rw [varying_nonzero hm] at hd
            split at hd
            · -- the sum rule
              rename_i hadd
              rw [ha] at hadd
              subst hadd
              obtain rfl := Except.ok.inj hd
              rw [sumOf_total hm] at hdd ⊢
              obtain ⟨h1, h2⟩ := total_value hr _ hdd
              rw [h2]
              have h0 : (T.nonzero ds).map Prod.fst = ds.filter (fun d => d ≠ T.zero) := by
                rw [← varying_nonzero hm, varying_fst, hz]
              rw [h0] at h1 ⊢
              have h3 := hasDeriv_sum (key (fun dc hdc hne => h1 dc (by
                rw [List.mem_filter]; exact ⟨hdc, by simpa using hne⟩)))
              rw [sum_filter _ _ _ (by
                intro a _ ha; simp only [ne_eq, decide_not, Bool.not_eq_eq_eq_not, Bool.not_false,
                  decide_eq_true_eq] at ha
                rw [ha]; exact vVal_zero hr t₀)]
              have h4 : ∀ t ∈ evDomain ev values x (.node (T.add :: args)),
                  vVal ev values x t (.node (T.add :: args)) =
                    ((args.map (fun c t => vVal ev values x t c)).map (fun f => f t)).sum := by
                intro t ht
                have := (vDom_node ht).2
                rw [hr.sum] at this
                rw [← Except.ok.inj this]; simp [Function.comp_def]
              exact h3.congr h4 (h4 t₀ he)
            · rename_i hnadd
              split at hd
              · -- the product rule
                rename_i hmm'
                rw [hmul] at hmm'
                subst hmm'
                obtain rfl := Except.ok.inj hd
                rw [sumOf_total hm] at hdd ⊢
                rw [hmul] at hdd ⊢
                obtain ⟨h1, h2⟩ := total_value hr _ hdd
                rw [h2]
                have hev : ∀ dc ∈ ds, dc ≠ T.zero → t₀ ∈ evDomain ev values x dc := by
                  intro dc hdc hne
                  obtain ⟨i, hi⟩ := List.getElem?_of_mem hdc
                  have hv := varying_of_mem p ds i dc hi (by rw [hz]; exact hne)
                  rw [varying_nonzero hm] at hv
                  have h3 := h1 (.node (T.mul :: args.set i dc))
                    (List.mem_map.2 ⟨(dc, i), hv, rfl⟩)
                  refine (vDom_node h3).1 dc ?_
                  have : i < args.length := by
                    have := (List.getElem?_eq_some_iff.1 hi).1; omega
                  exact List.mem_set this dc
                have h3 := hasDeriv_prod (key hev)
                have h4 : (((T.nonzero ds).map (fun q : Expr × Nat =>
                      (Tree.node (T.mul :: args.set q.2 q.1) : Expr))).map
                      (vVal ev values x t₀)).sum =
                    prodDeriv (args.map (vVal ev values x t₀)) (ds.map (vVal ev values x t₀)) := by
                  rw [List.map_map]
                  have h5 : ∀ q ∈ T.nonzero ds,
                      (vVal ev values x t₀ ∘ fun q : Expr × Nat =>
                        (Tree.node (T.mul :: args.set q.2 q.1) : Expr)) q =
                      ((args.map (vVal ev values x t₀)).set q.2 (vVal ev values x t₀ q.1)).prod := by
                    intro q hq
                    have h6 := h1 (.node (T.mul :: args.set q.2 q.1))
                      (List.mem_map.2 ⟨q, hq, rfl⟩)
                    have h7 := (vDom_node h6).2
                    rw [hr.product] at h7
                    simp only [Except.ok.injEq] at h7
                    simp only [Function.comp_apply]
                    rw [← h7, List.map_set]
                  rw [List.map_congr_left h5]
                  unfold DiffTable.nonzero
                  rw [sum_filter]
                  · have h6 := prodDeriv_eq (args.map (vVal ev values x t₀))
                      (ds.map (vVal ev values x t₀)) (by simp [hlen]) []
                    rw [List.length_nil, zipIdx_map_fst, List.map_map] at h6
                    simp only [List.nil_append, List.prod_nil, one_mul] at h6
                    rw [← h6]
                    rfl
                  · intro q hq h0
                    simp only [ne_eq, decide_not, Bool.not_eq_eq_eq_not, Bool.not_false,
                      decide_eq_true_eq] at h0
                    rw [h0, vVal_zero hr]
                    have : q.2 < args.length := by
                      have := List.mem_zipIdx_iff_getElem?.1 hq
                      have := (List.getElem?_eq_some_iff.1 this).1
                      omega
                    exact List.prod_eq_zero (List.mem_set (by simpa using this) 0)
                rw [h4]
                have h5 : (args.map (fun c t => vVal ev values x t c)).map (fun f => f t₀) =
                    args.map (vVal ev values x t₀) := by simp [Function.comp_def]
                rw [h5] at h3
                have h6 : ∀ t ∈ evDomain ev values x (.node (T.mul :: args)),
                    vVal ev values x t (.node (T.mul :: args)) =
                      ((args.map (fun c t => vVal ev values x t c)).map (fun f => f t)).prod := by
                  intro t ht
                  have := (vDom_node ht).2
                  rw [hr.product] at this
                  rw [← Except.ok.inj this]; simp [Function.comp_def]
                exact h3.congr h6 (h6 t₀ he)
              · -- the chain rule
                rename_i hnmul
                rw [ha] at hnadd
                rw [hmul] at hnmul
                cases hts : (T.nonzero ds).mapM (chainTerm p h args) with
                | error err => rw [hts] at hd; cases hd
                | ok ts =>
                  rw [hts] at hd
                  replace hd : sumOf p ts = d := by
                    simpa [bind, Except.bind] using hd
                  subst hd
                  rw [sumOf_total hm] at hdd ⊢
                  obtain ⟨h1, h2⟩ := total_value hr _ hdd
                  rw [h2]
                  classical
                  -- the instance of the rule for position `i`
                  let inst : ℕ → Expr := fun i =>
                    match p.diffRules.get? (h, i) with
                    | none => T.zero
                    | some f => match f.call args with
                      | .error _ => T.zero
                      | .ok g => g
                  have hterm : ∀ q ∈ T.nonzero ds, ∀ r, chainTerm p h args q = .ok r → r ∈ ts →
                      t₀ ∈ evDomain ev values x q.1 ∧
                      (∃ params rhs, T.IsRule h q.2 params rhs ∧ params.length = args.length ∧
                        ev.call rhs (some ((values.set x t₀).update
                          (params.zip (args.map (vVal ev values x t₀))))) =
                          .ok (vVal ev values x t₀ (inst q.2))) ∧
                      vVal ev values x t₀ r =
                        vVal ev values x t₀ (inst q.2) * vVal ev values x t₀ q.1 := by
                    intro q hq r hqr hrt
                    have hrd := h1 r hrt
                    obtain ⟨m1, m2, m3⟩ := made_rule hm h q.2
                    unfold chainTerm at hqr
                    cases hg : p.diffRules.get? (h, q.2) with
                    | none => rw [hg] at hqr; cases hqr
                    | some f =>
                      rw [hg] at hqr
                      simp only at hqr
                      cases hcall : f.call args with
                      | error err => rw [hcall] at hqr; cases hqr
                      | ok g =>
                        rw [hcall] at hqr
                        have hinst : inst q.2 = g := by simp only [inst, hg, hcall]
                        rw [hinst]
                        have hqr := Except.ok.inj hqr
                        rw [ho, hmul] at hqr
                        rcases m3 with ⟨params, rhs, hrule⟩ | hn
                        swap
                        · rw [m2 hn] at hg; cases hg
                        obtain ⟨f', hg', hf'⟩ := m1 params rhs hrule
                        rw [hg] at hg'; cases hg'
                        have hi := ((call_instance hf' args).1 g).1 hcall
                        have hgood : t₀ ∈ evDomain ev values x g ∧ t₀ ∈ evDomain ev values x q.1 ∧
                            vVal ev values x t₀ r =
                              vVal ev values x t₀ g * vVal ev values x t₀ q.1 := by
                          by_cases h1 : q.1 = T.one
                          · rw [if_pos h1] at hqr
                            subst hqr
                            refine ⟨hrd, by rw [h1]; exact ⟨_, hr.one t₀⟩, ?_⟩
                            rw [h1, vVal_eq (e := T.one) ((evAt_iff _ _ _).1 (hr.one t₀)), mul_one]
                          · rw [if_neg h1] at hqr
                            subst hqr
                            obtain ⟨n1, n2⟩ := vDom_node hrd
                            rw [hr.product] at n2
                            refine ⟨n1 _ (by simp), n1 _ (by simp), ?_⟩
                            rw [← Except.ok.inj n2]; simp
                        obtain ⟨g1, g2, g3⟩ := hgood
                        obtain ⟨i1, i2⟩ := instance_value hr hrule hi hargs g1
                        exact ⟨g2, ⟨params, rhs, hrule, i1, i2⟩, g3⟩
                  have hFt := (mapM_forall₂ _ _ _).1 hts
                  have hvals : ts.map (vVal ev values x t₀) = (T.nonzero ds).map (fun q =>
                      vVal ev values x t₀ (inst q.2) * vVal ev values x t₀ q.1) := by
                    have : ∀ (l : List (Expr × ℕ)) (rs : List Expr), (∀ q ∈ l, q ∈ T.nonzero ds) →
                        (∀ r ∈ rs, r ∈ ts) →
                        List.Forall₂ (fun q r => chainTerm p h args q = .ok r) l rs →
                        rs.map (vVal ev values x t₀) = l.map (fun q =>
                          vVal ev values x t₀ (inst q.2) * vVal ev values x t₀ q.1) := by
                      intro l rs h3 h4 h5
                      induction h5 with
                      | nil => rfl
                      | @cons q r l rs h6 _ ih5 =>
                        rw [List.map_cons, List.map_cons,
                          (hterm q (h3 q (by simp)) r h6 (h4 r (by simp))).2.2,
                          ih5 (fun q hq => h3 q (by simp [hq])) (fun r hr => h4 r (by simp [hr]))]
                    exact this _ _ (fun _ h => h) (fun _ h => h) hFt
                  rw [hvals]
                  have hq : ∀ q ∈ T.nonzero ds, t₀ ∈ evDomain ev values x q.1 ∧
                      (∃ params rhs, T.IsRule h q.2 params rhs ∧ params.length = args.length ∧
                        ev.call rhs (some ((values.set x t₀).update
                          (params.zip (args.map (vVal ev values x t₀))))) =
                          .ok (vVal ev values x t₀ (inst q.2))) := by
                    intro q hq
                    obtain ⟨r, hqr⟩ := mapM_ok_mem _ _ _ hts q hq
                    have hrt : r ∈ ts := by
                      obtain ⟨k, hk⟩ := List.getElem?_of_mem hq
                      obtain ⟨b, hb1, hb2⟩ := mapM_getElem? _ _ _ hts k q hk
                      rw [hqr] at hb2; cases hb2
                      exact List.mem_of_getElem? hb1
                    exact ⟨(hterm q hq r hqr hrt).1, (hterm q hq r hqr hrt).2.1⟩
                  have hmemnz : ∀ (i : ℕ) (hi : i < ds.length), ds[i] ≠ T.zero →
                      (ds[i], i) ∈ T.nonzero ds := by
                    intro i hi hne
                    rw [← varying_nonzero hm]
                    exact varying_of_mem p ds i _ (List.getElem?_eq_getElem hi) (by rw [hz]; exact hne)
                  have hev : ∀ dc ∈ ds, dc ≠ T.zero → t₀ ∈ evDomain ev values x dc := by
                    intro dc hdc hne
                    obtain ⟨i, hi, rfl⟩ := List.getElem_of_mem hdc
                    exact (hq _ (hmemnz i hi hne)).1
                  have hk := keyAt hev
                  -- positions that vary
                  let n := args.length
                  let J : Finset (Fin args.length) :=
                    Finset.univ.filter (fun i => (ds[i]'(by have := i.2; omega)) ≠ T.zero)
                  let w : Fin args.length → ℝ := fun i => vVal ev values x t₀ args[i]
                  let r : Fin args.length → ℝ := fun i => vVal ev values x t₀ (inst i)
                  let G : (Fin args.length → ℝ) → ℝ := fun u =>
                    match ev.evalOperation h (List.ofFn u) with
                    | .ok v => v
                    | .error _ => 0
                  have hG : ∀ u v, ev.evalOperation h (List.ofFn u) = .ok v → G u = v := by
                    intro u v hv; simp only [G, hv]
                  have hw : w ∈ opDomain ev h args.length :=
                    ⟨_, by rw [← hcurve t₀]; exact hop⟩
                  have hfd := hr.partials h (fun hd => hndist ((hdis h).2 hd)) hnadd hnmul args.length
                    w J r t₀ hw (by
                      intro j hj
                      have hj : (ds[j]'(by have := j.2; omega)) ≠ T.zero := by
                        simpa [J] using hj
                      obtain ⟨_, params, rhs, a1, a2, a3⟩ := hq _ (hmemnz j (by have := j.2; omega) hj)
                      refine ⟨params, rhs, a1, a2, ?_⟩
                      rw [hcurve t₀] at a3
                      exact a3) G hG
                  have hcd : HasDerivWithinAt (fun t (i : Fin args.length) =>
                      vVal ev values x t args[i])
                      (fun i : Fin args.length =>
                        vVal ev values x t₀ (ds[i]'(by have := i.2; omega)))
                      (evDomain ev values x (.node (h :: args))) t₀ :=
                    hasDerivWithinAt_pi.2 hk
                  have hmaps : Set.MapsTo (fun t (i : Fin args.length) => vVal ev values x t args[i])
                      (evDomain ev values x (.node (h :: args)))
                      {u | u ∈ opDomain ev h args.length ∧ ∀ i, i ∉ J → u i = w i} := by
                    intro t ht
                    refine ⟨⟨_, by rw [← hcurve t]; exact (vDom_node ht).2⟩, ?_⟩
                    intro i hi
                    have hi : (ds[i]'(by have := i.2; omega)) = T.zero := by
                      simpa [J] using hi
                    have hdi : deriv p x args[i] = .ok (ds[i]'(by have := i.2; omega)) := by
                      have := (List.forall₂_iff_get.1 hF).2 i i.2 (by have := i.2; omega)
                      exact this
                    have hocc : ¬ ArgSub args[i] x := by
                      intro hs
                      exact hnz _ _ hs hdi (by rw [hz]; exact hi)
                    show vVal ev values x t args[i] = vVal ev values x t₀ args[i]
                    unfold vVal; rw [vEval_const _ hocc t t₀]
                  have hcomp := hfd.comp_hasDerivWithinAt t₀ hcd hmaps
                  have hsum : ((T.nonzero ds).map (fun q : Expr × ℕ =>
                      vVal ev values x t₀ (inst q.2) * vVal ev values x t₀ q.1)).sum =
                      (∑ j ∈ J, r j • ContinuousLinearMap.proj (R := ℝ) (φ := fun _ => ℝ) j)
                        (fun i : Fin args.length =>
                          vVal ev values x t₀ (ds[i]'(by have := i.2; omega))) := by
                    unfold DiffTable.nonzero
                    rw [sum_filter_ite, zipIdx_map_ofFn, List.sum_ofFn]
                    simp only [sum_apply, J, Finset.sum_filter]
                    refine Fintype.sum_equiv (finCongr hlen) _ _ ?_
                    intro i
                    by_cases h0 : ds[(i : ℕ)] = T.zero
                    · simp [h0]
                    · simp [h0, r]
                  rw [hsum]
                  have hlast : ∀ t ∈ evDomain ev values x (.node (h :: args)),
                      vVal ev values x t (.node (h :: args)) =
                        (G ∘ fun t (i : Fin args.length) => vVal ev values x t args[i]) t := by
                    intro t ht
                    refine (hG _ _ ?_).symm
                    rw [← hcurve t]; exact (vDom_node ht).2
                  exact hcomp.congr hlast (hlast t₀ he)

/-- **C53.** Take any evaluator into the reals and any differentiator whose rules are right for it
(`RightRules`).  If `e.diff(x)` returns `d` and both `e` and `d` have a value at `x = t₀`, then the
value of `d` is the derivative there of the function that `e` denotes, within the set of points at
which `e` has a value. -/
theorem C53_right_rules (T : DiffTable) (p : DiffProps Val) (hm : Made T p)
    (ev : Evaluator PyM Val ℝ) (values : Dict Expr ℝ) (x : Expr) (hx : x.children = [])
    (hr : RightRules T ev values x) (e d : Expr) (hd : e.diff x 1 p = .ok d) (t₀ v v' : ℝ)
    (he : evAt ev values x e t₀ = .ok v) (hv' : evAt ev values x d t₀ = .ok v')
    (F : ℝ → ℝ) (hF : EvDenotes ev values x e F) :
    HasDerivWithinAt F v' (evDomain ev values x e) t₀ := by
  have h1 := deriv_rules hm hr hx t₀ e d ((diff_ok_iff _ _ _ _).1 hd) ⟨v, he⟩ ⟨v', hv'⟩
  rw [vVal_eq ((evAt_iff _ _ _).1 hv')] at h1
  have h2 : ∀ t ∈ evDomain ev values x e, F t = vVal ev values x t e := by
    rintro t ⟨w, hw⟩
    rw [vVal_eq ((evAt_iff _ _ _).1 hw)]
    exact hF t w hw
  exact h1.congr h2 (h2 t₀ ⟨v, he⟩)

/-! ### The built-in rules are right -/

theorem partials_one {n : ℕ} {D : Set (Fin n → ℝ)} {w : Fin n → ℝ} {J : Finset (Fin n)}
    {r : Fin n → ℝ} {G : (Fin n → ℝ) → ℝ} (i : Fin n) (hJ : ∀ j ∈ J, j = i)
    (h : i ∈ J → HasDerivWithinAt (fun a => G (Function.update w i a)) (r i)
      {a | Function.update w i a ∈ D} (w i)) :
    HasFDerivWithinAt G (∑ j ∈ J, r j • ContinuousLinearMap.proj (R := ℝ) (φ := fun _ => ℝ) j)
      {u | u ∈ D ∧ ∀ k, k ∉ J → u k = w k} w := by
  by_cases hi : i ∈ J
  · have hJi : J = {i} := by
      ext j; simp only [Finset.mem_singleton]
      exact ⟨hJ j, fun h => h ▸ hi⟩
    subst hJi
    rw [Finset.sum_singleton]
    have hu : ∀ u ∈ {u | u ∈ D ∧ ∀ k, k ∉ ({i} : Finset (Fin n)) → u k = w k},
        Function.update w i (u i) = u := by
      rintro u ⟨_, h2⟩
      funext k
      by_cases hk : k = i
      · subst hk; simp
      · rw [Function.update_of_ne hk]; exact (h2 k (by simpa using hk)).symm
    have h1 : HasFDerivWithinAt (fun u : Fin n → ℝ => u i) (ContinuousLinearMap.proj (R := ℝ) i)
        {u | u ∈ D ∧ ∀ k, k ∉ ({i} : Finset (Fin n)) → u k = w k} w :=
      (ContinuousLinearMap.proj (R := ℝ) (φ := fun _ : Fin n => ℝ) i).hasFDerivWithinAt
    have h2 := (h hi).comp_hasFDerivWithinAt w h1 (fun u hu' => by
      show Function.update w i (u i) ∈ D
      rw [hu u hu']; exact hu'.1)
    refine h2.congr (fun u hu' => ?_) ?_
    · show G u = G (Function.update w i (u i))
      rw [hu u hu']
    · show G w = G (Function.update w i (w i))
      rw [Function.update_eq_self]
  · have hJe : J = ∅ := by
      ext j; simp only [Finset.notMem_empty, iff_false]
      intro hj; exact hi (hJ j hj ▸ hj)
    subst hJe
    rw [Finset.sum_empty]
    refine (hasFDerivWithinAt_singleton G w).mono ?_
    rintro u ⟨_, h2⟩
    simp only [Set.mem_singleton_iff]
    funext k; exact h2 k (by simp)

theorem f64_evalOperation (A : FloatOps ℝ) : (evalF64 A).evalOperation = f64Op A := by
  rw [← f64_op A (fun _ => none), ← evalOperation_meaning (evalF64 A) (fun _ => none)]

theorem simplecas_rules {h : Expr} {i : ℕ} {params : List Expr} {rhs : Expr}
    (hr : simplecasTable.IsRule h i params rhs) :
    i = 0 ∧
    ((h = powH ∧ params = [wild "a", wild "b"] ∧
        rhs = mul (wild "b") (pow (wild "a") (add (wild "b") negone))) ∨
     (h = cosH ∧ params = [wild "a"] ∧ rhs = mul negone (sin (wild "a"))) ∨
     (h = sinH ∧ params = [wild "a"] ∧ rhs = cos (wild "a"))) := by
  obtain ⟨later, sym, earlier, h1, h2, _⟩ := hr
  have hmem : DiffCommand.rule (.node (h :: params)) sym rhs ∈ simplecasTable.told := by
    rw [h1]; simp
  simp only [simplecasTable, List.mem_cons, List.not_mem_nil, or_false, reduceCtorEq, false_or,
    DiffCommand.rule.injEq] at hmem
  rcases hmem with ⟨h3, rfl, rfl⟩ | ⟨h3, rfl, rfl⟩ | ⟨h3, rfl, rfl⟩
  · have h3 : (Tree.node (h :: params) : Expr) = .node [powH, wild "a", wild "b"] := h3
    simp only [Tree.node.injEq, List.cons.injEq] at h3
    obtain ⟨rfl, rfl⟩ := h3
    refine ⟨?_, .inl ⟨rfl, rfl, rfl⟩⟩
    match i, h2 with
    | 0, _ => rfl
    | 1, h2 => exact absurd h2 (by decide)
    | i + 2, h2 => cases h2
  · have h3 : (Tree.node (h :: params) : Expr) = .node [cosH, wild "a"] := h3
    simp only [Tree.node.injEq, List.cons.injEq] at h3
    obtain ⟨rfl, rfl⟩ := h3
    refine ⟨?_, .inr (.inl ⟨rfl, rfl, rfl⟩)⟩
    match i, h2 with
    | 0, _ => rfl
    | i + 1, h2 => cases h2
  · have h3 : (Tree.node (h :: params) : Expr) = .node [sinH, wild "a"] := h3
    simp only [Tree.node.injEq, List.cons.injEq] at h3
    obtain ⟨rfl, rfl⟩ := h3
    refine ⟨?_, .inr (.inr ⟨rfl, rfl, rfl⟩)⟩
    match i, h2 with
    | 0, _ => rfl
    | i + 1, h2 => cases h2

/-- The heads that occur in an expression in argument positions. -/
def headsOf : Expr → List Expr
  | .atom _ => []
  | .node [] => []
  | .node (h :: args) => h :: args.attach.flatMap (fun ⟨c, _⟩ => headsOf c)
termination_by e => sizeOf e
decreasing_by
  simp only [Tree.node.sizeOf_spec, List.cons.sizeOf_spec]
  have := List.sizeOf_lt_of_mem (by assumption : c ∈ args)
  omega

theorem mem_headsOf {e h : Expr} {args : List Expr} (hs : ArgSub e (.node (h :: args))) :
    h ∈ headsOf e := by
  generalize ht : (Tree.node (h :: args) : Expr) = t at hs
  unfold ArgSub at hs
  induction hs with
  | refl _ => subst ht; rw [headsOf]; simp
  | @down e c t _ hc _ ih =>
    cases e with
    | atom a => cases hc
    | node cs =>
      cases cs with
      | nil => cases hc
      | cons k as =>
        simp only [kids, Bool.false_eq_true, if_false] at hc
        rw [headsOf]
        simp only [List.mem_cons, List.mem_flatMap, List.mem_attach, true_and, Subtype.exists]
        exact .inr ⟨c, hc, ih ht⟩

theorem plain_of_atoms {T : DiffTable} {params : List Expr} {rhs : Expr} (h1 : rhs ∉ params)
    (h2 : rhs ≠ T.zero) (h3 : ∀ k ∈ params, k.children = [])
    (h4 : ∀ h ∈ headsOf rhs, h.children = [] ∧ h ∉ params) : PlainRule T params rhs where
  notParameter := h1
  notZero := h2
  atoms := h3
  notInHeads := by
    intro k hk h args hsub ho
    obtain ⟨h5, h6⟩ := h4 h (mem_headsOf hsub)
    cases ho with
    | refl => exact h6 hk
    | down _ hc _ =>
      rw [kids_true_eq, h5] at hc; cases hc

theorem arity1_ofFn {F : ℝ → PyM ℝ} {n : ℕ} {u : Fin n → ℝ} {v : ℝ}
    (h : arity1 F (List.ofFn u) = .ok v) : n = 1 := by
  have hl : (List.ofFn u).length = n := by simp
  unfold arity1 at h
  split at h
  · rename_i h1; rw [h1] at hl; simpa using hl.symm
  · cases h

theorem arity2_ofFn {F : ℝ → ℝ → PyM ℝ} {n : ℕ} {u : Fin n → ℝ} {v : ℝ}
    (h : arity2 F (List.ofFn u) = .ok v) : n = 2 := by
  have hl : (List.ofFn u).length = n := by simp
  unfold arity2 at h
  split at h
  · rename_i h1; rw [h1] at hl; simpa using hl.symm
  · cases h

/-- The built-in rules are right for `eval_f64` in exact arithmetic, however the integers other
than 0, 1 and -1 are rounded. -/
theorem builtin_right (ofInt : Int → PyM ℝ) (h0 : ofInt 0 = .ok 0) (h1 : ofInt 1 = .ok 1)
    (hm1 : ofInt (-1) = .ok (-1)) (values : Dict Expr ℝ) (hvals : SymbolValues values)
    (a : Atom Val) (ha : a.atomType ≠ Ty.integer) :
    RightRules simplecasTable (evalF64 { realOps with ofInt := ofInt }) values (.atom a) := by
  set ops : FloatOps ℝ := { realOps with ofInt := ofInt } with hops
  have hvar : ∀ n, (Tree.atom a : Expr) ≠ integer n := by
    intro n h; unfold Expr.integer at h; cases h; exact ha rfl
  have hint : ∀ n t v, ofInt n = .ok v →
      evAt (evalF64 ops) values (.atom a) (integer n) t = .ok v := by
    intro n t v hn
    rw [evAt_iff]
    unfold vEval
    rw [f64_integer]
    · exact hn
    · rw [Dict.get?_set, if_neg (hvar n), hvals.noInteger]
  have hop := f64_evalOperation ops
  constructor
  · rfl
  · intro t; exact hint 0 t 0 h0
  · intro t; exact hint 1 t 1 h1
  · intro vs; rw [hop]; rfl
  · intro vs; rw [hop]; rfl
  · intro h hd n
    have hl : h = listH := by
      simpa [DiffTable.Distributive, simplecasTable] using hd
    subst hl
    refine ⟨fun _ => 0, fun u v hv => ?_⟩
    rw [hop] at hv
    unfold f64Op at hv
    rw [if_neg (by decide), if_neg (by decide), if_neg (by decide), if_neg (by decide),
      if_neg (by decide)] at hv
    cases hv
  · intro h i params rhs hr
    obtain ⟨_, h1⟩ := simplecas_rules hr
    rcases h1 with ⟨rfl, rfl, rfl⟩ | ⟨rfl, rfl, rfl⟩ | ⟨rfl, rfl, rfl⟩ <;>
      exact plain_of_atoms (by decide) (by decide) (by decide) (by decide +kernel)
  · intro h hnd hna hnm n w J r t hw hJ G hG
    obtain ⟨v, hv⟩ := hw
    rw [hop] at hv hG
    have hD : opDomain (evalF64 ops) h n = {u | ∃ v, f64Op ops h (List.ofFn u) = .ok v} := by
      unfold opDomain; rw [hop]
    rw [hD]
    have hna : h ≠ addH := hna
    have hnm : h ≠ mulH := hnm
    -- what the rules evaluate to
    have hnone : ∀ (ps : List (Expr × ℝ)), (∀ q ∈ ps, q.1 = wild "a" ∨ q.1 = wild "b") →
        ∀ n, ((values.set (.atom a) t).update ps).get? (integer n) = none := by
      intro ps hps n
      rw [Dict.get?_update]
      have : lastAssoc (integer n) ps = none := by
        rw [lastAssoc_eq_none_iff]
        intro hmem
        obtain ⟨q, hq, he⟩ := List.mem_map.1 hmem
        rcases hps q hq with h | h <;> rw [he] at h <;> cases h
      rw [this, Dict.get?_set, if_neg (hvar n), hvals.noInteger]; rfl
    have hwild : ∀ (env : Expr → Option ℝ) (s : String) (u : ℝ), env (wild s) = some u →
        evalTree (meaning (evalF64 ops) env) (wild s) = .ok u := by
      intro env s u hs
      rw [evalTree_leaf _ rfl]
      simp only [meaning, hs]; rfl
    have hneg : ∀ ps : List (Expr × ℝ), (∀ q ∈ ps, q.1 = wild "a" ∨ q.1 = wild "b") →
        evalTree (meaning (evalF64 ops) ((values.set (.atom a) t).update ps).get?) negone =
          .ok (-1) := by
      intro ps hps
      have := f64_integer ops _ (-1) (hnone ps hps (-1))
      refine this.trans ?_
      exact hm1
    by_cases hs : h = sinH
    · subst hs
      have hv' : arity1 ops.sin (List.ofFn w) = .ok v := hv
      obtain rfl := arity1_ofFn hv'
      refine partials_one 0 (fun j _ => Subsingleton.elim _ _) (fun h0 => ?_)
      obtain ⟨params, rhs, hr, hlen, hval⟩ := hJ 0 h0
      obtain ⟨_, h1⟩ := simplecas_rules hr
      rcases h1 with ⟨h1, _⟩ | ⟨h1, _⟩ | ⟨_, rfl, rfl⟩
      · exact absurd h1 (by decide)
      · exact absurd h1 (by decide)
      have hval' : r 0 = Real.cos (w 0) := by
        have := (evalForward_ok_iff _ _ _ _).1 hval
        rw [show (cos (wild "a") : Expr) = .node [cosH, wild "a"] from rfl, f64_node,
          List.mapM_cons, hwild _ "a" (w 0) (by
            rw [Dict.get?_update]
            simp [List.ofFn_succ, lastAssoc])] at this
        exact (Except.ok.inj this).symm
      rw [hval']
      have hGv : ∀ b, G (Function.update w 0 b) = Real.sin b := by
        intro b
        apply hG
        simp [List.ofFn_succ]
        rfl
      simp only [hGv]
      exact (Real.hasDerivAt_sin (w 0)).hasDerivWithinAt
    by_cases hc : h = cosH
    · subst hc
      have hv' : arity1 ops.cos (List.ofFn w) = .ok v := hv
      obtain rfl := arity1_ofFn hv'
      refine partials_one 0 (fun j _ => Subsingleton.elim _ _) (fun h0 => ?_)
      obtain ⟨params, rhs, hr, hlen, hval⟩ := hJ 0 h0
      obtain ⟨_, h1⟩ := simplecas_rules hr
      rcases h1 with ⟨h1, _⟩ | ⟨_, rfl, rfl⟩ | ⟨h1, _⟩
      · exact absurd h1 (by decide)
      swap
      · exact absurd h1 (by decide)
      have hval' : r 0 = -Real.sin (w 0) := by
        have := (evalForward_ok_iff _ _ _ _).1 hval
        have h2 : evalTree (meaning (evalF64 ops) ((values.set (.atom a) t).update
            ([wild "a"].zip (List.ofFn w))).get?) (sin (wild "a")) = .ok (Real.sin (w 0)) := by
          rw [show (sin (wild "a") : Expr) = .node [sinH, wild "a"] from rfl, f64_node,
            List.mapM_cons, hwild _ "a" (w 0) (by
              rw [Dict.get?_update]
              simp [List.ofFn_succ, lastAssoc])]
          rfl
        rw [show (mul negone (sin (wild "a")) : Expr) = .node [mulH, negone, sin (wild "a")] from rfl,
          f64_node, List.mapM_cons, hneg _ (by simp [List.ofFn_succ]), List.mapM_cons, h2] at this
        rw [← Except.ok.inj this]; simp
      rw [hval']
      have hGv : ∀ b, G (Function.update w 0 b) = Real.cos b := by
        intro b
        apply hG
        simp [List.ofFn_succ]
        rfl
      simp only [hGv]
      exact (Real.hasDerivAt_cos (w 0)).hasDerivWithinAt
    by_cases hp : h = powH
    · subst hp
      have hv' : arity2 ops.pow (List.ofFn w) = .ok v := hv
      obtain rfl := arity2_ofFn hv'
      have hrule : ∀ j ∈ J, j = 0 := by
        intro j hj
        obtain ⟨params, rhs, hr, hlen, hval⟩ := hJ j hj
        have := (simplecas_rules hr).1
        exact Fin.ext this
      refine partials_one 0 hrule (fun h0 => ?_)
      obtain ⟨params, rhs, hr, hlen, hval⟩ := hJ 0 h0
      obtain ⟨_, h1⟩ := simplecas_rules hr
      rcases h1 with ⟨_, rfl, rfl⟩ | ⟨h1, _⟩ | ⟨h1, _⟩
      swap
      · exact absurd h1 (by decide)
      swap
      · exact absurd h1 (by decide)
      have hval' : PowDefined (w 0) (w 1 - 1) ∧ r 0 = w 1 * (w 0) ^ (w 1 - 1) := by
        have := (evalForward_ok_iff _ _ _ _).1 hval
        have ea := hwild (((values.set (.atom a) t).update
            ([wild "a", wild "b"].zip (List.ofFn w))).get?) "a" (w 0) (by
              rw [Dict.get?_update]
              simp [List.ofFn_succ, lastAssoc, show (wild "b" : Expr) ≠ wild "a" by decide])
        have eb := hwild (((values.set (.atom a) t).update
            ([wild "a", wild "b"].zip (List.ofFn w))).get?) "b" (w 1) (by
              rw [Dict.get?_update]
              simp [List.ofFn_succ, lastAssoc])
        have es : evalTree (meaning (evalF64 ops) ((values.set (.atom a) t).update
            ([wild "a", wild "b"].zip (List.ofFn w))).get?) (add (wild "b") negone) =
            .ok (w 1 - 1) := by
          rw [show (add (wild "b") negone : Expr) = .node [addH, wild "b", negone] from rfl,
            f64_node, List.mapM_cons, eb, List.mapM_cons, hneg _ (by simp [List.ofFn_succ])]
          show Except.ok ([w 1, -1].sum) = _
          congr 1
          simp; ring
        rw [show (mul (wild "b") (pow (wild "a") (add (wild "b") negone)) : Expr) =
          .node [mulH, wild "b", .node [powH, wild "a", add (wild "b") negone]] from rfl,
          f64_node, List.mapM_cons, eb, List.mapM_cons, f64_node, List.mapM_cons, ea,
          List.mapM_cons, es] at this
        by_cases hdef : PowDefined (w 0) (w 1 - 1)
        · refine ⟨hdef, ?_⟩
          have hpw : f64Op ops powH [w 0, w 1 - 1] = .ok ((w 0) ^ (w 1 - 1)) := by
            show ops.pow (w 0) (w 1 - 1) = _
            simp only [ops, realOps]; rw [if_pos hdef]
          simp only [List.mapM_nil, bind, Except.bind, pure, Except.pure, hpw] at this
          have h3 : f64Op ops mulH [w 1, (w 0) ^ (w 1 - 1)] =
            .ok ([w 1, (w 0) ^ (w 1 - 1)].prod) := rfl
          rw [h3] at this
          rw [← Except.ok.inj this]; simp
        · have hpw : f64Op ops powH [w 0, w 1 - 1] = .error .valueError := by
            show ops.pow (w 0) (w 1 - 1) = _
            simp only [ops, realOps]; rw [if_neg hdef]
          simp only [List.mapM_nil, bind, Except.bind, pure, Except.pure, hpw] at this
          cases this
      obtain ⟨hdef, hval'⟩ := hval'
      rw [hval']
      have hside : w 0 ≠ 0 ∨ 1 ≤ w 1 := by
        by_cases h0 : w 0 = 0
        · right; have := hdef.1 h0; linarith
        · exact .inl h0
      have hGv : ∀ b ∈ {b | Function.update w 0 b ∈
          {u : Fin 2 → ℝ | ∃ v, f64Op ops powH (List.ofFn u) = .ok v}},
          G (Function.update w 0 b) = b ^ (w 1) := by
        rintro b ⟨v, hv⟩
        rw [hG _ _ hv]
        have : List.ofFn (Function.update w 0 b) = [b, w 1] := by
          simp [List.ofFn_succ]
        rw [this] at hv
        have hv : ops.pow b (w 1) = .ok v := hv
        simp only [ops, realOps] at hv
        split at hv
        · exact (Except.ok.inj hv).symm
        · cases hv
      refine ((Real.hasDerivAt_rpow_const hside).hasDerivWithinAt).congr hGv (hGv (w 0) ?_)
      show Function.update w 0 (w 0) ∈
        {u : Fin 2 → ℝ | ∃ v, f64Op ops powH (List.ofFn u) = .ok v}
      rw [Function.update_eq_self]
      exact ⟨v, hv⟩
    · unfold f64Op at hv
      rw [if_neg hna, if_neg hnm, if_neg hp, if_neg hs, if_neg hc] at hv
      cases hv

/-- The built-in rules are right for `eval_f64` in exact arithmetic. -/
theorem C53_builtin (values : Dict Expr ℝ) (hvals : SymbolValues values) (a : Atom Val)
    (ha : a.atomType ≠ Ty.integer) :
    Made simplecasTable builtinDiff ∧
    RightRules simplecasTable (evalF64 realOps) values (.atom a) := by
  exact ⟨C52_builtin, builtin_right realOps.ofInt (by simp [realOps]) (by simp [realOps])
    (by simp [realOps]) values hvals a ha⟩

/-! ### New functions -/

theorem isRule_old {T : DiffTable} {h k : Expr} {new : List DiffCommand} (hnew : RulesFor h new)
    (hk : k ≠ h) {i : ℕ} {params : List Expr} {rhs : Expr}
    (hr : DiffTable.IsRule { T with told := new ++ T.told } k i params rhs) :
    T.IsRule k i params rhs := by
  obtain ⟨later, sym, earlier, h1, h2, h3⟩ := hr
  simp only at h1
  rcases List.append_eq_append_iff.1 h1 with ⟨l, h4, h5⟩ | ⟨l, h4, h5⟩
  · refine ⟨l, sym, earlier, h5, h2, fun ps s r hmem => h3 ps s r ?_⟩
    rw [h4]; simp [hmem]
  · cases l with
    | nil => exact ⟨[], sym, earlier, h5.symm, h2, by simp⟩
    | cons c l =>
      simp only [List.cons_append, List.cons.injEq] at h5
      obtain ⟨ps, s, r, hc⟩ := hnew c (by rw [h4]; simp)
      rw [hc] at h5
      simp only [DiffCommand.rule.injEq, Tree.node.injEq, List.cons.injEq] at h5
      exact absurd h5.1.1.1 hk

/-- **C53, new functions.** Teaching a right evaluator and a right differentiator a new function
`h` keeps them right, provided that the rules for `h` give its partial derivatives. -/
theorem C53_new_function (T : DiffTable) (ev ev' : Evaluator PyM Val ℝ) (values : Dict Expr ℝ)
    (x h : Expr) (hr : RightRules T ev values x) (F : List ℝ → PyM ℝ)
    (hev : ev' = ev.addOp1 h F ∨ ev' = ev.addOp2 h F ∨ ev' = ev.addOpN h F)
    (hadd : h ≠ T.add) (hmul : h ≠ T.mul) (hdist : ¬ T.Distributive h)
    (hfresh1 : ∀ args, ¬ ArgSub T.one (.node (h :: args)))
    (hfresh : ∀ k i params rhs, T.IsRule k i params rhs →
      k ≠ h ∧ ∀ args, ¬ ArgSub rhs (.node (h :: args)))
    (new : List DiffCommand) (hnew : RulesFor h new)
    (hplain : ∀ params sym rhs, .rule (.node (h :: params)) sym rhs ∈ new → PlainRule T params rhs)
    (hpart : ∀ (n : ℕ) (w : Fin n → ℝ) (J : Finset (Fin n)) (r : Fin n → ℝ) (t : ℝ),
      (∃ v, F (List.ofFn w) = .ok v) →
      (∀ j ∈ J, RuleValue { T with told := new ++ T.told } ev' values x t h w j (r j)) →
      ∀ G : (Fin n → ℝ) → ℝ, (∀ u v, F (List.ofFn u) = .ok v → G u = v) →
        HasFDerivWithinAt G (∑ j ∈ J, r j • ContinuousLinearMap.proj (R := ℝ) (φ := fun _ => ℝ) j)
          {u | (∃ v, F (List.ofFn u) = .ok v) ∧ ∀ i, i ∉ J → u i = w i} w) :
    RightRules { T with told := new ++ T.told } ev' values x := by
  -- the evaluators agree on everything but `h`
  have hop : ∀ k, k ≠ h → ev'.evalOperation k = ev.evalOperation k := by
    intro k hk
    funext vs
    unfold Evaluator.evalOperation
    obtain ⟨_, c1, c2, c3, _⟩ := C17_adding_rules ev Ty.integer h (fun _ => .ok 0) F
      (fun _ => .ok 0) (fun _ _ => .ok 0)
    rcases hev with rfl | rfl | rfl
    · rw [c1, if_neg (Ne.symm hk)]; rfl
    · rw [c2, if_neg (Ne.symm hk)]; rfl
    · rw [c3, if_neg (Ne.symm hk)]; rfl
  have hoph : ev'.evalOperation h = F := by
    funext vs
    unfold Evaluator.evalOperation
    obtain ⟨_, c1, c2, c3, _⟩ := C17_adding_rules ev Ty.integer h (fun _ => .ok 0) F
      (fun _ => .ok 0) (fun _ _ => .ok 0)
    rcases hev with rfl | rfl | rfl
    · rw [c1, if_pos rfl]
    · rw [c2, if_pos rfl]
    · rw [c3, if_pos rfl]
  have hcall : ∀ (e : Expr) (vals : Dict Expr ℝ), (∀ args, ¬ ArgSub e (.node (h :: args))) →
      ev'.call e (some vals) = ev.call e (some vals) := by
    intro e vals he
    obtain ⟨_, c1, c2, c3, _⟩ := C17_adding_rules ev Ty.integer h (fun _ => .ok 0) F
      (fun _ => .ok 0) (fun _ _ => .ok 0)
    have hne : ∀ k args, ArgSub e (.node (k :: args)) → h ≠ k := by
      rintro k args hs rfl; exact he args hs
    rcases hev with rfl | rfl | rfl
    · exact C17_depends_only_on_occurring _ _ e vals vals rfl rfl (fun _ _ => rfl)
        (fun _ _ _ => rfl) (fun k args hs => by rw [c1, if_neg (hne k args hs)])
    · exact C17_depends_only_on_occurring _ _ e vals vals rfl rfl (fun _ _ => rfl)
        (fun _ _ _ => rfl) (fun k args hs => by rw [c2, if_neg (hne k args hs)])
    · exact C17_depends_only_on_occurring _ _ e vals vals rfl rfl (fun _ _ => rfl)
        (fun _ _ _ => rfl) (fun k args hs => by rw [c3, if_neg (hne k args hs)])
  have hdist' : ∀ k, DiffTable.Distributive { T with told := new ++ T.told } k →
      T.Distributive k := by
    intro k hk
    unfold DiffTable.Distributive at hk ⊢
    rcases List.mem_append.1 hk with hk | hk
    · obtain ⟨_, _, _, hc⟩ := hnew _ hk; cases hc
    · exact hk
  refine ⟨hr.zeroAtom, ?_, ?_, ?_, ?_, ?_, ?_, ?_⟩
  · intro t
    refine (hcall T.zero _ ?_).trans (hr.zero t)
    intro args hs
    have hz := hr.zeroAtom
    generalize ht : (Tree.node (h :: args) : Expr) = t at hs
    cases hs with
    | refl => rw [← ht] at hz; cases hz
    | down _ hc _ =>
      cases hT : T.zero with
      | atom a => rw [hT] at hc; cases hc
      | node cs =>
        rw [hT] at hc hz
        cases cs with
        | nil => cases hc
        | cons => cases hz
  · intro t; exact (hcall T.one _ hfresh1).trans (hr.one t)
  · intro vs; rw [hop _ (Ne.symm hadd)]; exact hr.sum vs
  · intro vs; rw [hop _ (Ne.symm hmul)]; exact hr.product vs
  · intro k hk n
    have hk := hdist' k hk
    have hkh : k ≠ h := by rintro rfl; exact hdist hk
    obtain ⟨c, hc⟩ := hr.linear k hk n
    refine ⟨c, fun u v hv => hc u v ?_⟩
    rw [hop k hkh] at hv; exact hv
  · intro k i params rhs hrule
    by_cases hk : k = h
    · subst hk
      obtain ⟨later, sym, earlier, h1, h2, h3⟩ := hrule
      have hmem : DiffCommand.rule (.node (k :: params)) sym rhs ∈ new ++ T.told := by
        have h1 : new ++ T.told = _ := h1
        rw [h1]; simp
      rcases List.mem_append.1 hmem with hmem | hmem
      · obtain ⟨p1, p2, p3, p4⟩ := hplain params sym rhs hmem
        exact ⟨p1, p2, p3, p4⟩
      · -- an old rule for the new function
        exfalso
        obtain ⟨ps, r, hold⟩ : ∃ ps r, T.IsRule k i ps r := by
          -- the latest old rule for this position
          have key : ∀ l : List DiffCommand, (.rule (.node (k :: params)) sym rhs) ∈ l →
              ∃ ps s r a b, l = a ++ .rule (.node (k :: ps)) s r :: b ∧ ps[i]? = some s ∧
                ∀ ps' s' r', .rule (.node (k :: ps')) s' r' ∈ a → ps'[i]? ≠ some s' := by
            intro l
            induction l with
            | nil => intro h; cases h
            | cons c l ihl =>
              intro hmem
              by_cases hc : ∃ ps s r, c = .rule (.node (k :: ps)) s r ∧ ps[i]? = some s
              · obtain ⟨ps, s, r, rfl, hs⟩ := hc
                exact ⟨ps, s, r, [], l, rfl, hs, by simp⟩
              · have hl : (.rule (.node (k :: params)) sym rhs) ∈ l := by
                  rcases List.mem_cons.1 hmem with rfl | hl
                  · exact absurd ⟨params, sym, rhs, rfl, h2⟩ hc
                  · exact hl
                obtain ⟨ps, s, r, a, b, e1, e2, e3⟩ := ihl hl
                refine ⟨ps, s, r, c :: a, b, by rw [e1]; rfl, e2, ?_⟩
                intro ps' s' r' hm hs'
                rcases List.mem_cons.1 hm with rfl | hm
                · exact hc ⟨ps', s', r', rfl, hs'⟩
                · exact e3 ps' s' r' hm hs'
          obtain ⟨ps, s, r, a, b, e1, e2, e3⟩ := key _ hmem
          exact ⟨ps, r, a, s, b, e1, e2, e3⟩
        exact (hfresh k i ps r hold).1 rfl
    · obtain ⟨p1, p2, p3, p4⟩ := hr.plain k i params rhs (isRule_old hnew hk hrule)
      exact ⟨p1, p2, p3, p4⟩
  · intro k hnd hna hnm n w J r t hw hJ G hG
    by_cases hk : k = h
    · subst hk
      unfold opDomain at hw ⊢
      rw [hoph] at hw hG ⊢
      exact hpart n w J r t hw hJ G hG
    · unfold opDomain at hw ⊢
      rw [hop k hk] at hw hG ⊢
      refine hr.partials k (fun hd => hnd ?_) hna hnm n w J r t hw ?_ G hG
      · unfold DiffTable.Distributive at hd ⊢
        exact List.mem_append.2 (.inr hd)
      · intro j hj
        obtain ⟨params, rhs, hrule, hlen, hval⟩ := hJ j hj
        have hold := isRule_old hnew hk hrule
        refine ⟨params, rhs, hold, hlen, ?_⟩
        rw [← hcall rhs _ (hfresh k j params rhs hold).2]
        exact hval

/-- **C53, functions of one argument.** Adding `h` with `add_op1` (the function `φ`) and the rule
`diff[h(a), a] = rhs` keeps everything right if `rhs` has the value `φ'(u)` where `a` is `u`. -/
theorem C53_unary (T : DiffTable) (ev : Evaluator PyM Val ℝ) (values : Dict Expr ℝ)
    (x h a rhs : Expr) (hr : RightRules T ev values x) (φ : ℝ → ℝ)
    (hadd : h ≠ T.add) (hmul : h ≠ T.mul) (hdist : ¬ T.Distributive h)
    (hfresh1 : ∀ args, ¬ ArgSub T.one (.node (h :: args)))
    (hfresh : ∀ k i params rhs, T.IsRule k i params rhs →
      k ≠ h ∧ ∀ args, ¬ ArgSub rhs (.node (h :: args)))
    (hplain : PlainRule T [a] rhs)
    (hder : ∀ t u r, (ev.addOp1 h (arity1 fun u => .ok (φ u))).call rhs
      (some ((values.set x t).set a u)) = .ok r → HasDerivAt φ r u) :
    RightRules { T with told := .rule (h.call [a]) a rhs :: T.told }
      (ev.addOp1 h (arity1 fun u => .ok (φ u))) values x := by
  refine C53_new_function T ev _ values x h hr (arity1 fun u => .ok (φ u)) (.inl rfl) hadd hmul
    hdist hfresh1 hfresh [.rule (h.call [a]) a rhs] ?_ ?_ ?_
  · intro c hc
    simp only [List.mem_singleton] at hc
    exact ⟨[a], a, rhs, hc⟩
  · intro params sym rhs' hmem
    simp only [List.mem_singleton, DiffCommand.rule.injEq, Tree.call, Tree.node.injEq,
      List.cons.injEq, true_and] at hmem
    obtain ⟨rfl, rfl, rfl⟩ := hmem
    exact hplain
  · intro n w J r t hw hJ G hG
    obtain ⟨v, hv⟩ := hw
    obtain rfl := arity1_ofFn hv
    refine partials_one (D := {u | ∃ v, arity1 (fun u => (.ok (φ u) : PyM ℝ)) (List.ofFn u) = .ok v})
      0 (fun j _ => Subsingleton.elim _ _) (fun h0 => ?_)
    obtain ⟨params, rhs', hrule, hlen, hval⟩ := hJ 0 h0
    have hmem : DiffCommand.rule (.node (h :: params)) a rhs' = .rule (h.call [a]) a rhs := by
      obtain ⟨later, sym, earlier, h1, h2, h3⟩ := hrule
      cases later with
      | nil =>
        have h1 := (List.cons.inj h1).1
        simp only [DiffCommand.rule.injEq, Tree.call, Tree.node.injEq, List.cons.injEq,
          true_and] at h1 ⊢
        exact ⟨h1.1.symm, h1.2.2.symm⟩
      | cons c later =>
        have h1 := (List.cons.inj h1).1
        exact absurd rfl (h3 [a] a rhs (by rw [← h1]; simp [Tree.call]))
    simp only [DiffCommand.rule.injEq, Tree.call, Tree.node.injEq, List.cons.injEq, true_and] at hmem
    obtain ⟨rfl, rfl⟩ := hmem
    have hd := hder t (w 0) (r 0) (by
      simpa [List.ofFn_succ, Dict.update] using hval)
    have hGv : ∀ b, G (Function.update w 0 b) = φ b := by
      intro b
      apply hG
      simp [List.ofFn_succ, arity1]
    simp only [hGv]
    exact hd.hasDerivWithinAt

end RightRulesProofs

/-- `exp`, an undefined function of simplecas. -/
def expH : Expr := function "exp"

/-- `eval_f64` with `exp` added. -/
noncomputable def expEv : Evaluator PyM Val ℝ :=
  (evalF64 realOps).addOp1 expH (arity1 fun u => .ok (Real.exp u))

/-- `diff[exp(a), a] = exp(a)` -/
def expTable : DiffTable :=
  { simplecasTable with told := .rule (expH.call [wild "a"]) (wild "a") (expH.call [wild "a"]) ::
      simplecasTable.told }

/-- Beside the built-in functions (`C53_builtin`) the hypotheses hold with `exp` added:
`exp(sin(x))` has the derivative `exp(sin(x))*cos(x)`. -/
example : ∃ p, Made expTable p ∧
    SymDifferentiator.setItem builtinDiff (expH.call [wild "a"]) (wild "a") (expH.call [wild "a"]) =
      .ok p ∧
    RightRules expTable expEv Dict.empty x ∧
    Expr.diff (expH.call [sin x]) x 1 p = .ok (mul (expH.call [sin x]) (cos x)) ∧
    (∀ t, evAt expEv Dict.empty x (expH.call [sin x]) t = .ok (Real.exp (Real.sin t))) ∧
    (∀ t, evAt expEv Dict.empty x (mul (expH.call [sin x]) (cos x)) t =
      .ok ([Real.exp (Real.sin t), Real.cos t].prod)) := by
  obtain ⟨f, hf1, hf2⟩ := setItem_accepts builtinDiff expH (wild "a") (expH.call [wild "a"])
    [wild "a"] (by decide)
  refine ⟨_, .rule C52_builtin hf2, hf2, ?_, ?_, ?_, ?_⟩
  · refine C53_unary simplecasTable (evalF64 realOps) Dict.empty x expH (wild "a") _
      (C53_builtin Dict.empty ⟨(by simp [Dict.keys, Dict.empty]), fun _ => rfl⟩
        ⟨Ty.symbol, .str "x"⟩ (by decide)).2 Real.exp (by decide) (by decide) ?_ ?_ ?_ ?_ ?_
    · simp only [DiffTable.Distributive, simplecasTable, List.mem_cons, List.not_mem_nil, or_false,
        DiffCommand.distributive.injEq, reduceCtorEq]
      decide
    · intro args hs
      exact absurd (mem_headsOf hs) (by decide +kernel)
    · intro k i params rhs hrule
      obtain ⟨_, h1⟩ := simplecas_rules hrule
      rcases h1 with ⟨rfl, rfl, rfl⟩ | ⟨rfl, rfl, rfl⟩ | ⟨rfl, rfl, rfl⟩ <;>
        exact ⟨by decide, fun args hs => absurd (mem_headsOf hs) (by decide +kernel)⟩
    · exact plain_of_atoms (by decide) (by decide) (by decide) (by decide +kernel)
    · intro t u r hval
      have h1 := (evalForward_ok_iff _ _ _ _).1 hval
      have h2 : r = Real.exp u := (Except.ok.inj h1).symm
      rw [h2]
      exact Real.hasDerivAt_exp u
  · have : ((SymDifferentiator.setItem builtinDiff (expH.call [wild "a"]) (wild "a")
        (expH.call [wild "a"])).bind fun p' => Expr.diff (expH.call [sin x]) x 1 p') =
        .ok (mul (expH.call [sin x]) (cos x)) := by decide +kernel
    rw [show (expH.call [wild "a"] : Expr) = .node (expH :: [wild "a"]) from rfl] at this hf2
    rw [hf2] at this
    exact this
  · intro t; rw [evAt_iff]; rfl
  · intro t; rw [evAt_iff]; rfl

/-- **C53, refutation** without the condition that no right-hand side is a pattern argument (the
defect of C11 again): let `f(a, b)` be `a*b` and give the right rule `diff[f(a, b), b] = a`.  The
derivative of `f(3, x)` comes out as `x` instead of `3`. -/
theorem C53_rule_is_parameter_false :
    let ev : Evaluator PyM Val ℝ := (evalF64 realOps).addOp2 f (arity2 fun u v => .ok (u * v))
    (∀ u v : ℝ, HasDerivAt (fun v => u * v) u v) ∧
    ((SymDifferentiator.setItem builtinDiff (f.call [wild "a", wild "b"]) (wild "b")
        (wild "a")).bind fun p' => Expr.diff (f.call [integer 3, x]) x 1 p') = .ok x ∧
    (∀ t, evAt ev Dict.empty x (f.call [integer 3, x]) t = .ok (3 * t)) ∧
    evAt ev Dict.empty x x 5 = .ok 5 ∧
    ¬ HasDerivAt (fun t : ℝ => 3 * t) 5 5 := by
  intro ev
  refine ⟨fun u v => ?_, by decide +kernel, fun t => ?_, ?_, fun h => ?_⟩
  · simpa using (hasDerivAt_id v).const_mul u
  · rw [evAt_iff]
    have : vEval ev Dict.empty x t (f.call [integer 3, x]) = .ok (((3 : ℤ) : ℝ) * t) := rfl
    rw [this]; norm_num
  · rw [evAt_iff]; rfl
  · have h2 : HasDerivAt (fun t : ℝ => 3 * t) 3 5 := by
      simpa using (hasDerivAt_id (5 : ℝ)).const_mul (3 : ℝ)
    have := h.unique h2
    norm_num at this

end Verif.Props
