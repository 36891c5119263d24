import Mathlib.Analysis.Calculus.IteratedDeriv.Defs
import Verif.Lemmas.RealDiff

/-!
# C22 and C25: `diff` computes the mathematical derivative
-/

set_option linter.unusedSectionVars false

namespace Verif.Props
open Spec Expr

theorem term_value {values : Dict Expr ℝ} {x : Expr} (hs : RealSetting values x) {t : ℝ}
    {g da : Expr} (h : t ∈ rDom values x (if da = one then g else .node [mulH, g, da])) :
    t ∈ rDom values x g ∧ t ∈ rDom values x da ∧
      rVal values x t (if da = one then g else .node [mulH, g, da]) =
        rVal values x t g * rVal values x t da := by
  by_cases h1 : da = one
  · subst h1
    rw [if_pos rfl] at h ⊢
    have := hs.integer t 1
    refine ⟨h, ⟨_, this⟩, ?_⟩
    rw [rVal_eq (e := one) this]; simp
  · rw [if_neg h1] at h ⊢
    obtain ⟨h2, h3⟩ := dom_node h
    refine ⟨h2 g (by simp), h2 da (by simp), ?_⟩
    have h4 : f64Op realOps mulH ([g, da].map (rVal values x t)) =
        .ok ([g, da].map (rVal values x t)).prod := rfl
    rw [h4] at h3
    simp only [Except.ok.injEq] at h3
    rw [← h3]; simp

theorem builtin_fields : builtinDiff.zero = zero ∧ builtinDiff.one = one ∧
    builtinDiff.add = addH ∧ builtinDiff.mul = mulH ∧ builtinDiff.distributive = [listH] := by
  obtain ⟨_, _, _, _, _, _, _, hb⟩ := builtinDiff_eq
  rw [hb]; exact ⟨rfl, rfl, rfl, rfl, rfl⟩

theorem dom_no_list {values : Dict Expr ℝ} {x e : Expr} {t : ℝ} (h : t ∈ rDom values x e)
    {hd : Expr} {args : List Expr} (hsub : ArgSub e (.node (hd :: args))) : hd ≠ listH := by
  rintro rfl
  obtain ⟨v, hv⟩ := evalTree_ok_sub _ hsub h
  obtain ⟨_, h2⟩ := dom_node (values := values) (x := x) (t := t) ⟨v, hv⟩
  unfold f64Op at h2
  rw [if_neg (by decide), if_neg (by decide), if_neg (by decide), if_neg (by decide),
    if_neg (by decide)] at h2
  cases h2

/-- Constant expressions. -/
theorem deriv_real_const {values : Dict Expr ℝ} {x : Expr} (t₀ : ℝ)
    (e d : Expr) (hx : ¬ ArgSub e x) (hd : deriv builtinDiff x e = .ok d)
    (he : t₀ ∈ rDom values x e) :
    d = zero ∧ HasDerivWithinAt (fun t => rVal values x t e) 0 (rDom values x e) t₀ := by
  obtain ⟨hz, ho, ha, hm, hdis⟩ := builtin_fields
  have h1 := deriv_zero builtinDiff x e (fun _ => hx) (fun h args hsub => by
    rw [hdis]; simpa using dom_no_list he hsub)
  rw [hd, hz] at h1
  refine ⟨by simpa using h1, ?_⟩
  have : (fun t => rVal values x t e) = fun _ => rVal values x t₀ e := by
    funext t; unfold rVal; rw [rEval_const e hx t t₀]
  rw [this]
  exact hasDerivWithinAt_const _ _ _

theorem nonzero_of_occurs {x e d : Expr} (hx : x.children = []) (hs : ArgSub e x)
    (hd : deriv builtinDiff x e = .ok d) : d ≠ zero := by
  obtain ⟨hz, ho, _⟩ := builtin_fields
  have := deriv_nonzero builtinDiff x hx (by rw [hz]; rfl) (by rw [hz, ho]; decide)
    builtin_ruleNonzero e d hs hd
  rwa [hz] at this

theorem varying_one {p : DiffProps Val} (d : Expr) : varying p [d] =
    if d = p.zero then [] else [(d, 0)] := by
  unfold varying
  by_cases h : d = p.zero <;> simp [h]

theorem deriv_real {values : Dict Expr ℝ} {x : Expr} (hs : RealSetting values x) (t₀ : ℝ)
    (e : Expr) : ∀ d, deriv builtinDiff x e = .ok d → t₀ ∈ rDom values x e →
    t₀ ∈ rDom values x d →
    HasDerivWithinAt (fun t => rVal values x t e) (rVal values x t₀ d) (rDom values x e) t₀ := by
  obtain ⟨hz, ho, ha, hm, hdis⟩ := builtin_fields
  induction e using Tree.induction with
  | _ e ih =>
  intro d hd he hdd
  by_cases hocc : ArgSub e x
  swap
  · obtain ⟨rfl, h⟩ := deriv_real_const t₀ e d hocc hd he
    rw [hs.zero]; exact h
  have hdne := nonzero_of_occurs hs.leaf hocc hd
  cases hl : isLeaf e with
  | true =>
    rw [deriv_leaf _ x hl] at hd
    by_cases hex : e = x
    · subst hex
      rw [if_pos rfl, ho] at hd
      cases hd
      have h1 : rVal values e t₀ one = 1 := by
        rw [rVal_eq (e := one) (hs.integer t₀ 1)]; simp
      rw [h1]
      have h2 : (fun t => rVal values e t e) = fun t => t := by
        funext t
        apply rVal_eq
        unfold rEval
        rw [evalTree_leaf _ hl]
        simp only [meaning, envAt, if_true]
        rfl
      rw [h2]
      exact hasDerivWithinAt_id _ _
    · rw [if_neg hex, hz] at hd
      cases hd
      exact absurd rfl hdne
  | false =>
    cases e with
    | atom a => cases hl
    | node cs =>
      cases cs with
      | nil => cases hl
      | cons h args =>
        rw [deriv_node] at hd
        cases hmm : args.mapM (deriv builtinDiff x) with
        | error err => rw [hmm] at hd; cases hd
        | ok ds =>
          rw [hmm] at hd
          replace hd : derivStep builtinDiff h args ds = .ok d := hd
          obtain ⟨hargs, hop⟩ := dom_node he
          have hF := forall₂_of_mapM _ _ _ hmm
          have hlen := mapM_length _ _ _ hmm
          -- differentiability of the arguments, given that the derivatives have values
          have key : (∀ dc ∈ ds, dc ≠ zero → t₀ ∈ rDom values x dc) →
              List.Forall₂ (fun f d => HasDerivWithinAt f d (rDom values x (.node (h :: args))) t₀)
                (args.map (fun c t => rVal values x t c)) (ds.map (rVal values x t₀)) := by
            intro hev
            rw [List.forall₂_map_left_iff, List.forall₂_map_right_iff]
            rw [List.forall₂_iff_get] at hF ⊢
            refine ⟨hF.1, fun i h1 h2 => ?_⟩
            have hc := hF.2 i h1 h2
            have hmem : args.get ⟨i, h1⟩ ∈ args := List.get_mem _ _
            have hmem2 : ds.get ⟨i, h2⟩ ∈ ds := List.get_mem _ _
            refine (ih _ (by simp only [Tree.children]; exact List.mem_cons_of_mem _ hmem) _ hc
              (hargs _ hmem) ?_).mono ?_
            · by_cases h0 : ds.get ⟨i, h2⟩ = zero
              · rw [h0]; exact ⟨_, hs.integer t₀ 0⟩
              · exact hev _ hmem2 h0
            · intro t ht
              exact (dom_node ht).1 _ hmem
          unfold derivStep at hd
          rw [hdis, if_neg (by simpa using dom_no_list he (Reach.refl (by simp)))] at hd
          split at hd
          · -- Add
            rename_i hadd
            rw [ha] at hadd
            subst hadd
            obtain rfl := Except.ok.inj hd
            obtain ⟨h1, h2⟩ := sumOf_value hs hz ha _ hdd
            rw [h2]
            have h3 := hasDeriv_sum (key (fun dc hdc hne => h1 dc (by
              rw [varying_fst, List.mem_filter, hz]; exact ⟨hdc, by simpa using hne⟩)))
            have h4 : ((varying builtinDiff ds).map Prod.fst).map (rVal values x t₀) =
                (ds.filter (fun d => d ≠ zero)).map (rVal values x t₀) := by
              rw [varying_fst, hz]
            rw [h4, sum_filter _ _ _ (by
              intro a _ ha; simp only [ne_eq, decide_not, Bool.not_eq_eq_eq_not, Bool.not_false,
                decide_eq_true_eq] at ha
              rw [ha]; exact hs.zero t₀)]
            refine h3.congr (fun t ht => ?_) ?_
            · have := (dom_node ht).2
              rw [show f64Op realOps addH (args.map (rVal values x t)) =
                .ok (args.map (rVal values x t)).sum from rfl] at this
              simp only [Except.ok.injEq] at this
              rw [← this]; simp [Function.comp_def]
            · rw [show f64Op realOps addH (args.map (rVal values x t₀)) =
                .ok (args.map (rVal values x t₀)).sum from rfl] at hop
              simp only [Except.ok.injEq] at hop
              rw [← hop]; simp [Function.comp_def]
          · split at hd
            · -- Mul
              rename_i _ hmul
              rw [hm] at hmul
              subst hmul
              obtain rfl := Except.ok.inj hd
              obtain ⟨h1, h2⟩ := sumOf_value hs hz ha _ hdd
              rw [h2]
              have hev : ∀ dc ∈ ds, dc ≠ zero → t₀ ∈ rDom values x dc := by
                intro dc hdc hne
                obtain ⟨i, hi⟩ := List.getElem?_of_mem hdc
                have hv := varying_of_mem builtinDiff ds i dc hi (by rw [hz]; exact hne)
                have h3 := h1 (.node (builtinDiff.mul :: args.set i dc))
                  (List.mem_map.2 ⟨(dc, i), hv, rfl⟩)
                refine (dom_node h3).1 dc ?_
                have : i < args.length := by
                  have := (List.getElem?_eq_some_iff.1 hi).1; omega
                exact List.mem_set this dc
              have h3 := hasDeriv_prod (key hev)
              have h4 : (((varying builtinDiff ds).map (fun q : Expr × Nat =>
                    (Tree.node (builtinDiff.mul :: args.set q.2 q.1) : Expr))).map
                    (rVal values x t₀)).sum =
                  prodDeriv (args.map (rVal values x t₀)) (ds.map (rVal values x t₀)) := by
                rw [List.map_map]
                have h5 : ∀ q ∈ varying builtinDiff ds,
                    (rVal values x t₀ ∘ fun q : Expr × Nat =>
                      (Tree.node (builtinDiff.mul :: args.set q.2 q.1) : Expr)) q =
                    ((args.map (rVal values x t₀)).set q.2 (rVal values x t₀ q.1)).prod := by
                  intro q hq
                  have h6 := h1 (.node (builtinDiff.mul :: args.set q.2 q.1))
                    (List.mem_map.2 ⟨q, hq, rfl⟩)
                  rw [hm] at h6
                  have h7 := (dom_node h6).2
                  rw [show f64Op realOps mulH ((args.set q.2 q.1).map (rVal values x t₀)) =
                    .ok ((args.set q.2 q.1).map (rVal values x t₀)).prod from rfl] at h7
                  simp only [Except.ok.injEq] at h7
                  simp only [Function.comp_apply, hm]
                  rw [← h7, List.map_set]
                rw [List.map_congr_left h5]
                unfold varying
                rw [sum_filter]
                · have h6 := prodDeriv_eq (args.map (rVal values x t₀))
                    (ds.map (rVal values x t₀)) (by simp [hlen]) []
                  rw [List.length_nil, zipIdx_map_fst, List.map_map] at h6
                  simp only [List.nil_append, List.prod_nil, one_mul] at h6
                  rw [← h6]
                  rfl
                · intro q hq h0
                  simp only [hz, ne_eq, decide_not, Bool.not_eq_eq_eq_not, Bool.not_false,
                    decide_eq_true_eq] at h0
                  rw [h0, hs.zero]
                  have : q.2 < args.length := by
                    have := List.mem_zipIdx_iff_getElem?.1 hq
                    have := (List.getElem?_eq_some_iff.1 this).1
                    omega
                  exact List.prod_eq_zero (List.mem_set (by simpa using this) 0)
              rw [h4]
              have h5 : (args.map (fun c t => rVal values x t c)).map (fun f => f t₀) =
                  args.map (rVal values x t₀) := by simp [Function.comp_def]
              rw [h5] at h3
              refine h3.congr (fun t ht => ?_) ?_
              · have := (dom_node ht).2
                rw [show f64Op realOps mulH (args.map (rVal values x t)) =
                  .ok (args.map (rVal values x t)).prod from rfl] at this
                simp only [Except.ok.injEq] at this
                rw [← this]; simp [Function.comp_def]
              · rw [show f64Op realOps mulH (args.map (rVal values x t₀)) =
                  .ok (args.map (rVal values x t₀)).prod from rfl] at hop
                simp only [Except.ok.injEq] at hop
                rw [← hop]; simp [Function.comp_def]
            · -- a function with rules
              cases hts : (varying builtinDiff ds).mapM (chainTerm builtinDiff h args) with
              | error err => rw [hts] at hd; cases hd
              | ok ts =>
                rw [hts] at hd
                replace hd : sumOf builtinDiff ts = d := by
                  simpa [bind, Except.bind] using hd
                subst hd
                -- exactly one argument, the first, depends on `x`
                have hvne : varying builtinDiff ds ≠ [] := by
                  intro h0
                  rw [h0] at hts
                  cases hts
                  exact hdne (by simp [sumOf, hz])
                have hq0 : ∀ q ∈ varying builtinDiff ds, q.2 = 0 := by
                  intro q hq
                  obtain ⟨r, hr⟩ := mapM_ok_mem _ _ _ hts q hq
                  obtain ⟨_, _, h1⟩ := builtin_chain hr
                  rcases h1 with ⟨_, h1, _⟩ | ⟨_, h1, _⟩ | ⟨_, h1, _⟩ <;> exact h1
                obtain ⟨da, ds', hds⟩ : ∃ da ds', ds = da :: ds' := by
                  cases ds with
                  | nil => exact absurd rfl hvne
                  | cons a b => exact ⟨a, b, rfl⟩
                have hrest : ∀ dc ∈ ds', dc = zero := by
                  intro dc hdc
                  by_contra hne
                  obtain ⟨i, hi⟩ := List.getElem?_of_mem hdc
                  have := hq0 _ (varying_of_mem builtinDiff ds (i + 1) dc
                    (by rw [hds]; simpa using hi) (by rw [hz]; exact hne))
                  cases this
                have hdane : da ≠ zero := by
                  intro h0
                  apply hvne
                  have : (varying builtinDiff ds).map Prod.fst = [] := by
                    rw [varying_fst, List.filter_eq_nil_iff, hds, hz]
                    intro dc hdc
                    rcases List.mem_cons.1 hdc with rfl | hdc
                    · simp [h0]
                    · simp [hrest dc hdc]
                  simpa using this
                have hv : varying builtinDiff ds = [(da, 0)] :=
                  varying_single builtinDiff ds 0 da (by rw [hds]; rfl) (by rw [hz]; exact hdane)
                    (by
                      intro j d' hj hne
                      cases j with
                      | zero => exact absurd rfl hne
                      | succ j =>
                        rw [hz]; rw [hds] at hj
                        exact hrest d' (List.mem_of_getElem? (by simpa using hj)))
                rw [hv, List.mapM_cons] at hts
                cases hterm : chainTerm builtinDiff h args (da, 0) with
                | error err => rw [hterm] at hts; cases hts
                | ok r =>
                  rw [hterm] at hts
                  have hts : ts = [r] := by
                    simp [bind, Except.bind, pure, Except.pure] at hts
                    exact hts.symm
                  subst hts
                  have hdd : t₀ ∈ rDom values x r := hdd
                  show HasDerivWithinAt _ (rVal values x t₀ r) _ _
                  obtain ⟨g, hrg, hcases⟩ := builtin_chain hterm
                  simp only at hrg hcases
                  rw [hrg] at hdd ⊢
                  obtain ⟨hg, hda, hval⟩ := term_value hs hdd
                  rw [hval]
                  have hkey := key (fun dc hdc hne => by
                    rw [hds] at hdc
                    rcases List.mem_cons.1 hdc with rfl | hdc
                    · exact hda
                    · exact absurd (hrest dc hdc) hne)
                  rw [hds] at hkey
                  rcases hcases with ⟨rfl, _, a, rfl, rfl⟩ | ⟨rfl, _, a, rfl, rfl⟩ |
                    ⟨rfl, _, a, b, rfl, rfl⟩
                  · -- sin
                    simp only [List.map_cons, List.map_nil, List.forall₂_cons] at hkey
                    have h1 : rVal values x t₀ (cos a) = Real.cos (rVal values x t₀ a) := by
                      have := (dom_node (h := cosH) (args := [a]) hg).2
                      exact (Except.ok.inj this).symm
                    rw [h1]
                    have h2 : ∀ t ∈ rDom values x (.node [sinH, a]),
                        rVal values x t (.node [sinH, a]) = Real.sin (rVal values x t a) := by
                      intro t ht
                      have := (dom_node ht).2
                      exact (Except.ok.inj this).symm
                    exact (hkey.1.sin).congr h2 (h2 t₀ he)
                  · -- cos
                    simp only [List.map_cons, List.map_nil, List.forall₂_cons] at hkey
                    have h1 : rVal values x t₀ (mul negone (sin a)) =
                        -Real.sin (rVal values x t₀ a) := by
                      obtain ⟨hm1, hm2⟩ := dom_node (h := mulH) (args := [negone, sin a]) hg
                      have hsin := (dom_node (h := sinH) (args := [a]) (hm1 (sin a) (by simp))).2
                      have hsin : Real.sin (rVal values x t₀ a) = rVal values x t₀ (sin a) :=
                        Except.ok.inj hsin
                      have hneg : rVal values x t₀ negone = -1 := by
                        rw [rVal_eq (e := negone) (hs.integer t₀ (-1))]; simp
                      have hm3 : ([negone, sin a].map (rVal values x t₀)).prod =
                        rVal values x t₀ (mul negone (sin a)) := Except.ok.inj hm2
                      rw [← hm3]; simp [hneg, hsin]
                    rw [h1]
                    have h2 : ∀ t ∈ rDom values x (.node [cosH, a]),
                        rVal values x t (.node [cosH, a]) = Real.cos (rVal values x t a) := by
                      intro t ht
                      have := (dom_node ht).2
                      exact (Except.ok.inj this).symm
                    exact (hkey.1.cos).congr h2 (h2 t₀ he)
                  · -- pow
                    match ds', hds with
                    | [db], hds =>
                    simp only [List.map_cons, List.map_nil, List.forall₂_cons] at hkey
                    have hdb : db = zero := hrest db (by simp)
                    have hdb' : deriv builtinDiff x b = .ok zero := by
                      rw [hds] at hF
                      simp only [List.forall₂_cons] at hF
                      rw [← hdb]; exact hF.2.1
                    have hbx : ¬ ArgSub b x := fun h => nonzero_of_occurs hs.leaf h hdb' rfl
                    have hbc : ∀ t, rVal values x t b = rVal values x t₀ b := by
                      intro t; unfold rVal; rw [rEval_const b hbx t t₀]
                    have hpow : ∀ (t : ℝ) (u v : Expr), t ∈ rDom values x (.node [powH, u, v]) →
                        PowDefined (rVal values x t u) (rVal values x t v) ∧
                        rVal values x t (.node [powH, u, v]) =
                          (rVal values x t u) ^ (rVal values x t v) := by
                      intro t u v ht
                      have := (dom_node ht).2
                      have h5 : f64Op realOps powH ([u, v].map (rVal values x t)) =
                        realOps.pow (rVal values x t u) (rVal values x t v) := rfl
                      rw [h5] at this
                      simp only [realOps] at this
                      split at this
                      · rename_i hdef
                        exact ⟨hdef, (Except.ok.inj this).symm⟩
                      · cases this
                    obtain ⟨hm1, hm2⟩ := dom_node (h := mulH) (args := [b, pow a (add b negone)]) hg
                    have hm3 : ([b, pow a (add b negone)].map (rVal values x t₀)).prod =
                        rVal values x t₀ (mul b (pow a (add b negone))) := Except.ok.inj hm2
                    have hp := hm1 (pow a (add b negone)) (by simp)
                    obtain ⟨hp1, hp2⟩ := hpow t₀ a (add b negone) hp
                    have hadd := (dom_node (h := powH) (args := [a, add b negone]) hp).1
                      (add b negone) (by simp)
                    have hadd2 := (dom_node (h := addH) (args := [b, negone]) hadd).2
                    have hadd3 : ([b, negone].map (rVal values x t₀)).sum =
                        rVal values x t₀ (add b negone) := Except.ok.inj hadd2
                    have hneg : rVal values x t₀ negone = -1 := by
                      rw [rVal_eq (e := negone) (hs.integer t₀ (-1))]; simp
                    have hadd4 : rVal values x t₀ (add b negone) = rVal values x t₀ b - 1 := by
                      rw [← hadd3]; simp [hneg]; ring
                    have h1 : rVal values x t₀ (mul b (pow a (add b negone))) =
                        rVal values x t₀ b *
                          (rVal values x t₀ a) ^ (rVal values x t₀ b - 1) := by
                      rw [← hm3]
                      have : rVal values x t₀ (pow a (add b negone)) =
                        (rVal values x t₀ a) ^ (rVal values x t₀ b - 1) := by rw [← hadd4]; exact hp2
                      simp [this]
                    rw [h1]
                    have hside : rVal values x t₀ a ≠ 0 ∨ 1 ≤ rVal values x t₀ b := by
                      by_cases h0 : rVal values x t₀ a = 0
                      · right
                        have := hp1.1 h0
                        rw [hadd4] at this
                        linarith
                      · exact Or.inl h0
                    have h2 : ∀ t ∈ rDom values x (.node [powH, a, b]),
                        rVal values x t (.node [powH, a, b]) =
                          (rVal values x t a) ^ (rVal values x t₀ b) := by
                      intro t ht
                      rw [(hpow t a b ht).2, hbc t]
                    have h3 := (Real.hasDerivAt_rpow_const hside).comp_hasDerivWithinAt t₀ hkey.1
                    exact h3.congr h2 (h2 t₀ he)

/-- **C22.** If `e.diff(x)` succeeds and both `e` and `e.diff(x)` have a value at `x = t₀`
(exact real arithmetic, Python's domain errors for `pow`), then the value of `e.diff(x)` at
`t₀` is the derivative there of the function that `e` denotes, within the set of points at
which `e` has a value.  The values of the other symbols are arbitrary; `x` is any atom that is
not an integer. -/
theorem C22_diff_is_derivative (values : Dict Expr ℝ) (hvals : SymbolValues values)
    (a : Atom Val) (ha : a.atomType ≠ Ty.integer) (e d : Expr)
    (hd : e.diff (.atom a) = .ok d) (t₀ v v' : ℝ)
    (he : valueAt values (.atom a) e t₀ = .ok v)
    (hv' : valueAt values (.atom a) d t₀ = .ok v')
    (F : ℝ → ℝ) (hF : Denotes values (.atom a) e F) :
    HasDerivWithinAt F v' (domainOf values (.atom a) e) t₀ := by
  have hs : RealSetting values (.atom a) := ⟨hvals.noInteger, (by
    intro n h; unfold Expr.integer at h; cases h; exact ha rfl), rfl⟩
  rw [valueAt_iff hvals.unique] at he hv'
  have h1 := deriv_real hs t₀ e d ((diff_ok_iff _ _ _ _).1 hd) ⟨v, he⟩ ⟨v', hv'⟩
  rw [rVal_eq hv'] at h1
  have hdom : domainOf values (.atom a) e = rDom values (.atom a) e := by
    ext t; simp only [domainOf, rDom, Set.mem_ofPred_eq, valueAt_iff hvals.unique]
  rw [hdom]
  have h2 : ∀ t ∈ rDom values (.atom a) e, F t = rVal values (.atom a) t e := by
    rintro t ⟨w, hw⟩
    rw [rVal_eq hw]
    exact hF t w ((valueAt_iff hvals.unique _ _ _ _).2 hw)
  exact h1.congr h2 (h2 t₀ ⟨v, he⟩)

/-- **C22, interior points.** Where `e` has a value in a neighbourhood of `t₀`, this is the
ordinary derivative. -/
theorem C22_diff_is_derivative_at (values : Dict Expr ℝ) (hvals : SymbolValues values)
    (a : Atom Val) (ha : a.atomType ≠ Ty.integer) (e d : Expr)
    (hd : e.diff (.atom a) = .ok d) (t₀ v' : ℝ)
    (he : domainOf values (.atom a) e ∈ nhds t₀)
    (hv' : valueAt values (.atom a) d t₀ = .ok v')
    (F : ℝ → ℝ) (hF : Denotes values (.atom a) e F) : HasDerivAt F v' t₀ := by
  obtain ⟨v, hv⟩ := mem_of_mem_nhds he
  exact (C22_diff_is_derivative values hvals a ha e d hd t₀ v v' hv hv' F hF).hasDerivAt he

/-! ### When the derivative has a value -/

theorem deriv_real_dom {values : Dict Expr ℝ} {x : Expr} (hs : RealSetting values x) (t : ℝ)
    (e : Expr) : ∀ d, deriv builtinDiff x e = .ok d → t ∈ rDom values x e →
    (∀ a b, ArgSub e (.node [powH, a, b]) → rVal values x t a ≠ 0 ∨ 1 ≤ rVal values x t b) →
    t ∈ rDom values x d := by
  obtain ⟨hz, ho, ha, hm, hdis⟩ := builtin_fields
  induction e using Tree.induction with
  | _ e ih =>
  intro d hd he hpow
  cases hl : isLeaf e with
  | true =>
    rw [deriv_leaf _ x hl, ho, hz] at hd
    obtain rfl := Except.ok.inj hd
    split
    · exact ⟨_, hs.integer t 1⟩
    · exact ⟨_, hs.integer t 0⟩
  | false =>
    cases e with
    | atom a => cases hl
    | node cs =>
      cases cs with
      | nil => cases hl
      | cons h args =>
        rw [deriv_node] at hd
        cases hmm : args.mapM (deriv builtinDiff x) with
        | error err => rw [hmm] at hd; cases hd
        | ok ds =>
          rw [hmm] at hd
          replace hd : derivStep builtinDiff h args ds = .ok d := hd
          obtain ⟨hargs, hop⟩ := dom_node he
          have hds : ∀ dc ∈ ds, t ∈ rDom values x dc := by
            intro dc hdc
            obtain ⟨c, hc, hcd⟩ := mapM_mem_ok _ _ _ hmm dc hdc
            exact ih c (by simp [Tree.children, hc]) dc hcd (hargs c hc)
              (fun a b hsub => hpow a b (Reach.down (by simp) (by simpa [kids] using hc) hsub))
          unfold derivStep at hd
          rw [hdis, if_neg (by simpa using dom_no_list he (Reach.refl (by simp)))] at hd
          split at hd
          · obtain rfl := Except.ok.inj hd
            refine sumOf_dom hs hz ha _ (fun c hc => hds c ?_)
            rw [varying_fst, List.mem_filter] at hc
            exact hc.1
          · split at hd
            · obtain rfl := Except.ok.inj hd
              refine sumOf_dom hs hz ha _ (fun c hc => ?_)
              obtain ⟨⟨dq, i⟩, hq, rfl⟩ := List.mem_map.1 hc
              rw [hm]
              refine ⟨_, node_ok (fun c hc => ?_) rfl⟩
              rcases List.mem_or_eq_of_mem_set hc with h1 | rfl
              · exact hargs c h1
              · exact hds _ (List.mem_of_getElem? (mem_varying.1 hq).1)
            · cases hts : (varying builtinDiff ds).mapM (chainTerm builtinDiff h args) with
              | error err => rw [hts] at hd; cases hd
              | ok ts =>
                rw [hts] at hd
                replace hd : sumOf builtinDiff ts = d := by
                  simpa [bind, Except.bind] using hd
                subst hd
                refine sumOf_dom hs hz ha _ (fun r hr => ?_)
                obtain ⟨⟨dq, i⟩, hq, hterm⟩ := mapM_mem_ok _ _ _ hts r hr
                have hdq := hds dq (List.mem_of_getElem? (mem_varying.1 hq).1)
                obtain ⟨g, hrg, hcases⟩ := builtin_chain hterm
                simp only at hrg
                have hg : t ∈ rDom values x g := by
                  rcases hcases with ⟨rfl, _, a, rfl, rfl⟩ | ⟨rfl, _, a, rfl, rfl⟩ |
                    ⟨rfl, _, a, b, rfl, rfl⟩
                  · exact ⟨_, node_ok (args := [a]) (h := cosH) hargs rfl⟩
                  · refine ⟨_, node_ok (args := [negone, sin a]) (h := mulH) (fun c hc => ?_) rfl⟩
                    simp only [List.mem_cons, List.not_mem_nil, or_false] at hc
                    rcases hc with rfl | rfl
                    · exact ⟨_, hs.integer t (-1)⟩
                    · exact ⟨_, node_ok (args := [a]) (h := sinH) hargs rfl⟩
                  · have hneg : rVal values x t negone = -1 := by
                      rw [rVal_eq (e := negone) (hs.integer t (-1))]; simp
                    have hsub : rEval values x t (add b negone) =
                        .ok (rVal values x t b - 1) := by
                      refine node_ok (args := [b, negone]) (h := addH) (fun c hc => ?_) ?_
                      · simp only [List.mem_cons, List.not_mem_nil, or_false] at hc
                        rcases hc with rfl | rfl
                        · exact hargs _ (by simp)
                        · exact ⟨_, hs.integer t (-1)⟩
                      · show Except.ok _ = Except.ok _
                        congr 1
                        simp [hneg]; ring
                    have hdef : PowDefined (rVal values x t a) (rVal values x t b) := by
                      rw [show f64Op realOps powH ([a, b].map (rVal values x t)) =
                        realOps.pow (rVal values x t a) (rVal values x t b) from rfl] at hop
                      simp only [realOps] at hop
                      split at hop
                      · assumption
                      · cases hop
                    have hdef' : PowDefined (rVal values x t a) (rVal values x t b - 1) := by
                      constructor
                      · intro h0
                        rcases hpow a b (Reach.refl (by simp)) with h1 | h1
                        · exact absurd h0 h1
                        · linarith
                      · intro h0
                        obtain ⟨n, hn⟩ := hdef.2 h0
                        exact ⟨n - 1, by rw [hn]; push_cast; ring⟩
                    have hp : t ∈ rDom values x (pow a (add b negone)) := by
                      refine ⟨_, node_ok (args := [a, add b negone]) (h := powH) (fun c hc => ?_)
                        (v := (rVal values x t a) ^ (rVal values x t b - 1)) ?_⟩
                      · simp only [List.mem_cons, List.not_mem_nil, or_false] at hc
                        rcases hc with rfl | rfl
                        · exact hargs _ (by simp)
                        · exact ⟨_, hsub⟩
                      · rw [show f64Op realOps powH ([a, add b negone].map (rVal values x t)) =
                          realOps.pow (rVal values x t a) (rVal values x t (add b negone)) from rfl,
                          rVal_eq hsub]
                        simp only [realOps]
                        rw [if_pos hdef']
                    refine ⟨_, node_ok (args := [b, pow a (add b negone)]) (h := mulH)
                      (fun c hc => ?_) rfl⟩
                    simp only [List.mem_cons, List.not_mem_nil, or_false] at hc
                    rcases hc with rfl | rfl
                    · exact hargs _ (by simp)
                    · exact hp
                rw [hrg]
                split
                · exact hg
                · refine ⟨_, node_ok (args := [g, dq]) (h := mulH) (fun c hc => ?_) rfl⟩
                  simp only [List.mem_cons, List.not_mem_nil, or_false] at hc
                  rcases hc with rfl | rfl
                  · exact hg
                  · exact hdq

/-- **C22, existence.** If `e` has a value at `t`, `e.diff(x)` succeeds, and every power in
`e` has there a non-zero base or an exponent `≥ 1`, then `e.diff(x)` has a value at `t`. -/
theorem C22_derivative_evaluates (values : Dict Expr ℝ) (hvals : SymbolValues values)
    (a : Atom Val) (ha : a.atomType ≠ Ty.integer) (e d : Expr)
    (hd : e.diff (.atom a) = .ok d) (t : ℝ) (he : t ∈ domainOf values (.atom a) e)
    (hpow : ∀ b c vb vc, ArgSub e (.node [powH, b, c]) →
      valueAt values (.atom a) b t = .ok vb → valueAt values (.atom a) c t = .ok vc →
      vb ≠ 0 ∨ 1 ≤ vc) :
    t ∈ domainOf values (.atom a) d := by
  have hs : RealSetting values (.atom a) := ⟨hvals.noInteger, (by
    intro n h; unfold Expr.integer at h; cases h; exact ha rfl), rfl⟩
  have hdom : ∀ e, domainOf values (.atom a) e = rDom values (.atom a) e := by
    intro e; ext t; simp only [domainOf, rDom, Set.mem_ofPred_eq, valueAt_iff hvals.unique]
  rw [hdom] at he ⊢
  refine deriv_real_dom hs t e d ((diff_ok_iff _ _ _ _).1 hd) he (fun b c hsub => ?_)
  obtain ⟨v, hv⟩ := evalTree_ok_sub _ hsub he
  obtain ⟨h1, _⟩ := dom_node (values := values) (x := .atom a) (t := t) ⟨v, hv⟩
  obtain ⟨vb, hvb⟩ := h1 b (by simp)
  obtain ⟨vc, hvc⟩ := h1 c (by simp)
  rw [rVal_eq hvb, rVal_eq hvc]
  exact hpow b c vb vc hsub ((valueAt_iff hvals.unique _ _ _ _).2 hvb)
    ((valueAt_iff hvals.unique _ _ _ _).2 hvc)

/-! ### C25, values -/

/-- **C25, value.** If on an open set `e` and its symbolic derivatives up to order `n` all
have values, then the value of `e.diff(x, n)` is the `n`-th derivative of the function that
`e` denotes. -/
theorem C25_nth_derivative (values : Dict Expr ℝ) (hvals : SymbolValues values)
    (a : Atom Val) (ha : a.atomType ≠ Ty.integer) (e : Expr) (F : ℝ → ℝ)
    (hF : Denotes values (.atom a) e F) (U : Set ℝ) (hU : IsOpen U) (n : ℕ)
    (hev : ∀ k ≤ n, ∀ dk, e.diff (.atom a) k = .ok dk → U ⊆ domainOf values (.atom a) dk)
    (d : Expr) (hd : e.diff (.atom a) n = .ok d) (t : ℝ) (ht : t ∈ U) (v : ℝ)
    (hv : valueAt values (.atom a) d t = .ok v) : iteratedDeriv n F t = v := by
  induction n generalizing d t v with
  | zero =>
    rw [(C25_repeated builtinDiff e (.atom a)).2.1 (0 : ℕ) (by simp)] at hd
    cases hd
    rw [iteratedDeriv_zero]
    exact hF t v hv
  | succ n ih =>
    have h1 := (C25_repeated builtinDiff e (.atom a)).2.2.2 n (by omega)
    rw [show ((n + 1 : ℕ) : Int) = (n : Int) + 1 by push_cast; ring, h1] at hd
    cases hn : e.diff (.atom a) n with
    | error err => rw [hn] at hd; cases hd
    | ok dn =>
      rw [hn] at hd
      replace hd : Expr.diff dn (.atom a) = .ok d := hd
      have hdom := hev n (by omega) dn hn
      have hG : ∀ s ∈ U, valueAt values (.atom a) dn s = .ok (iteratedDeriv n F s) := by
        intro s hs
        obtain ⟨w, hw⟩ := hdom hs
        rw [hw, ih (fun k hk => hev k (by omega)) dn hn s hs w hw]
      let G : ℝ → ℝ := fun s => match valueAt values (.atom a) dn s with
        | .ok w => w
        | .error _ => 0
      have hGd : Denotes values (.atom a) dn G := by
        intro s w hw; simp only [G, hw]
      have h2 := C22_diff_is_derivative_at values hvals a ha dn d hd t v
        (Filter.mem_of_superset (hU.mem_nhds ht) hdom) hv G hGd
      have h3 : iteratedDeriv n F =ᶠ[nhds t] G := by
        filter_upwards [hU.mem_nhds ht] with s hs
        exact (hGd s _ (hG s hs)).symm
      rw [iteratedDeriv_succ, h3.deriv_eq]
      exact h2.deriv

/-! ### A concrete case: `y*x**2` at `x = 5`, `y = 3` -/

/-- `{y: 3}` -/
noncomputable def sampleValues : Dict Expr ℝ := ⟨[(y, 3)]⟩

theorem sampleValues_ok : SymbolValues sampleValues :=
  ⟨by simp [sampleValues, Dict.keys], fun n => rfl⟩

/-- `y*x**2` -/
def sampleE : Expr := mul y (pow x (integer 2))

/-- Its derivative as protosym returns it. -/
def sampleD : Expr := mul y (mul (integer 2) (pow x (add (integer 2) negone)))

theorem pow_value (values : Dict Expr ℝ) (x : Expr) (t : ℝ) (u w : Expr) (a b : ℝ)
    (hu : rEval values x t u = .ok a) (hw : rEval values x t w = .ok b) (h : PowDefined a b) :
    rEval values x t (pow u w) = .ok (a ^ b) := by
  refine node_ok (args := [u, w]) (h := powH) (fun c hc => ?_) ?_
  · simp only [List.mem_cons, List.not_mem_nil, or_false] at hc
    rcases hc with rfl | rfl
    · exact ⟨_, hu⟩
    · exact ⟨_, hw⟩
  · show realOps.pow (rVal values x t u) (rVal values x t w) = _
    rw [rVal_eq hu, rVal_eq hw]
    simp only [realOps]; rw [if_pos h]

theorem mul_value (values : Dict Expr ℝ) (x : Expr) (t : ℝ) (u w : Expr) (a b : ℝ)
    (hu : rEval values x t u = .ok a) (hw : rEval values x t w = .ok b) :
    rEval values x t (mul u w) = .ok (a * b) := by
  refine node_ok (args := [u, w]) (h := mulH) (fun c hc => ?_) ?_
  · simp only [List.mem_cons, List.not_mem_nil, or_false] at hc
    rcases hc with rfl | rfl
    · exact ⟨_, hu⟩
    · exact ⟨_, hw⟩
  · show Except.ok _ = Except.ok _
    simp [rVal_eq hu, rVal_eq hw]

theorem sample_value (t : ℝ) : valueAt sampleValues x sampleE t = .ok (3 * t ^ (2 : ℝ)) := by
  rw [valueAt_iff sampleValues_ok.unique]
  refine mul_value _ _ _ _ _ _ _ rfl (pow_value _ _ _ _ _ t 2 rfl ?_ ⟨fun _ => by norm_num, fun _ => ⟨2, by norm_num⟩⟩)
  have : rEval sampleValues x t (integer 2) = .ok (((2 : ℤ) : ℝ)) := rfl
  simpa using this

theorem sample_deriv_value (t : ℝ) :
    valueAt sampleValues x sampleD t = .ok (3 * (2 * t ^ (1 : ℝ))) := by
  rw [valueAt_iff sampleValues_ok.unique]
  have h2 : rEval sampleValues x t (integer 2) = .ok (((2 : ℤ) : ℝ)) := rfl
  have h3 : rEval sampleValues x t (add (integer 2) negone) =
    .ok ([((2 : ℤ) : ℝ), ((-1 : ℤ) : ℝ)].sum) := rfl
  refine mul_value _ _ _ _ _ _ _ rfl (mul_value _ _ _ _ _ _ _ (by simpa using h2)
    (pow_value _ _ _ _ _ t 1 rfl ?_ ⟨fun _ => by norm_num, fun _ => ⟨1, by norm_num⟩⟩))
  rw [h3]; norm_num

/-- The hypotheses of the C22 and C25 theorems are met, and they give `6·5 = 30`. -/
example : sampleE.diff x = .ok sampleD ∧
    (5 : ℝ) ∈ domainOf sampleValues x sampleE ∧
    domainOf sampleValues x sampleE ∈ nhds (5 : ℝ) ∧
    Denotes sampleValues x sampleE (fun t => 3 * t ^ (2 : ℝ)) ∧
    HasDerivAt (fun t : ℝ => 3 * t ^ (2 : ℝ)) (3 * (2 * 5 ^ (1 : ℝ))) 5 ∧
    iteratedDeriv 1 (fun t : ℝ => 3 * t ^ (2 : ℝ)) 5 = 3 * (2 * 5 ^ (1 : ℝ)) := by
  have hd : sampleE.diff x = .ok sampleD := by decide +kernel
  have hall : domainOf sampleValues x sampleE = Set.univ := by
    ext t; simp [domainOf, sample_value t]
  have hF : Denotes sampleValues x sampleE (fun t => 3 * t ^ (2 : ℝ)) := by
    intro t v hv; rw [sample_value] at hv; exact Except.ok.inj hv
  have hn : domainOf sampleValues x sampleE ∈ nhds (5 : ℝ) := by rw [hall]; exact Filter.univ_mem
  refine ⟨hd, ⟨_, sample_value 5⟩, hn, hF, ?_, ?_⟩
  · exact C22_diff_is_derivative_at sampleValues sampleValues_ok ⟨Ty.symbol, .str "x"⟩ (by decide)
      sampleE sampleD hd 5 _ hn (sample_deriv_value 5) _ hF
  · refine C25_nth_derivative sampleValues sampleValues_ok ⟨Ty.symbol, .str "x"⟩ (by decide)
      sampleE _ hF Set.univ isOpen_univ 1 ?_ sampleD hd 5 (Set.mem_univ _) _ (sample_deriv_value 5)
    intro k hk dk hdk t _
    have hdk' : dk = sampleE ∨ dk = sampleD := by
      have hk' : k = 0 ∨ k = 1 := by omega
      rcases hk' with rfl | rfl
      · left
        rw [(C25_repeated builtinDiff sampleE _).2.1 (0 : ℕ) (by simp)] at hdk
        cases hdk; rfl
      · right
        have hd' : Expr.diff sampleE x ((1 : ℕ) : Int) = .ok sampleD := hd
        have : (Except.ok dk : PyM Expr) = .ok sampleD := by rw [← hdk]; exact hd'
        cases this; rfl
    rcases hdk' with rfl | rfl
    · exact ⟨_, sample_value t⟩
    · exact ⟨_, sample_deriv_value t⟩

/-- The power condition of `C22_derivative_evaluates` is needed: `x**0` has the value 1 at
`x = 0`, its symbolic derivative `0*x**(0 + -1)` has none. -/
theorem C22_pow_zero_at_zero :
    (pow x zero).diff x = .ok (mul zero (pow x (add zero negone))) ∧
    (0 : ℝ) ∈ domainOf Dict.empty x (pow x zero) ∧
    (0 : ℝ) ∉ domainOf Dict.empty x (mul zero (pow x (add zero negone))) := by
  refine ⟨by decide +kernel, ?_, ?_⟩
  · refine ⟨(0 : ℝ) ^ (0 : ℝ), ?_⟩
    rw [valueAt_iff (by simp [Dict.keys, Dict.empty])]
    refine pow_value _ _ _ _ _ 0 0 rfl ?_ ⟨fun _ => le_refl _, fun h => absurd h (lt_irrefl _)⟩
    have : rEval Dict.empty x 0 zero = .ok (((0 : ℤ) : ℝ)) := rfl
    simpa using this
  · rintro ⟨v, hv⟩
    rw [valueAt_iff (by simp [Dict.keys, Dict.empty])] at hv
    obtain ⟨h1, _⟩ := dom_node (h := mulH) (args := [zero, pow x (add zero negone)])
      (values := Dict.empty) (x := x) (t := 0) ⟨v, hv⟩
    obtain ⟨_, h2⟩ := dom_node (h := powH) (args := [x, add zero negone])
      (h1 (pow x (add zero negone)) (by simp))
    have hx : rVal Dict.empty x 0 x = 0 := rVal_eq rfl
    have hb : rVal Dict.empty x 0 (add zero negone) = -1 := by
      have h3 : rEval Dict.empty x 0 (add zero negone) =
        .ok ([((0 : ℤ) : ℝ), ((-1 : ℤ) : ℝ)].sum) := rfl
      rw [rVal_eq h3]; norm_num
    have h4 : realOps.pow (rVal Dict.empty x 0 x) (rVal Dict.empty x 0 (add zero negone)) =
      .ok (rVal Dict.empty x 0 (.node [powH, x, add zero negone])) := h2
    rw [hx, hb] at h4
    simp only [realOps] at h4
    rw [if_neg] at h4
    · cases h4
    · intro h; have := h.1 rfl; norm_num at this

end Verif.Props
