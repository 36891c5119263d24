import Mathlib.Analysis.SpecialFunctions.Pow.Deriv
import Verif.Spec.Real
import Verif.Lemmas.F64
import Verif.Props.DiffRules

/-!
# The symbolic derivative is the mathematical one: helper lemmas
-/

set_option linter.unusedSectionVars false

namespace Verif
open Expr Spec Props

/-- Values with `x := t`. -/
noncomputable def envAt (values : Dict Expr ℝ) (x : Expr) (t : ℝ) : Expr → Option ℝ :=
  fun k => if x = k then some t else values.get? k

/-- Structural evaluation in exact arithmetic with `x := t`. -/
noncomputable def rEval (values : Dict Expr ℝ) (x : Expr) (t : ℝ) : Expr → PyM ℝ :=
  evalTree (meaning (evalF64 realOps) (envAt values x t))

theorem valueAt_iff {values : Dict Expr ℝ} (hv : values.keys.Nodup) (x e : Expr) (t v : ℝ) :
    valueAt values x e t = .ok v ↔ rEval values x t e = .ok v := by
  unfold valueAt rEval
  rw [evalF64_ok_iff _ _ _ (Dict.keys_set_nodup _ hv _ _)]
  have : (values.set x t).get? = envAt values x t := by
    funext k; rw [Dict.get?_set]; rfl
  rw [this]

/-- The value if there is one. -/
noncomputable def rVal (values : Dict Expr ℝ) (x : Expr) (t : ℝ) (e : Expr) : ℝ :=
  match rEval values x t e with
  | .ok v => v
  | .error _ => 0

theorem rVal_eq {values : Dict Expr ℝ} {x : Expr} {t : ℝ} {e : Expr} {v : ℝ}
    (h : rEval values x t e = .ok v) : rVal values x t e = v := by
  unfold rVal; rw [h]

/-- The points where `e` has a value. -/
def rDom (values : Dict Expr ℝ) (x e : Expr) : Set ℝ := {t | ∃ v, rEval values x t e = .ok v}

theorem mapM_rVal {values : Dict Expr ℝ} {x : Expr} {t : ℝ} {args : List Expr} {vs : List ℝ}
    (h : args.mapM (rEval values x t) = .ok vs) :
    vs = args.map (rVal values x t) ∧ ∀ c ∈ args, t ∈ rDom values x c := by
  induction args generalizing vs with
  | nil => cases h; simp
  | cons c cs ih =>
    rw [List.mapM_cons] at h
    cases hc : rEval values x t c with
    | error err => rw [hc] at h; cases h
    | ok v =>
      cases hm : cs.mapM (rEval values x t) with
      | error err => rw [hc, hm] at h; cases h
      | ok ws =>
        rw [hc, hm] at h
        cases h
        obtain ⟨h1, h2⟩ := ih hm
        refine ⟨by simp [h1, rVal_eq hc], ?_⟩
        intro c' hc'
        rcases List.mem_cons.1 hc' with rfl | hc'
        · exact ⟨v, hc⟩
        · exact h2 c' hc'

theorem mapM_of_dom {values : Dict Expr ℝ} {x : Expr} {t : ℝ} {args : List Expr}
    (h : ∀ c ∈ args, t ∈ rDom values x c) :
    args.mapM (rEval values x t) = .ok (args.map (rVal values x t)) := by
  obtain ⟨vs, hvs⟩ := mapM_ok_of_forall _ _ h
  rw [hvs, (mapM_rVal hvs).1]

theorem dom_node {values : Dict Expr ℝ} {x h : Expr} {args : List Expr} {t : ℝ}
    (ht : t ∈ rDom values x (.node (h :: args))) :
    (∀ c ∈ args, t ∈ rDom values x c) ∧
    f64Op realOps h (args.map (rVal values x t)) = .ok (rVal values x t (.node (h :: args))) := by
  obtain ⟨v, hv⟩ := ht
  obtain ⟨vs, h1, h2⟩ := f64_node_ok hv
  obtain ⟨h3, h4⟩ := mapM_rVal h1
  exact ⟨h4, by rw [← h3, rVal_eq hv]; exact h2⟩

theorem node_ok {values : Dict Expr ℝ} {x h : Expr} {args : List Expr} {t v : ℝ}
    (ha : ∀ c ∈ args, t ∈ rDom values x c)
    (hv : f64Op realOps h (args.map (rVal values x t)) = .ok v) :
    rEval values x t (.node (h :: args)) = .ok v := by
  unfold rEval
  rw [f64_node]
  have := mapM_of_dom ha
  unfold rEval at this
  rw [this]; exact hv

/-- Variable and values as in the property: an atom that is not an integer. -/
structure RealSetting (values : Dict Expr ℝ) (x : Expr) : Prop where
  noInteger : ∀ n, values.get? (integer n) = none
  var : ∀ n, x ≠ integer n
  leaf : x.children = []

theorem RealSetting.integer {values : Dict Expr ℝ} {x : Expr} (h : RealSetting values x) (t : ℝ)
    (n : Int) : rEval values x t (integer n) = .ok (n : ℝ) := by
  unfold rEval
  rw [f64_integer]
  · rfl
  · unfold envAt; rw [if_neg (h.var n), h.noInteger]

theorem RealSetting.zero {values : Dict Expr ℝ} {x : Expr} (h : RealSetting values x) (t : ℝ) :
    rVal values x t zero = 0 := by
  have := h.integer t 0
  rw [rVal_eq (e := Expr.zero) this]; simp

/-- The values of a sum of terms. -/
theorem sumOf_value {values : Dict Expr ℝ} {x : Expr} (hs : RealSetting values x) {t : ℝ}
    {p : DiffProps Val} (hz : p.zero = zero) (ha : p.add = addH) (ts : List Expr)
    (ht : t ∈ rDom values x (sumOf p ts)) :
    (∀ c ∈ ts, t ∈ rDom values x c) ∧
      rVal values x t (sumOf p ts) = (ts.map (rVal values x t)).sum := by
  match ts with
  | [] => simp [sumOf, hz, hs.zero]
  | [c] => exact ⟨by simpa [sumOf] using ht, by simp [sumOf]⟩
  | a :: b :: ts =>
    simp only [sumOf, ha] at ht ⊢
    obtain ⟨h1, h2⟩ := dom_node ht
    refine ⟨h1, ?_⟩
    unfold f64Op at h2
    rw [if_pos rfl] at h2
    simp only [realOps, Except.ok.injEq] at h2
    exact h2.symm

theorem sumOf_dom {values : Dict Expr ℝ} {x : Expr} (hs : RealSetting values x) {t : ℝ}
    {p : DiffProps Val} (hz : p.zero = zero) (ha : p.add = addH) (ts : List Expr)
    (ht : ∀ c ∈ ts, t ∈ rDom values x c) : t ∈ rDom values x (sumOf p ts) := by
  match ts with
  | [] => simp only [sumOf, hz]; exact ⟨_, hs.integer t 0⟩
  | [c] => exact ht c (by simp)
  | a :: b :: ts =>
    simp only [sumOf, ha]
    exact ⟨_, node_ok ht (by unfold f64Op; rw [if_pos rfl]; rfl)⟩

/-- Evaluation of an expression without `x` does not depend on `x`. -/
theorem rEval_const {values : Dict Expr ℝ} {x : Expr} (e : Expr) (hx : ¬ ArgSub e x) (t t' : ℝ) :
    rEval values x t e = rEval values x t' e := by
  induction e using Tree.induction with
  | _ e ih =>
  cases hl : isLeaf e with
  | true =>
    unfold rEval
    rw [evalTree_leaf _ hl, evalTree_leaf _ hl]
    have hne : x ≠ e := by rintro rfl; exact hx (Reach.refl (by simp))
    simp only [meaning, envAt, if_neg hne]
  | false =>
    cases e with
    | atom a => cases hl
    | node cs =>
      cases cs with
      | nil => cases hl
      | cons h args =>
        unfold rEval
        rw [f64_node, f64_node]
        congr 1
        have : ∀ as : List Expr, (∀ c ∈ as, c ∈ args) →
            as.mapM (rEval values x t) = as.mapM (rEval values x t') := by
          intro as
          induction as with
          | nil => intro _; rfl
          | cons c cs ihc =>
            intro hsub
            have hc := hsub c (by simp)
            rw [List.mapM_cons, List.mapM_cons, ih c (by simp [Tree.children, hc])
              (fun h2 => hx (Reach.down (by simp) (by simpa [kids] using hc) h2)),
              ihc (fun d hd => hsub d (by simp [hd]))]
        exact this args (fun _ h => h)

/-! ### Lists of differentiable functions -/

theorem hasDeriv_sum {s : Set ℝ} {t₀ : ℝ} {fs : List (ℝ → ℝ)} {ds : List ℝ}
    (h : List.Forall₂ (fun f d => HasDerivWithinAt f d s t₀) fs ds) :
    HasDerivWithinAt (fun t => (fs.map (fun f => f t)).sum) ds.sum s t₀ := by
  induction h with
  | nil => simpa using hasDerivWithinAt_const t₀ s (0 : ℝ)
  | cons h _ ih =>
    simp only [List.map_cons, List.sum_cons]
    exact h.add ih

/-- The derivative of a product given values and derivatives of the factors. -/
def prodDeriv : List ℝ → List ℝ → ℝ
  | v :: vs, d :: ds => d * vs.prod + v * prodDeriv vs ds
  | _, _ => 0

theorem hasDeriv_prod {s : Set ℝ} {t₀ : ℝ} {fs : List (ℝ → ℝ)} {ds : List ℝ}
    (h : List.Forall₂ (fun f d => HasDerivWithinAt f d s t₀) fs ds) :
    HasDerivWithinAt (fun t => (fs.map (fun f => f t)).prod)
      (prodDeriv (fs.map (fun f => f t₀)) ds) s t₀ := by
  induction h with
  | nil => simpa [prodDeriv] using hasDerivWithinAt_const t₀ s (1 : ℝ)
  | cons h _ ih =>
    simp only [List.map_cons, List.prod_cons, prodDeriv]
    exact h.mul ih

theorem sum_filter {α : Type} (l : List α) (q : α → Bool) (f : α → ℝ)
    (h : ∀ a ∈ l, q a = false → f a = 0) : ((l.filter q).map f).sum = (l.map f).sum := by
  induction l with
  | nil => rfl
  | cons a l ih =>
    have ih := ih (fun b hb => h b (by simp [hb]))
    cases hq : q a with
    | true => simp [hq, ih]
    | false => simp [hq, ih, h a (by simp) hq]

theorem prodDeriv_eq (vs : List ℝ) (ds : List ℝ) (hlen : ds.length = vs.length) (pre : List ℝ) :
    ((ds.zipIdx pre.length).map (fun q => ((pre ++ vs).set q.2 q.1).prod)).sum =
      pre.prod * prodDeriv vs ds := by
  induction ds generalizing vs pre with
  | nil => cases vs <;> simp [prodDeriv]
  | cons d ds ih =>
    cases vs with
    | nil => cases hlen
    | cons v vs =>
      have := ih vs (by simpa using hlen) (pre ++ [v])
      simp only [List.length_append, List.length_singleton, List.append_assoc,
        List.singleton_append] at this
      simp only [List.zipIdx_cons, List.map_cons, List.sum_cons, this, prodDeriv]
      have h1 : (pre ++ v :: vs).set pre.length d = pre ++ d :: vs := by simp
      rw [h1]
      simp only [List.prod_append, List.prod_cons, List.prod_nil]
      ring

theorem zipIdx_map_fst {α β : Type} (l : List α) (f : α → β) (n : ℕ) :
    (l.map f).zipIdx n = (l.zipIdx n).map (fun q => (f q.1, q.2)) := by
  induction l generalizing n with
  | nil => rfl
  | cons a l ih => simp [ih]

theorem forall₂_of_mapM {α : Type} (g : α → PyM α) (l ds : List α) (h : l.mapM g = .ok ds) :
    List.Forall₂ (fun c d => g c = .ok d) l ds := by
  induction l generalizing ds with
  | nil => cases h; exact .nil
  | cons c l ih =>
    rw [List.mapM_cons] at h
    cases hc : g c with
    | error err => rw [hc] at h; cases h
    | ok b =>
      cases hl : l.mapM g with
      | error err => rw [hc, hl] at h; cases h
      | ok bs =>
        rw [hc, hl] at h
        cases h
        exact .cons hc (ih bs hl)

/-! ### The built-in rules -/

theorem subst_single (σ : Expr → Option Expr) (h a : Expr) (hh : σ h = none)
    (hn : σ (.node [h, a]) = none) (ht : ∃ q, h = .atom q) :
    subst σ (.node [h, a]) = .node [h, subst σ a] := by
  obtain ⟨q, rfl⟩ := ht
  rw [subst, hn]; simp [substList, subst, hh]

theorem call_ok {rhs : Expr} {params args : List Expr} {fn : SubsFunc Val} {r : Expr}
    (hf : SubsFunc.new rhs params = .ok fn) (hn : rhs ∉ params) (hc : rhs.children ≠ [])
    (h : fn.call args = .ok r) : args.length = params.length ∧
      r = subst (pairing params args) rhs :=
  (ruleCall_node hf hn hc h).2

/-- What the chain rule uses, spelled out. -/
theorem builtin_chain {h : Expr} {args : List Expr} {q : Expr × Nat} {r : Expr}
    (hr : chainTerm builtinDiff h args q = .ok r) :
    ∃ g, r = (if q.1 = one then g else .node [mulH, g, q.1]) ∧
    ((h = sinH ∧ q.2 = 0 ∧ ∃ a, args = [a] ∧ g = cos a) ∨
     (h = cosH ∧ q.2 = 0 ∧ ∃ a, args = [a] ∧ g = mul negone (sin a)) ∨
     (h = powH ∧ q.2 = 0 ∧ ∃ a b, args = [a, b] ∧ g = mul b (pow a (add b negone)))) := by
  obtain ⟨fs, fc, fp, hs, hc, hp, _, hb⟩ := builtinDiff_eq
  obtain ⟨dq, iq⟩ := q
  unfold chainTerm at hr
  cases hg : builtinDiff.diffRules.get? (h, iq) with
  | none => rw [hg] at hr; cases hr
  | some rule =>
    rw [hg] at hr
    simp only at hr
    cases hcall : rule.call args with
    | error err => rw [hcall] at hr; cases hr
    | ok g =>
      rw [hcall] at hr
      simp only [Except.ok.injEq] at hr
      have h1 : builtinDiff.one = one := by rw [hb]
      have h2 : builtinDiff.mul = mulH := by rw [hb]
      rw [h1, h2] at hr
      refine ⟨g, hr.symm, ?_⟩
      rw [hb] at hg
      simp only [Dict.get?, Dict.lookup] at hg
      split at hg
      · rename_i hk
        cases hk
        cases hg
        obtain ⟨hl, rfl⟩ := call_ok hs (by decide) (by decide) hcall
        match args, hl with
        | [a], _ => exact Or.inl ⟨rfl, rfl, a, rfl, rfl⟩
      · split at hg
        · rename_i hk
          cases hk
          cases hg
          obtain ⟨hl, rfl⟩ := call_ok hc (by decide) (by decide) hcall
          match args, hl with
          | [a], _ => exact Or.inr (Or.inl ⟨rfl, rfl, a, rfl, rfl⟩)
        · split at hg
          · rename_i hk
            cases hk
            cases hg
            obtain ⟨hl, rfl⟩ := call_ok hp (by decide) (by decide) hcall
            match args, hl with
            | [a, b], _ => exact Or.inr (Or.inr ⟨rfl, rfl, a, b, rfl, rfl⟩)
          · cases hg

end Verif
