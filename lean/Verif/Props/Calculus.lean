import Mathlib.Analysis.Calculus.Taylor
import Mathlib.Analysis.Calculus.DerivativeTest
import Mathlib.Analysis.Calculus.Deriv.MeanValue
import Mathlib.Analysis.Convex.Deriv
import Mathlib.MeasureTheory.Integral.IntervalIntegral.FundThmCalculus
import Verif.Props.Gradient

/-!
# C83  What derivatives say about an expression

Taylor's formula, constant and increasing expressions, convexity, the second derivative test and integrals, all in terms
of the values of `e` and of `e.diff(x, n)`.
-/

namespace Verif.Props
open Verif Spec Expr

/-- The value of `e` at `t`, 0 where there is none. -/
noncomputable def valueOrZero (values : Dict Expr ℝ) (x e : Expr) (t : ℝ) : ℝ :=
  match valueAt values x e t with
  | .ok v => v
  | .error _ => 0

theorem valueOrZero_eq {values : Dict Expr ℝ} {x e : Expr} {t v : ℝ} (h : valueAt values x e t = .ok v) :
    valueOrZero values x e t = v := by
  simp only [valueOrZero, h]

theorem valueOrZero_denotes (values : Dict Expr ℝ) (x e : Expr) : Denotes values x e (valueOrZero values x e) :=
  fun _ _ h => valueOrZero_eq h

theorem value_ok {values : Dict Expr ℝ} {x e : Expr} {t : ℝ} (h : t ∈ domainOf values x e) :
    valueAt values x e t = .ok (valueOrZero values x e t) := by
  obtain ⟨v, hv⟩ := h
  rw [hv, valueOrZero_eq hv]

theorem deriv_within {values : Dict Expr ℝ} (hvals : SymbolValues values) {a : Atom Val}
    (ha : a.atomType ≠ Ty.integer) {e d : Expr} (hd : e.diff (.atom a) = .ok d) {I : Set ℝ}
    (he : I ⊆ domainOf values (.atom a) e) {t : ℝ} (ht : t ∈ I) (hdt : t ∈ domainOf values (.atom a) d) :
    HasDerivWithinAt (valueOrZero values (.atom a) e) (valueOrZero values (.atom a) d t) I t := by
  exact (C22_diff_is_derivative values hvals a ha e d hd t _ _ (value_ok (he ht)) (value_ok hdt) _
    (valueOrZero_denotes _ _ _)).mono he

theorem deriv_at {values : Dict Expr ℝ} (hvals : SymbolValues values) {a : Atom Val}
    (ha : a.atomType ≠ Ty.integer) {e d : Expr} (hd : e.diff (.atom a) = .ok d) {I : Set ℝ}
    (he : I ⊆ domainOf values (.atom a) e) (hd' : I ⊆ domainOf values (.atom a) d) {t : ℝ}
    (ht : t ∈ interior I) :
    HasDerivAt (valueOrZero values (.atom a) e) (valueOrZero values (.atom a) d t) t :=
  (deriv_within hvals ha hd he (interior_subset ht) (hd' (interior_subset ht))).hasDerivAt
    (mem_interior_iff_mem_nhds.1 ht)

theorem continuous_on {values : Dict Expr ℝ} (hvals : SymbolValues values) {a : Atom Val}
    (ha : a.atomType ≠ Ty.integer) {e d : Expr} (hd : e.diff (.atom a) = .ok d) {I : Set ℝ}
    (he : I ⊆ domainOf values (.atom a) e) (hd' : I ⊆ domainOf values (.atom a) d) :
    ContinuousOn (valueOrZero values (.atom a) e) I :=
  fun _ ht => (deriv_within hvals ha hd he ht (hd' ht)).continuousWithinAt

/-- Where the derivatives of two expressions have the same values on an interval, the expressions differ by a
constant there. -/
theorem C83_same_derivative (values : Dict Expr ℝ) (hvals : SymbolValues values) (a : Atom Val)
    (ha : a.atomType ≠ Ty.integer) (e₁ e₂ d₁ d₂ : Expr) (hd₁ : e₁.diff (.atom a) = .ok d₁)
    (hd₂ : e₂.diff (.atom a) = .ok d₂) (I : Set ℝ) (hI : I.OrdConnected)
    (he₁ : I ⊆ domainOf values (.atom a) e₁) (he₂ : I ⊆ domainOf values (.atom a) e₂)
    (hsame : ∀ t ∈ I, ∃ r, valueAt values (.atom a) d₁ t = .ok r ∧ valueAt values (.atom a) d₂ t = .ok r)
    (s t : ℝ) (hs : s ∈ I) (ht : t ∈ I) (v₁ v₂ w₁ w₂ : ℝ)
    (hv₁ : valueAt values (.atom a) e₁ s = .ok v₁) (hv₂ : valueAt values (.atom a) e₂ s = .ok v₂)
    (hw₁ : valueAt values (.atom a) e₁ t = .ok w₁) (hw₂ : valueAt values (.atom a) e₂ t = .ok w₂) :
    w₁ - w₂ = v₁ - v₂ := by
  have h : ∀ u ∈ I, HasDerivWithinAt
      (fun u => valueOrZero values (.atom a) e₁ u - valueOrZero values (.atom a) e₂ u) 0 I u := by
    intro u hu
    obtain ⟨r, h1, h2⟩ := hsame u hu
    have h3 := (deriv_within hvals ha hd₁ he₁ hu ⟨r, h1⟩).sub (deriv_within hvals ha hd₂ he₂ hu ⟨r, h2⟩)
    rw [valueOrZero_eq h1, valueOrZero_eq h2, sub_self] at h3
    exact h3
  have h := hI.convex.norm_image_sub_le_of_norm_hasDerivWithin_le (C := 0) h (by simp) hs ht
  rw [valueOrZero_eq hv₁, valueOrZero_eq hv₂, valueOrZero_eq hw₁, valueOrZero_eq hw₂] at h
  simp only [zero_mul, norm_le_zero_iff] at h
  linarith

/-- Where the derivative is 0 on an interval, the expression has the same value at all points. -/
theorem C83_constant (values : Dict Expr ℝ) (hvals : SymbolValues values) (a : Atom Val)
    (ha : a.atomType ≠ Ty.integer) (e d : Expr) (hd : e.diff (.atom a) = .ok d) (I : Set ℝ)
    (hI : I.OrdConnected) (he : I ⊆ domainOf values (.atom a) e)
    (hzero : ∀ t ∈ I, valueAt values (.atom a) d t = .ok 0) (s t : ℝ) (hs : s ∈ I) (ht : t ∈ I) :
    valueAt values (.atom a) e s = valueAt values (.atom a) e t := by
  have h := hI.convex.norm_image_sub_le_of_norm_hasDerivWithin_le (C := 0)
    (fun u hu => deriv_within hvals ha hd he hu ⟨0, hzero u hu⟩)
    (fun u hu => by rw [valueOrZero_eq (hzero u hu)]; simp) hs ht
  simp only [zero_mul, norm_le_zero_iff, sub_eq_zero] at h
  rw [value_ok (he hs), value_ok (he ht), h]

/-- Where the derivative is at least 0 on an interval the expression increases, strictly where it is greater. -/
theorem C83_increasing (values : Dict Expr ℝ) (hvals : SymbolValues values) (a : Atom Val)
    (ha : a.atomType ≠ Ty.integer) (e d : Expr) (hd : e.diff (.atom a) = .ok d) (I : Set ℝ)
    (hI : I.OrdConnected) (he : I ⊆ domainOf values (.atom a) e) (hd' : I ⊆ domainOf values (.atom a) d)
    (s t v w : ℝ) (hs : s ∈ I) (ht : t ∈ I)
    (hv : valueAt values (.atom a) e s = .ok v) (hw : valueAt values (.atom a) e t = .ok w) :
    ((∀ u ∈ I, ∀ r, valueAt values (.atom a) d u = .ok r → 0 ≤ r) → s ≤ t → v ≤ w) ∧
    ((∀ u ∈ I, ∀ r, valueAt values (.atom a) d u = .ok r → 0 < r) → s < t → v < w) := by
  have hc := continuous_on hvals ha hd he hd'
  have hda : ∀ u ∈ interior I, _ := fun u hu => deriv_at hvals ha hd he hd' hu
  refine ⟨fun h hst => ?_, fun h hst => ?_⟩
  · have := monotoneOn_of_deriv_nonneg hI.convex hc (fun u hu => (hda u hu).differentiableAt.differentiableWithinAt)
      (fun u hu => by
        rw [(hda u hu).deriv]
        exact h u (interior_subset hu) _ (value_ok (hd' (interior_subset hu)))) hs ht hst
    rwa [valueOrZero_eq hv, valueOrZero_eq hw] at this
  · have := strictMonoOn_of_deriv_pos hI.convex hc (fun u hu => by
        rw [(hda u hu).deriv]
        exact h u (interior_subset hu) _ (value_ok (hd' (interior_subset hu)))) hs ht hst
    rwa [valueOrZero_eq hv, valueOrZero_eq hw] at this

/-- Where the second derivative is at least 0 on an interval the expression is convex. -/
theorem C83_convex (values : Dict Expr ℝ) (hvals : SymbolValues values) (a : Atom Val)
    (ha : a.atomType ≠ Ty.integer) (e d d₂ : Expr) (hd : e.diff (.atom a) = .ok d)
    (hd₂ : d.diff (.atom a) = .ok d₂) (I : Set ℝ) (hI : I.OrdConnected)
    (he : I ⊆ domainOf values (.atom a) e) (hd' : I ⊆ domainOf values (.atom a) d)
    (hd₂' : I ⊆ domainOf values (.atom a) d₂)
    (h : ∀ u ∈ I, ∀ r, valueAt values (.atom a) d₂ u = .ok r → 0 ≤ r) (s t v w p q z : ℝ) (hs : s ∈ I) (ht : t ∈ I)
    (hp : 0 ≤ p) (hq : 0 ≤ q) (hpq : p + q = 1)
    (hv : valueAt values (.atom a) e s = .ok v) (hw : valueAt values (.atom a) e t = .ok w)
    (hz : valueAt values (.atom a) e (p * s + q * t) = .ok z) : z ≤ p * v + q * w := by
  have hda : ∀ u ∈ interior I, _ := fun u hu => deriv_at hvals ha hd he hd' hu
  have hda₂ : ∀ u ∈ interior I, _ := fun u hu => deriv_at hvals ha hd₂ hd' hd₂' hu
  have heq : ∀ u ∈ interior I, deriv (valueOrZero values (.atom a) e) =ᶠ[nhds u] valueOrZero values (.atom a) d := by
    intro u hu
    filter_upwards [isOpen_interior.mem_nhds hu] with x hx using (hda x hx).deriv
  have h' := convexOn_of_deriv2_nonneg hI.convex (continuous_on hvals ha hd he hd')
    (fun u hu => (hda u hu).differentiableAt.differentiableWithinAt)
    (fun u hu => ((hda₂ u hu).differentiableAt.congr_of_eventuallyEq (heq u hu)).differentiableWithinAt)
    (fun u hu => by
      simp only [Function.iterate_succ, Function.iterate_zero, Function.comp_apply, id]
      rw [(heq u hu).deriv_eq, (hda₂ u hu).deriv]
      exact h u (interior_subset hu) _ (value_ok (hd₂' (interior_subset hu))))
  have := h'.2 hs ht hp hq hpq
  simp only [smul_eq_mul] at this
  rwa [valueOrZero_eq hv, valueOrZero_eq hw, valueOrZero_eq hz] at this

/-- The second derivative test: the derivative is 0 and the second derivative positive at `t₀`, around which the
expression and its derivative have values: a local minimum. -/
theorem C83_second_derivative_test (values : Dict Expr ℝ) (hvals : SymbolValues values) (a : Atom Val)
    (ha : a.atomType ≠ Ty.integer) (e d d₂ : Expr) (hd : e.diff (.atom a) = .ok d)
    (hd₂ : d.diff (.atom a) = .ok d₂) (t₀ v r : ℝ) (he : domainOf values (.atom a) e ∈ nhds t₀)
    (hd' : domainOf values (.atom a) d ∈ nhds t₀) (hv : valueAt values (.atom a) e t₀ = .ok v)
    (h0 : valueAt values (.atom a) d t₀ = .ok 0) (hr : valueAt values (.atom a) d₂ t₀ = .ok r) (hpos : 0 < r) :
    ∀ᶠ t in nhds t₀, ∀ w, valueAt values (.atom a) e t = .ok w → v ≤ w := by
  have h1 : ∀ᶠ t in nhds t₀, HasDerivAt (valueOrZero values (.atom a) e) (valueOrZero values (.atom a) d t) t := by
    filter_upwards [eventually_mem_nhds_iff.2 he, hd'] with t h2 h3
    exact C22_diff_is_derivative_at values hvals a ha e d hd t _ h2 (value_ok h3) _ (valueOrZero_denotes _ _ _)
  have heq : deriv (valueOrZero values (.atom a) e) =ᶠ[nhds t₀] valueOrZero values (.atom a) d := by
    filter_upwards [h1] with t h using h.deriv
  have h2 := C22_diff_is_derivative_at values hvals a ha d d₂ hd₂ t₀ r hd' hr _ (valueOrZero_denotes _ _ _)
  have hmin := isLocalMin_of_deriv_deriv_pos (f := valueOrZero values (.atom a) e) (x₀ := t₀)
    (by rw [heq.deriv_eq, h2.deriv]; exact hpos) (by rw [h1.self_of_nhds.deriv, valueOrZero_eq h0])
    h1.self_of_nhds.continuousAt
  filter_upwards [hmin] with t h w hw
  rwa [valueOrZero_eq hv, valueOrZero_eq hw] at h

/-- The values at two points of an interval differ by at most the distance times a bound of the derivative. -/
theorem C83_bound (values : Dict Expr ℝ) (hvals : SymbolValues values) (a : Atom Val)
    (ha : a.atomType ≠ Ty.integer) (e d : Expr) (hd : e.diff (.atom a) = .ok d) (I : Set ℝ)
    (hI : I.OrdConnected) (he : I ⊆ domainOf values (.atom a) e) (hd' : I ⊆ domainOf values (.atom a) d) (C : ℝ)
    (hC : ∀ u ∈ I, ∀ r, valueAt values (.atom a) d u = .ok r → |r| ≤ C) (s t v w : ℝ) (hs : s ∈ I) (ht : t ∈ I)
    (hv : valueAt values (.atom a) e s = .ok v) (hw : valueAt values (.atom a) e t = .ok w) :
    |w - v| ≤ C * |t - s| := by
  have h := hI.convex.norm_image_sub_le_of_norm_hasDerivWithin_le
    (fun u hu => deriv_within hvals ha hd he hu (hd' hu))
    (fun u hu => hC u hu _ (value_ok (hd' hu))) hs ht
  rwa [valueOrZero_eq hv, valueOrZero_eq hw] at h

/-- Where the derivative is at most 0 on an interval the expression decreases, strictly where it is less. -/
theorem C83_decreasing (values : Dict Expr ℝ) (hvals : SymbolValues values) (a : Atom Val)
    (ha : a.atomType ≠ Ty.integer) (e d : Expr) (hd : e.diff (.atom a) = .ok d) (I : Set ℝ)
    (hI : I.OrdConnected) (he : I ⊆ domainOf values (.atom a) e) (hd' : I ⊆ domainOf values (.atom a) d)
    (s t v w : ℝ) (hs : s ∈ I) (ht : t ∈ I)
    (hv : valueAt values (.atom a) e s = .ok v) (hw : valueAt values (.atom a) e t = .ok w) :
    ((∀ u ∈ I, ∀ r, valueAt values (.atom a) d u = .ok r → r ≤ 0) → s ≤ t → w ≤ v) ∧
    ((∀ u ∈ I, ∀ r, valueAt values (.atom a) d u = .ok r → r < 0) → s < t → w < v) := by
  have hc := continuous_on hvals ha hd he hd'
  have hda : ∀ u ∈ interior I, _ := fun u hu => deriv_at hvals ha hd he hd' hu
  refine ⟨fun h hst => ?_, fun h hst => ?_⟩
  · have := antitoneOn_of_deriv_nonpos hI.convex hc (fun u hu => (hda u hu).differentiableAt.differentiableWithinAt)
      (fun u hu => by
        rw [(hda u hu).deriv]
        exact h u (interior_subset hu) _ (value_ok (hd' (interior_subset hu)))) hs ht hst
    rwa [valueOrZero_eq hv, valueOrZero_eq hw] at this
  · have := strictAntiOn_of_deriv_neg hI.convex hc (fun u hu => by
        rw [(hda u hu).deriv]
        exact h u (interior_subset hu) _ (value_ok (hd' (interior_subset hu)))) hs ht hst
    rwa [valueOrZero_eq hv, valueOrZero_eq hw] at this

/-- At a local minimum or maximum of an expression that has values around it, the value of the derivative is 0. -/
theorem C83_extremum (values : Dict Expr ℝ) (hvals : SymbolValues values) (a : Atom Val)
    (ha : a.atomType ≠ Ty.integer) (e d : Expr) (hd : e.diff (.atom a) = .ok d) (t₀ v r : ℝ)
    (he : domainOf values (.atom a) e ∈ nhds t₀) (hv : valueAt values (.atom a) e t₀ = .ok v)
    (hr : valueAt values (.atom a) d t₀ = .ok r)
    (h : (∀ᶠ t in nhds t₀, ∀ w, valueAt values (.atom a) e t = .ok w → v ≤ w) ∨
      ∀ᶠ t in nhds t₀, ∀ w, valueAt values (.atom a) e t = .ok w → w ≤ v) : r = 0 := by
  have h1 := C22_diff_is_derivative_at values hvals a ha e d hd t₀ r he hr _ (valueOrZero_denotes values _ _)
  rcases h with h | h
  · refine IsLocalMin.hasDerivAt_eq_zero ?_ h1
    filter_upwards [h, he] with t h ht
    rw [valueOrZero_eq hv]
    exact h _ (value_ok ht)
  · refine IsLocalMax.hasDerivAt_eq_zero ?_ h1
    filter_upwards [h, he] with t h ht
    rw [valueOrZero_eq hv]
    exact h _ (value_ok ht)

/-- The integral of the derivative is the difference of the values. -/
theorem C83_integral (values : Dict Expr ℝ) (hvals : SymbolValues values) (a : Atom Val)
    (ha : a.atomType ≠ Ty.integer) (e d d₂ : Expr) (hd : e.diff (.atom a) = .ok d)
    (hd₂ : d.diff (.atom a) = .ok d₂) (s t v w : ℝ) (he : Set.uIcc s t ⊆ domainOf values (.atom a) e)
    (hd' : Set.uIcc s t ⊆ domainOf values (.atom a) d) (hd₂' : Set.uIcc s t ⊆ domainOf values (.atom a) d₂)
    (hv : valueAt values (.atom a) e s = .ok v) (hw : valueAt values (.atom a) e t = .ok w)
    (G : ℝ → ℝ) (hG : Denotes values (.atom a) d G) : ∫ u in s..t, G u = w - v := by
  have hc := continuous_on hvals ha hd he hd'
  have hG' : Set.EqOn (valueOrZero values (.atom a) d) G (Set.uIcc s t) :=
    fun u hu => (hG u _ (value_ok (hd' hu))).symm
  have hcG : ContinuousOn G (Set.uIcc s t) := (continuous_on hvals ha hd₂ hd' hd₂').congr hG'.symm
  rw [← valueOrZero_eq hv, ← valueOrZero_eq hw]
  refine intervalIntegral.integral_eq_sub_of_hasDeriv_right hc (fun u hu => ?_) hcG.intervalIntegrable
  have hu' : u ∈ interior (Set.uIcc s t) := by rw [Set.uIcc, interior_Icc]; exact hu
  have := deriv_at hvals ha hd he hd' hu'
  rw [hG' (interior_subset hu')] at this
  exact this.hasDerivWithinAt

theorem diff_succ_of {e d d' : Expr} {x : Expr} {k : ℕ} (h : e.diff x (k : Int) = .ok d)
    (h' : e.diff x ((k + 1 : ℕ) : Int) = .ok d') : d.diff x = .ok d' := by
  have h1 := (C25_repeated builtinDiff e x).2.2.2 k (by omega)
  rw [show ((k + 1 : ℕ) : Int) = (k : Int) + 1 by push_cast; ring, h1, h] at h'
  exact h'

/-- Taylor's formula with the remainder of Lagrange: the value of `e` at `t` is the sum of the values of
`e.diff(x, k)` at `s`, times `(t - s)**k / k!`, for `k ≤ n`, and the same with `n + 1` at a point between `s` and `t`. -/
theorem C83_taylor (values : Dict Expr ℝ) (hvals : SymbolValues values) (a : Atom Val)
    (ha : a.atomType ≠ Ty.integer) (e : Expr) (n : ℕ) (d : ℕ → Expr)
    (hd : ∀ k ≤ n + 1, e.diff (.atom a) (k : Int) = .ok (d k)) (s t : ℝ) (hst : s ≠ t)
    (hdom : ∀ k ≤ n + 1, Set.uIcc s t ⊆ domainOf values (.atom a) (d k)) (v : ℕ → ℝ)
    (hv : ∀ k ≤ n, valueAt values (.atom a) (d k) s = .ok (v k)) (w : ℝ)
    (hw : valueAt values (.atom a) e t = .ok w) :
    ∃ u ∈ Set.uIoo s t, ∃ r, valueAt values (.atom a) (d (n + 1)) u = .ok r ∧
      w = (∑ k ∈ Finset.range (n + 1), v k / k.factorial * (t - s) ^ k) +
        r / (n + 1).factorial * (t - s) ^ (n + 1) := by
  have h0 : d 0 = e := by
    have := hd 0 (by omega)
    rw [(C25_repeated builtinDiff e (.atom a)).2.1 (0 : ℕ) (by simp)] at this
    cases this; rfl
  have huniq : UniqueDiffOn ℝ (Set.uIcc s t) := uniqueDiffOn_Icc (inf_lt_sup.2 hst)
  have hder : ∀ k < n + 1, ∀ u ∈ Set.uIcc s t, HasDerivWithinAt (valueOrZero values (.atom a) (d k))
      (valueOrZero values (.atom a) (d (k + 1)) u) (Set.uIcc s t) u := fun k hk u hu =>
    deriv_within hvals ha (diff_succ_of (hd k (by omega)) (hd (k + 1) (by omega))) (hdom k (by omega)) hu
      (hdom (k + 1) (by omega) hu)
  have hit : ∀ k ≤ n + 1, Set.EqOn (iteratedDerivWithin k (valueOrZero values (.atom a) e) (Set.uIcc s t))
      (valueOrZero values (.atom a) (d k)) (Set.uIcc s t) := by
    intro k
    induction k with
    | zero => intro _ u _; rw [iteratedDerivWithin_zero, h0]
    | succ k ih =>
      intro hk u hu
      rw [iteratedDerivWithin_succ, derivWithin_congr (ih (by omega)) (ih (by omega) hu)]
      exact (hder k (by omega) u hu).derivWithin (huniq u hu)
  have hdiff : ∀ k < n + 1, DifferentiableOn ℝ
      (iteratedDerivWithin k (valueOrZero values (.atom a) e) (Set.uIcc s t)) (Set.uIcc s t) := fun k hk u hu =>
    ((hder k hk u hu).differentiableWithinAt).congr (fun x hx => hit k (by omega) hx) (hit k (by omega) hu)
  have hcont : ContDiffOn ℝ n (valueOrZero values (.atom a) e) (Set.uIcc s t) :=
    contDiffOn_of_differentiableOn_deriv (n := (n : ℕ∞)) fun m hm => hdiff m (by
      have : m ≤ n := by exact_mod_cast hm
      omega)
  obtain ⟨u, hu, h⟩ := taylor_mean_remainder_lagrange hst hcont
    ((hdiff n (by omega)).mono Set.uIoo_subset_uIcc_self)
  have hu' : u ∈ Set.uIcc s t := Set.uIoo_subset_uIcc_self hu
  refine ⟨u, hu, _, value_ok (hdom (n + 1) (by omega) hu'), ?_⟩
  rw [hit (n + 1) le_rfl hu', taylor_within_apply, valueOrZero_eq hw] at h
  have hsum : ∑ k ∈ Finset.range (n + 1), ((k.factorial : ℝ)⁻¹ * (t - s) ^ k) •
      iteratedDerivWithin k (valueOrZero values (.atom a) e) (Set.uIcc s t) s =
      ∑ k ∈ Finset.range (n + 1), v k / k.factorial * (t - s) ^ k := by
    refine Finset.sum_congr rfl fun k hk => ?_
    have hk' : k ≤ n := by have := Finset.mem_range.1 hk; omega
    rw [hit k (by omega) Set.left_mem_uIcc, valueOrZero_eq (hv k hk'), smul_eq_mul]
    ring
  rw [hsum] at h
  have : w = (∑ k ∈ Finset.range (n + 1), v k / k.factorial * (t - s) ^ k) +
      valueOrZero values (.atom a) (d (n + 1)) u * (t - s) ^ (n + 1) / (n + 1).factorial := by linarith
  rw [this]; ring

/-! ### The theorems apply: `sin(x)`, `x*x`, `x + 1`, `x - x` -/

theorem calc_value {e : Expr} {t v w : ℝ}
    (h : F64Value realOps ((Dict.empty : Dict Expr ℝ).set x t).get? e v) (hw : v = w) :
    valueAt Dict.empty x e t = .ok w :=
  hw ▸ (C51_eval_f64 _ _ _ (Dict.keys_set_nodup _ noValues.unique _ _) _).2 h

theorem calc_x (t : ℝ) : F64Value realOps ((Dict.empty : Dict Expr ℝ).set x t).get? x t :=
  .given rfl (Dict.get?_set_self _ _ _) rfl

theorem calc_int (t : ℝ) (n : ℤ) :
    F64Value realOps ((Dict.empty : Dict Expr ℝ).set x t).get? (integer n) (n : ℝ) :=
  .integer (fun v h => by
    rw [Dict.get?_set_ne _ _ (by unfold integer x symbol; simp [Ty.symbol, Ty.integer])] at h; cases h) rfl

theorem calc_sin (t : ℝ) : valueAt Dict.empty x (sin x) t = .ok (Real.sin t) ∧
    valueAt Dict.empty x (cos x) t = .ok (Real.cos t) ∧
    valueAt Dict.empty x (mul negone (sin x)) t = .ok (-Real.sin t) := by
  have hs : F64Value realOps ((Dict.empty : Dict Expr ℝ).set x t).get? (sin x) (Real.sin t) :=
    .sine (calc_x t) rfl
  refine ⟨calc_value hs rfl, calc_value (.cosine (calc_x t) rfl) rfl, ?_⟩
  exact calc_value (.product (.cons (calc_int t (-1)) (.cons hs .nil)) rfl) (by simp)

theorem calc_square (t : ℝ) : valueAt Dict.empty x (mul x x) t = .ok (t * t) ∧
    valueAt Dict.empty x (add (mul one x) (mul x one)) t = .ok (2 * t) ∧
    valueAt Dict.empty x (add (mul one one) (mul one one)) t = .ok 2 := by
  have h11 : F64Value realOps ((Dict.empty : Dict Expr ℝ).set x t).get? (mul one one) 1 :=
    .product (.cons (calc_int t 1) (.cons (calc_int t 1) .nil)) (by simp [realOps])
  have h1 : F64Value realOps ((Dict.empty : Dict Expr ℝ).set x t).get? (mul one x) t :=
    .product (.cons (calc_int t 1) (.cons (calc_x t) .nil)) (by simp [realOps])
  have h2 : F64Value realOps ((Dict.empty : Dict Expr ℝ).set x t).get? (mul x one) t :=
    .product (.cons (calc_x t) (.cons (calc_int t 1) .nil)) (by simp [realOps])
  refine ⟨calc_value (.product (.cons (calc_x t) (.cons (calc_x t) .nil)) rfl) (by simp), ?_, ?_⟩
  · exact calc_value (.sum (.cons h1 (.cons h2 .nil)) rfl) (by simp; ring)
  · exact calc_value (.sum (.cons h11 (.cons h11 .nil)) rfl) (by norm_num)

theorem calc_all {e : Expr} {F : ℝ → ℝ} (h : ∀ t, valueAt Dict.empty x e t = .ok (F t)) (I : Set ℝ) :
    I ⊆ domainOf Dict.empty x e := fun t _ => ⟨_, h t⟩

/-- `sin(t) = t - sin(u) * t**2 / 2` for a `u` between 0 and `t`. -/
example (t : ℝ) (ht : 0 ≠ t) : ∃ u ∈ Set.uIoo 0 t, Real.sin t = t - Real.sin u / 2 * t ^ 2 := by
  obtain ⟨u, hu, r, hr, h⟩ := C83_taylor Dict.empty noValues ⟨Ty.symbol, .str "x"⟩ (by decide) (sin x) 1
    (fun k => match k with | 0 => sin x | 1 => cos x | _ => mul negone (sin x))
    (by intro k hk; interval_cases k <;> decide +kernel) 0 t ht
    (by intro k hk; interval_cases k
        · exact calc_all (fun t => (calc_sin t).1) _
        · exact calc_all (fun t => (calc_sin t).2.1) _
        · exact calc_all (fun t => (calc_sin t).2.2) _)
    (fun k => if k = 0 then 0 else 1)
    (by intro k hk; interval_cases k
        · have := (calc_sin 0).1; rwa [Real.sin_zero] at this
        · have := (calc_sin 0).2.1; rwa [Real.cos_zero] at this)
    _ (calc_sin t).1
  have hr' := (calc_sin u).2.2
  have : r = -Real.sin u := Except.ok.inj (hr.symm.trans hr')
  subst this
  refine ⟨u, hu, ?_⟩
  rw [h]
  simp [Finset.sum_range_succ, Nat.factorial]
  ring

/-- `x*x` increases where `x` is positive, is convex, has a minimum at 0 and is the integral of its derivative. -/
example : (∀ s t : ℝ, 0 < s → s < t → s * s < t * t) ∧
    (∀ s t p q : ℝ, 0 ≤ p → 0 ≤ q → p + q = 1 → (p * s + q * t) * (p * s + q * t) ≤ p * (s * s) + q * (t * t)) ∧
    (∀ᶠ t in nhds (0 : ℝ), 0 ≤ t * t) ∧ ∀ s t : ℝ, ∫ u in s..t, 2 * u = t * t - s * s := by
  have h1 : (mul x x).diff x = .ok (add (mul one x) (mul x one)) := by decide +kernel
  have h2 : (add (mul one x) (mul x one)).diff x = .ok (add (mul one one) (mul one one)) := by decide +kernel
  have v0 := fun t => (calc_square t).1
  have v1 := fun t => (calc_square t).2.1
  have v2 := fun t => (calc_square t).2.2
  refine ⟨fun s t hs hst => ?_, fun s t p q hp hq hpq => ?_, ?_, fun s t => ?_⟩
  · exact (C83_increasing Dict.empty noValues ⟨Ty.symbol, .str "x"⟩ (by decide) _ _ h1 (Set.Ioi 0) Set.ordConnected_Ioi
      (calc_all v0 _) (calc_all v1 _) s t _ _ hs (hs.trans hst) (v0 s) (v0 t)).2 (fun u hu r hr => by
        have hr := Except.ok.inj ((v1 u).symm.trans hr)
        have : (0 : ℝ) < u := hu
        rw [← hr]; positivity) hst
  · exact C83_convex Dict.empty noValues ⟨Ty.symbol, .str "x"⟩ (by decide) _ _ _ h1 h2 Set.univ Set.ordConnected_univ
      (calc_all v0 _) (calc_all v1 _) (calc_all v2 _) (fun u _ r hr => by
        have hr := Except.ok.inj ((v2 u).symm.trans hr)
        rw [← hr]; norm_num) s t _ _ p q _ trivial trivial hp hq hpq (v0 s) (v0 t) (v0 _)
  · have := C83_second_derivative_test Dict.empty noValues ⟨Ty.symbol, .str "x"⟩ (by decide) _ _ _ h1 h2 0 _ _
      (Filter.mem_of_superset Filter.univ_mem (calc_all v0 _)) (Filter.mem_of_superset Filter.univ_mem (calc_all v1 _))
      (v0 0) (by have := v1 0; rwa [mul_zero] at this) (v2 0) (by norm_num)
    filter_upwards [this] with t h
    have := h _ (v0 t)
    rwa [mul_zero] at this
  · exact C83_integral Dict.empty noValues ⟨Ty.symbol, .str "x"⟩ (by decide) _ _ _ h1 h2 s t _ _
      (calc_all v0 _) (calc_all v1 _) (calc_all v2 _) (v0 s) (v0 t) _ (fun u r hr => Except.ok.inj ((v1 u).symm.trans hr))

/-- `|sin(t) - sin(s)| ≤ |t - s|`; `x*x` decreases where `x` is negative. -/
example : (∀ s t : ℝ, |Real.sin t - Real.sin s| ≤ 1 * |t - s|) ∧ ∀ s t : ℝ, s < t → t < 0 → t * t < s * s := by
  have v0 := fun t => (calc_square t).1
  have v1 := fun t => (calc_square t).2.1
  refine ⟨fun s t => ?_, fun s t hst ht => ?_⟩
  · exact C83_bound Dict.empty noValues ⟨Ty.symbol, .str "x"⟩ (by decide) (sin x) (cos x) (by decide +kernel) Set.univ
      Set.ordConnected_univ (calc_all (fun t => (calc_sin t).1) _) (calc_all (fun t => (calc_sin t).2.1) _) 1
      (fun u _ r hr => by rw [← Except.ok.inj ((calc_sin u).2.1.symm.trans hr)]; exact Real.abs_cos_le_one u) s t _ _
      trivial trivial (calc_sin s).1 (calc_sin t).1
  · exact (C83_decreasing Dict.empty noValues ⟨Ty.symbol, .str "x"⟩ (by decide) (mul x x)
      (add (mul one x) (mul x one)) (by decide +kernel) (Set.Iio 0) Set.ordConnected_Iio
      (calc_all v0 _) (calc_all v1 _) s t _ _ (hst.trans ht) ht (v0 s) (v0 t)).2 (fun u hu r hr => by
        have hr := Except.ok.inj ((v1 u).symm.trans hr)
        have : u < 0 := hu
        rw [← hr]; linarith) hst

/-- What `C83_extremum` asks for: the minimum of `x*x` at 0. -/
example : ∃ v r, valueAt Dict.empty x (mul x x) 0 = .ok v ∧
    valueAt Dict.empty x (add (mul one x) (mul x one)) 0 = .ok r ∧ r = 0 ∧
    ∀ᶠ t in nhds (0 : ℝ), ∀ w, valueAt Dict.empty x (mul x x) t = .ok w → v ≤ w := by
  have hmin : ∀ᶠ t in nhds (0 : ℝ), ∀ w, valueAt Dict.empty x (mul x x) t = .ok w → 0 * 0 ≤ w := by
    filter_upwards with t w hw
    rw [← Except.ok.inj ((calc_square t).1.symm.trans hw), mul_zero]
    exact mul_self_nonneg t
  exact ⟨_, _, (calc_square 0).1, (calc_square 0).2.1,
    C83_extremum Dict.empty noValues ⟨Ty.symbol, .str "x"⟩ (by decide) (mul x x) _ (by decide +kernel) 0 _ _
      (Filter.mem_of_superset Filter.univ_mem (calc_all (fun t => (calc_square t).1) _)) (calc_square 0).1
      (calc_square 0).2.1 (.inl hmin), hmin⟩

theorem calc_line (t : ℝ) : valueAt Dict.empty x x t = .ok t ∧ valueAt Dict.empty x (add x one) t = .ok (t + 1) ∧
    valueAt Dict.empty x one t = .ok 1 ∧ valueAt Dict.empty x (add x (mul negone x)) t = .ok 0 ∧
    valueAt Dict.empty x (add one (mul negone one)) t = .ok 0 := by
  have h1 : F64Value realOps ((Dict.empty : Dict Expr ℝ).set x t).get? (mul negone x) (-t) :=
    .product (.cons (calc_int t (-1)) (.cons (calc_x t) .nil)) (by simp [realOps])
  have h2 : F64Value realOps ((Dict.empty : Dict Expr ℝ).set x t).get? (mul negone one) (-1) :=
    .product (.cons (calc_int t (-1)) (.cons (calc_int t 1) .nil)) (by simp [realOps])
  refine ⟨calc_value (calc_x t) rfl, ?_, calc_value (calc_int t 1) (by simp), ?_, ?_⟩
  · exact calc_value (.sum (.cons (calc_x t) (.cons (calc_int t 1) .nil)) rfl) (by simp)
  · exact calc_value (.sum (.cons (calc_x t) (.cons h1 .nil)) rfl) (by simp)
  · exact calc_value (.sum (.cons (calc_int t 1) (.cons h2 .nil)) rfl) (by simp)

/-- `x + 1` and `x` differ by a constant; `x - x` is one. -/
example (s t : ℝ) : t + 1 - t = s + 1 - s ∧
    valueAt Dict.empty x (add x (mul negone x)) s = valueAt Dict.empty x (add x (mul negone x)) t := by
  refine ⟨?_, ?_⟩
  · exact C83_same_derivative Dict.empty noValues ⟨Ty.symbol, .str "x"⟩ (by decide) (add x one) x one one
      (by decide +kernel) (by decide +kernel) Set.univ Set.ordConnected_univ
      (calc_all (fun t => (calc_line t).2.1) _) (calc_all (fun t => (calc_line t).1) _)
      (fun u _ => ⟨1, (calc_line u).2.2.1, (calc_line u).2.2.1⟩) s t trivial trivial _ _ _ _
      (calc_line s).2.1 (calc_line s).1 (calc_line t).2.1 (calc_line t).1
  · exact C83_constant Dict.empty noValues ⟨Ty.symbol, .str "x"⟩ (by decide) _ (add one (mul negone one))
      (by decide +kernel) Set.univ Set.ordConnected_univ (calc_all (fun t => (calc_line t).2.2.2.1) _)
      (fun u _ => (calc_line u).2.2.2.2) s t trivial trivial

end Verif.Props
