import Mathlib.Analysis.Calculus.LocalExtr.Basic
import Mathlib.Analysis.Calculus.FDeriv.Prod
import Verif.Props.Chain
import Verif.Lemmas.Gradient
import Verif.Spec.Gradient
import Verif.Props.Matrix

/-!
# C81: the derivatives together are the total derivative
-/

namespace Verif.Props
open Spec Expr Mixed

/-- **C81, general.** Let the values of the symbols `xs` depend differentiably on a point `p` of a
normed space, the other values not depend on `p`, and `e` have a value for all `p` of a set `S`.  If,
at `p₀ ∈ S`, every `e.diff(x)` has a value, then the value of `e` is a differentiable function of
`p ∈ S`, and its derivative is the sum of the values of `e.diff(x)` times the derivatives of the
values of `x`. -/
theorem C81_total_derivative {E : Type} [NormedAddCommGroup E] [NormedSpace ℝ E] (S : Set E) (p₀ : E)
    (hp : p₀ ∈ S) (e : Expr) (xs : List Expr) (hxs : Symbols xs) (hnd : xs.Nodup)
    (values : E → Dict Expr ℝ) (hv : ∀ p ∈ S, SymbolValues (values p))
    (γ : Expr → E → ℝ) (γ' : Expr → E →L[ℝ] ℝ)
    (hsym : ∀ x ∈ xs, ∀ p ∈ S, (values p).get? x = some (γ x p))
    (hother : ∀ t, t ∉ xs → ∀ p ∈ S, (values p).get? t = (values p₀).get? t)
    (hγ : ∀ x ∈ xs, HasFDerivWithinAt (γ x) (γ' x) S p₀)
    (F : E → ℝ) (hF : ∀ p ∈ S, e.evalF64 realOps (some (values p)) = .ok (F p))
    (a : Expr → ℝ)
    (ha : ∀ x ∈ xs, ∃ d, e.diff x = .ok d ∧ d.evalF64 realOps (some (values p₀)) = .ok (a x)) :
    HasFDerivWithinAt F (xs.map fun x => a x • γ' x).sum S p₀ := by
  classical
  have hex : ∀ t u s, Expr.diff t s = .ok u ↔ Derives simplecasTable s t u := fun t u s =>
    C52_diff_exact simplecasTable builtinDiff C52_builtin t s u
  have hvalue : ∀ {vals : Dict Expr ℝ}, SymbolValues vals → ∀ {t : Expr} {u : ℝ},
      t.evalF64 realOps (some vals) = .ok u → F64Value realOps vals.get? t u := by
    intro vals hvals t u h
    rwa [C51_eval_f64 _ _ _ hvals.unique] at h
  have hv0 := hv p₀ hp
  have hleaf : ∀ k ∈ xs, Tree.children k = [] := by
    intro k hk
    obtain ⟨s, rfl⟩ := hxs k hk
    rfl
  obtain ⟨h1, D, h2, h3⟩ := follows_ev (S := S) (p₀ := p₀) hv0 xs hleaf
    (fun p => given (values p)) γ' hp rfl
    (fun k hk => (hγ k hk).congr (fun p hp => by unfold given; rw [hsym k hk p hp]; rfl)
      (by unfold given; rw [hsym k hk p₀ hp]; rfl))
    (fun t ht p hp => by unfold given; rw [hother t ht p hp]) e
    (fun k hk => by
      obtain ⟨d, hd1, hd2⟩ := ha k hk
      exact ⟨d, (hex _ _ _).1 hd1, _, hvalue hv0 hd2⟩)
  have h4 : HasFDerivWithinAt F D S p₀ :=
    h3.congr (fun p hp => (ev_value (hv p hp) e (hvalue (hv p hp) (hF p hp))).symm)
      (ev_value hv0 e (hvalue hv0 (hF p₀ hp))).symm
  have h5 : D = (xs.map fun x => a x • γ' x).sum := by
    ext v
    choose! d hd1 hd2 using ha
    have key := ev_total_derivative realFns (given (values p₀)) (given_ints hv0) e
      (xs.map fun k => (k, γ' k v, d k)) (by
        intro q hq
        obtain ⟨k, hk, rfl⟩ := List.mem_map.1 hq
        exact (hex _ _ _).1 (hd1 k hk))
    have hdir : (direction (xs.map fun k => (k, γ' k v, d k)) : Expr → ℝ) =
        fun t => if t ∈ xs then γ' t v else 0 := by
      funext t
      unfold direction
      rw [List.map_map]
      exact sum_indicator xs hnd t fun k => γ' k v
    rw [hdir] at key
    have h6 : ((xs.map fun x => a x • γ' x).sum) v = (xs.map fun x => a x * γ' x v).sum := by
      have := map_list_sum (ContinuousLinearMap.apply ℝ ℝ v) (xs.map fun x => a x • γ' x)
      rw [List.map_map] at this
      exact this
    rw [h2, key, h6, List.map_map]
    refine congrArg List.sum (List.map_congr_left fun k hk => ?_)
    change γ' k v * ev realFns (given (values p₀)) (d k) = _
    rw [ev_value hv0 _ (hvalue hv0 (hd2 k hk)), mul_comm]
  rwa [h5] at h4

theorem atPoint_aux {values : Dict Expr ℝ} (hv : SymbolValues values) {n : ℕ} {x : Fin n → String}
    (hx : Function.Injective x) (q : Fin n → ℝ) (l : List (Fin n)) :
    SymbolValues (l.foldl (fun d i => d.set (symbol (x i)) (q i)) values) ∧
    (∀ i ∈ l, (l.foldl (fun d i => d.set (symbol (x i)) (q i)) values).get? (symbol (x i)) = some (q i)) ∧
    ∀ t, (∀ i ∈ l, t ≠ symbol (x i)) →
      (l.foldl (fun d i => d.set (symbol (x i)) (q i)) values).get? t = values.get? t := by
  induction l generalizing values with
  | nil => exact ⟨hv, fun _ h => (by cases h), fun _ _ => rfl⟩
  | cons j l ih =>
    have hv' : SymbolValues (values.set (symbol (x j)) (q j)) := by
      refine ⟨Dict.keys_set_nodup _ hv.unique _ _, fun m => ?_⟩
      rw [Dict.get?_set, if_neg, hv.noInteger m]
      intro h
      exact absurd (congrArg Atom.atomType (Tree.atom.inj h)) (show Ty.symbol ≠ Ty.integer by decide)
    obtain ⟨h1, h2, h3⟩ := ih hv'
    rw [List.foldl_cons]
    refine ⟨h1, fun i hi => ?_, fun t ht => ?_⟩
    · by_cases hil : i ∈ l
      · exact h2 i hil
      · obtain rfl : i = j := by
          rcases List.mem_cons.1 hi with h | h
          · exact h
          · exact absurd h hil
        rw [h3 _ fun k hk h => ?_, Dict.get?_set, if_pos rfl]
        have h4 : x i = x k := by
          have := Tree.atom.inj h
          injection this with _ h5
          injection h5
        exact hil (hx h4 ▸ hk)
    · rw [h3 t fun i hi => ht i (List.mem_cons_of_mem _ hi), Dict.get?_set,
        if_neg fun h => ht j List.mem_cons_self h.symm]

theorem atPoint_spec {values : Dict Expr ℝ} (hv : SymbolValues values) {n : ℕ} {x : Fin n → String}
    (hx : Function.Injective x) (q : Fin n → ℝ) :
    SymbolValues (atPoint values x q) ∧ (∀ i, (atPoint values x q).get? (symbol (x i)) = some (q i)) ∧
    ∀ t, (∀ i, t ≠ symbol (x i)) → (atPoint values x q).get? t = values.get? t := by
  obtain ⟨h1, h2, h3⟩ := atPoint_aux hv hx q (List.finRange n)
  exact ⟨h1, fun i => h2 i (List.mem_finRange i), fun t ht => h3 t fun i _ => ht i⟩

/-- The values depend on a point, through those of the symbols `x`. -/
theorem total_of_point {E : Type} [NormedAddCommGroup E] [NormedSpace ℝ E] (S : Set E) (p₀ : E)
    (hp : p₀ ∈ S) {values : Dict Expr ℝ} (hv : SymbolValues values) {n : ℕ} {x : Fin n → String}
    (hx : Function.Injective x) (e : Expr) (γ : Fin n → E → ℝ) (γ' : Fin n → E →L[ℝ] ℝ)
    (hγ : ∀ i, HasFDerivWithinAt (γ i) (γ' i) S p₀) (F : E → ℝ)
    (hF : ∀ p ∈ S, valueAtPoint values x e (fun i => γ i p) = .ok (F p)) (a : Fin n → ℝ)
    (ha : PartialsAt values x e (fun i => γ i p₀) a) :
    HasFDerivWithinAt F (∑ i, a i • γ' i) S p₀ := by
  classical
  have hinj : Function.Injective fun i => (symbol (x i) : Expr) := by
    intro i j h
    have := Tree.atom.inj h
    injection this with _ h5
    injection h5 with h6
    exact hx h6
  let idx : Expr → Option (Fin n) := fun t => (List.finRange n).find? fun i => t = symbol (x i)
  have hidx : ∀ i, idx (symbol (x i)) = some i := by
    intro i
    cases h : idx (symbol (x i)) with
    | none =>
      have := List.find?_eq_none.1 h i (List.mem_finRange i)
      simp at this
    | some j =>
      have := List.find?_some h
      rw [decide_eq_true_eq] at this
      rw [hinj this]
  have key := C81_total_derivative S p₀ hp e ((List.finRange n).map fun i => symbol (x i))
    (fun t ht => by
      obtain ⟨i, _, rfl⟩ := List.mem_map.1 ht
      exact ⟨x i, rfl⟩)
    ((List.nodup_finRange n).map hinj) (fun p => atPoint values x fun i => γ i p)
    (fun p _ => (atPoint_spec hv hx _).1)
    (fun t p => match idx t with | some i => γ i p | none => 0)
    (fun t => match idx t with | some i => γ' i | none => 0)
    (fun t ht p _ => by
      obtain ⟨i, _, rfl⟩ := List.mem_map.1 ht
      rw [(atPoint_spec hv hx _).2.1 i, hidx])
    (fun t ht p _ => by
      have ht' : ∀ i, t ≠ symbol (x i) := fun i h =>
        ht (List.mem_map.2 ⟨i, List.mem_finRange i, h.symm⟩)
      rw [(atPoint_spec hv hx _).2.2 t ht', (atPoint_spec hv hx _).2.2 t ht'])
    (fun t ht => by
      obtain ⟨i, _, rfl⟩ := List.mem_map.1 ht
      simp only [hidx]
      exact hγ i)
    F hF (fun t => match idx t with | some i => a i | none => 0)
    (fun t ht => by
      obtain ⟨i, _, rfl⟩ := List.mem_map.1 ht
      simp only [hidx]
      exact ha i)
  convert key using 1
  rw [List.map_map, ← List.ofFn_eq_map, List.sum_ofFn]
  refine Finset.sum_congr rfl fun i _ => ?_
  simp only [Function.comp_apply, hidx]

/-- **C81, gradient.** Where `e` and all `e.diff(x_i)` have a value, the values of the derivatives are
the gradient of the function of `x_0, x_1, ...` that `e` denotes: the value of `e` at a near point `q`
is its value at `q₀`, plus the sum of the derivatives times `q_i - q₀_i`, up to terms that are small
against `q - q₀`. -/
theorem C81_gradient (values : Dict Expr ℝ) (hv : SymbolValues values) {n : ℕ} (x : Fin n → String)
    (hx : Function.Injective x) (e : Expr) (q₀ a : Fin n → ℝ) (h0 : q₀ ∈ domainIn values x e)
    (ha : PartialsAt values x e q₀ a) (F : (Fin n → ℝ) → ℝ) (hF : DenotesIn values x e F) :
    HasFDerivWithinAt F (∑ i, a i • ContinuousLinearMap.proj (R := ℝ) (φ := fun _ => ℝ) i)
      (domainIn values x e) q₀ := by
  refine total_of_point _ q₀ h0 hv hx e (fun i q => q i) _ (fun i => ?_) F ?_ a ha
  · exact (ContinuousLinearMap.proj (R := ℝ) (φ := fun _ : Fin n => ℝ) i).hasFDerivWithinAt
  · rintro p ⟨v, hpv⟩
    change valueAtPoint values x e p = _
    rw [hpv, hF p v hpv]

/-- **C81, curves.** If the values `γ_i(t)` of the symbols move with `t`, and `e` has a value all the
time around `t₀`, the value of `e` changes at the rate "sum of `e.diff(x_i)` times the rate of
`γ_i`". -/
theorem C81_curve (values : Dict Expr ℝ) (hv : SymbolValues values) {n : ℕ} (x : Fin n → String)
    (hx : Function.Injective x) (e : Expr) (γ : Fin n → ℝ → ℝ) (c a : Fin n → ℝ) (t₀ : ℝ)
    (hγ : ∀ i, HasDerivAt (γ i) (c i) t₀) (ha : PartialsAt values x e (fun i => γ i t₀) a) (F : ℝ → ℝ)
    (hF : ∀ᶠ t in nhds t₀, valueAtPoint values x e (fun i => γ i t) = .ok (F t)) :
    HasDerivAt F (∑ i, a i * c i) t₀ := by
  have h := total_of_point {t | valueAtPoint values x e (fun i => γ i t) = .ok (F t)} t₀ hF.self_of_nhds
    hv hx e γ _ (fun i => (hγ i).hasFDerivAt.hasFDerivWithinAt) F (fun p hp => hp) a ha
  have h' := (h.hasFDerivAt hF).hasDerivAt
  convert h' using 1
  have := map_sum (ContinuousLinearMap.apply ℝ ℝ (1 : ℝ)) (fun i => a i •
    ContinuousLinearMap.toSpanSingleton ℝ (c i)) Finset.univ
  refine Eq.trans ?_ this.symm
  refine Finset.sum_congr rfl fun i _ => ?_
  simp

/-- **C81, extrema.** At a local minimum or maximum, around which `e` has a value, every `e.diff(x_i)`
is 0. -/
theorem C81_extremum (values : Dict Expr ℝ) (hv : SymbolValues values) {n : ℕ} (x : Fin n → String)
    (hx : Function.Injective x) (e : Expr) (q₀ a : Fin n → ℝ) (h0 : domainIn values x e ∈ nhds q₀)
    (ha : PartialsAt values x e q₀ a) (F : (Fin n → ℝ) → ℝ) (hF : DenotesIn values x e F)
    (hmin : IsLocalExtr F q₀) : ∀ i, a i = 0 := by
  intro i
  have h := (C81_gradient values hv x hx e q₀ a (mem_of_mem_nhds h0) ha F hF).hasFDerivAt h0
  have h1 := hmin.hasFDerivAt_eq_zero h
  have h2 := congrArg (fun D : (Fin n → ℝ) →L[ℝ] ℝ => D (Pi.single i 1)) h1
  have h3 := map_sum (ContinuousLinearMap.apply ℝ ℝ (Pi.single i 1 : Fin n → ℝ)) (fun j => a j •
    ContinuousLinearMap.proj (R := ℝ) (φ := fun _ : Fin n => ℝ) j) Finset.univ
  have h4 := h3.symm.trans h2
  simpa [Pi.single_apply] using h4

/-- **C81, Jacobian.** The entries of the matrices `m.diff(x_0)`, `m.diff(x_1)`, ... are the gradients
of the entries of `m`. -/
theorem C81_jacobian (values : Dict Expr ℝ) (hv : SymbolValues values) {n : ℕ} (x : Fin n → String)
    (hx : Function.Injective x) (m : Mat) (hm : MatHistory m) (D : Fin n → Mat)
    (hD : ∀ i, m.diff (.expr (symbol (x i))) = .ok (D i)) (r c : ℕ) (e : Expr)
    (he : m.getItem (.pair r c) = .ok e) :
    ∃ d : Fin n → Expr, (∀ i, (D i).getItem (.pair r c) = .ok (d i)) ∧
      ∀ q₀ a : Fin n → ℝ, q₀ ∈ domainIn values x e →
      (∀ i, valueAtPoint values x (d i) q₀ = .ok (a i)) →
      ∀ F, DenotesIn values x e F →
        HasFDerivWithinAt F (∑ i, a i • ContinuousLinearMap.proj (R := ℝ) (φ := fun _ => ℝ) i)
          (domainIn values x e) q₀ := by
  have hl : listH ∈ builtinDiff.distributive := by rw [builtin_fields.2.2.2.2]; simp
  have key : ∀ i, ∃ d, e.diff (symbol (x i)) = .ok d ∧ (D i).getItem (.pair r c) = .ok d := fun i =>
    ((C33_diff_elementwise m hm builtinDiff hl builtin_fields.1 (symbol (x i))
      (fun h => absurd (congrArg Atom.atomType (Tree.atom.inj h))
        (show Ty.symbol ≠ Ty.integer by decide))).1 (D i) (hD i)).2.2 r c e he
  choose d h1 h2 using key
  refine ⟨d, h2, fun q₀ a h0 ha F hF => ?_⟩
  exact C81_gradient values hv x hx e q₀ a h0 (fun i => ⟨d i, h1 i, ha i⟩) F hF

/-! ### The hypotheses are met: `x**2*y` -/

theorem square_values (values : Dict Expr ℝ) (hv : SymbolValues values) (q : Fin 2 → ℝ) :
    valueAtPoint values ![ "x", "y"] (mul (pow x (integer 2)) y) q = .ok (q 0 ^ 2 * q 1) ∧
    ∃ d₀ d₁, (mul (pow x (integer 2)) y).diff x = .ok d₀ ∧ (mul (pow x (integer 2)) y).diff y = .ok d₁ ∧
      valueAtPoint values ![ "x", "y"] d₀ q = .ok (2 * q 0 * q 1) ∧
      valueAtPoint values ![ "x", "y"] d₁ q = .ok (q 0 ^ 2) := by
  have hinj : Function.Injective (![ "x", "y"] : Fin 2 → String) := by decide
  obtain ⟨h1, h2, _⟩ := atPoint_spec hv hinj q
  have hx : F64Value realOps (atPoint values ![ "x", "y"] q).get? x (q 0) := .given rfl (h2 0) rfl
  have hy : F64Value realOps (atPoint values ![ "x", "y"] q).get? y (q 1) := .given rfl (h2 1) rfl
  have hi : ∀ n : Int, F64Value realOps (atPoint values ![ "x", "y"] q).get? (integer n) (n : ℝ) := fun n =>
    .integer (fun v h => by rw [h1.noInteger] at h; cases h) rfl
  have hp : F64Value realOps (atPoint values ![ "x", "y"] q).get? (pow x (integer 2)) (q 0 ^ 2) := by
    refine .power hx (hi 2) ?_
    have : PowDefined (q 0) ((2 : ℤ) : ℝ) := ⟨fun _ => by norm_num, fun _ => ⟨2, rfl⟩⟩
    simp only [realOps, if_pos this]
    norm_num
  have hp1 : F64Value realOps (atPoint values ![ "x", "y"] q).get?
      (mul (integer 2) (pow x (add (integer 2) negone))) (2 * q 0) := by
    have ha : F64Value realOps (atPoint values ![ "x", "y"] q).get? (add (integer 2) negone) 1 :=
      .sum (.cons (hi 2) (.cons (hi (-1)) .nil)) (by simp [realOps]; norm_num)
    refine .product (.cons (hi 2) (.cons (.power (v := q 0) hx ha ?_) .nil)) (by simp [realOps])
    have : PowDefined (q 0) 1 := ⟨fun _ => by norm_num, fun _ => ⟨1, by simp⟩⟩
    simp only [realOps, if_pos this]
    norm_num
  refine ⟨?_, mul (mul (integer 2) (pow x (add (integer 2) negone))) y, mul (pow x (integer 2)) one, ?_, ?_, ?_, ?_⟩
  · exact (C51_eval_f64 _ _ _ h1.unique _).2 (.product (.cons hp (.cons hy .nil)) (by simp [realOps]))
  · decide +kernel
  · decide +kernel
  · exact (C51_eval_f64 _ _ _ h1.unique _).2 (.product (.cons hp1 (.cons hy .nil)) (by simp [realOps]))
  · exact (C51_eval_f64 _ _ _ h1.unique _).2
      (.product (.cons hp (.cons (hi 1) .nil)) (by simp [realOps]))

theorem square_partials (values : Dict Expr ℝ) (hv : SymbolValues values) (q : Fin 2 → ℝ) :
    PartialsAt values ![ "x", "y"] (mul (pow x (integer 2)) y) q ![2 * q 0 * q 1, q 0 ^ 2] := by
  obtain ⟨_, d₀, d₁, h1, h2, h3, h4⟩ := square_values values hv q
  intro i
  match i with
  | 0 => exact ⟨d₀, h1, h3⟩
  | 1 => exact ⟨d₁, h2, h4⟩

theorem noValues : SymbolValues (Dict.empty : Dict Expr ℝ) := ⟨List.nodup_nil, fun _ => rfl⟩

/-- The gradient of `x**2*y` at `(3, 5)` is `(30, 9)`. -/
example : HasFDerivWithinAt (fun q : Fin 2 → ℝ => q 0 ^ 2 * q 1)
    (∑ i, (![30, 9] : Fin 2 → ℝ) i • ContinuousLinearMap.proj (R := ℝ) (φ := fun _ => ℝ) i)
    (domainIn Dict.empty ![ "x", "y"] (mul (pow x (integer 2)) y)) ![3, 5] := by
  have h := square_partials _ noValues ![3, 5]
  have h' : (![2 * (![3, 5] : Fin 2 → ℝ) 0 * (![3, 5] : Fin 2 → ℝ) 1, (![3, 5] : Fin 2 → ℝ) 0 ^ 2] :
      Fin 2 → ℝ) = ![30, 9] := by
    norm_num
  rw [h'] at h
  refine C81_gradient _ noValues _ (by decide) _ _ _ ⟨_, (square_values _ noValues _).1⟩ h _ ?_
  intro q v hq
  rw [(square_values _ noValues q).1] at hq
  exact Except.ok.inj hq

/-- Along the curve `(cos t, sin t)`, at `t = 0`, it changes at the rate 1. -/
example : HasDerivAt (fun t : ℝ => Real.cos t ^ 2 * Real.sin t) 1 0 := by
  have h := C81_curve Dict.empty noValues ![ "x", "y"] (by decide) (mul (pow x (integer 2)) y)
    ![Real.cos, Real.sin] ![0, 1] _ 0 (fun i => by
      match i with
      | 0 => simpa using Real.hasDerivAt_cos 0
      | 1 => simpa using Real.hasDerivAt_sin 0) (square_partials _ noValues _)
    (fun t => Real.cos t ^ 2 * Real.sin t)
    (Filter.Eventually.of_forall fun t => by
      rw [(square_values _ noValues _).1]; rfl)
  simpa using h

/-- Near `(0, 5)` the function is not negative: a local minimum, where both derivatives are 0. -/
example : ∀ i, (![2 * 0 * 5, 0 ^ 2] : Fin 2 → ℝ) i = 0 := by
  have hall : domainIn Dict.empty ![ "x", "y"] (mul (pow x (integer 2)) y) = Set.univ :=
    Set.eq_univ_of_forall fun q => ⟨_, (square_values _ noValues q).1⟩
  refine C81_extremum Dict.empty noValues ![ "x", "y"] (by decide) (mul (pow x (integer 2)) y) ![0, 5] _
    (by rw [hall]; exact Filter.univ_mem) (square_partials _ noValues ![0, 5])
    (fun q => q 0 ^ 2 * q 1) (fun q v hq => ?_) (.inl ?_)
  · rw [(square_values _ noValues q).1] at hq
    exact Except.ok.inj hq
  · have hc : Filter.Eventually (fun q : Fin 2 → ℝ => 0 < q 1) (nhds ![0, 5]) :=
      (continuous_apply 1).continuousAt.eventually (Ioi_mem_nhds (by norm_num))
    filter_upwards [hc] with q hq
    have : (0 : ℝ) ^ 2 * 5 ≤ q 0 ^ 2 * q 1 := by
      have := mul_nonneg (sq_nonneg (q 0)) hq.le
      linarith
    simpa using this

/-- The matrix `[[x**2*y]]`. -/
def squareMat : Mat := Mat.mk' 1 1 [mul (pow x (integer 2)) y] ⟨[((0, 0), 0)]⟩

/-- Its derivatives are the Jacobian `[[30, 9]]` at `(3, 5)`. -/
example : ∃ D : Fin 2 → Mat, (∀ i, squareMat.diff (.expr (symbol (![ "x", "y"] i))) = .ok (D i)) ∧
    ∃ d : Fin 2 → Expr, (∀ i, (D i).getItem (.pair 0 0) = .ok (d i)) ∧
    (∀ i, valueAtPoint Dict.empty ![ "x", "y"] (d i) ![3, 5] = .ok ((![30, 9] : Fin 2 → ℝ) i)) ∧
    ∀ F, DenotesIn Dict.empty ![ "x", "y"] (mul (pow x (integer 2)) y) F →
      HasFDerivWithinAt F
        (∑ i, (![30, 9] : Fin 2 → ℝ) i • ContinuousLinearMap.proj (R := ℝ) (φ := fun _ => ℝ) i)
        (domainIn Dict.empty ![ "x", "y"] (mul (pow x (integer 2)) y)) ![3, 5] := by
  have hm : MatHistory squareMat :=
    .new (entries := .list [.list [.expr (mul (pow x (integer 2)) y)]]) (by decide)
  have hD : ∀ i, squareMat.diff (.expr (symbol (![ "x", "y"] i))) =
      .ok ((![Mat.mk' 1 1 [mul (mul (integer 2) (pow x (add (integer 2) negone))) y] ⟨[((0, 0), 0)]⟩,
        Mat.mk' 1 1 [mul (pow x (integer 2)) one] ⟨[((0, 0), 0)]⟩] : Fin 2 → Mat) i) := by
    decide +kernel
  obtain ⟨d, h1, h2⟩ := C81_jacobian Dict.empty noValues ![ "x", "y"] (by decide) squareMat hm _ hD 0 0
    (mul (pow x (integer 2)) y) rfl
  refine ⟨_, hD, d, h1, ?_⟩
  have hv : ∀ i, valueAtPoint Dict.empty ![ "x", "y"] (d i) ![3, 5] = .ok ((![30, 9] : Fin 2 → ℝ) i) := by
    have h := square_partials _ noValues ![3, 5]
    have h' : (![2 * (![3, 5] : Fin 2 → ℝ) 0 * (![3, 5] : Fin 2 → ℝ) 1, (![3, 5] : Fin 2 → ℝ) 0 ^ 2] :
        Fin 2 → ℝ) = ![30, 9] := by
      norm_num
    rw [h'] at h
    intro i
    obtain ⟨d', h3, h4⟩ := h i
    have h5 : d i = d' := by
      match i, h3 with
      | 0, h3 =>
        have h6 : (mul (pow x (integer 2)) y).diff x =
          .ok (mul (mul (integer 2) (pow x (add (integer 2) negone))) y) := by decide +kernel
        exact (Except.ok.inj (h1 0)).symm.trans (Except.ok.inj (h6.symm.trans h3))
      | 1, h3 =>
        have h6 : (mul (pow x (integer 2)) y).diff y = .ok (mul (pow x (integer 2)) one) := by
          decide +kernel
        exact (Except.ok.inj (h1 1)).symm.trans (Except.ok.inj (h6.symm.trans h3))
    rw [h5]
    exact h4
  exact ⟨hv, h2 _ _ ⟨_, (square_values _ noValues _).1⟩ hv⟩

end Verif.Props
