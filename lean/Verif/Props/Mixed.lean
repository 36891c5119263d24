import Verif.Lemmas.Mixed

/-!
# C58: the order of differentiation does not matter
-/

namespace Verif.Props
open Spec Expr Mixed

/-- Differentiating with respect to the members of a list, one after the other. -/
theorem diffs_ok {S : List Expr} (hS : ∀ y ∈ S, ∀ n, y ≠ integer n) (xs : List Expr)
    (hxs : ∀ x ∈ xs, x ∈ S) (e : Expr) (he : ∀ y ∈ S, Ok y e) :
    ∃ d, xs.foldlM (fun d x => Expr.diff d x) e = .ok d ∧ ∀ y ∈ S, Ok y d := by
  induction xs generalizing e with
  | nil => exact ⟨e, rfl, he⟩
  | cons x xs ih =>
    obtain ⟨dx, hdx⟩ := he x (hxs x List.mem_cons_self)
    obtain ⟨d, hd, hok⟩ := ih (fun y hy => hxs y (List.mem_cons_of_mem _ hy)) dx
      fun y hy => ok_mixed (hS y hy) e hdx (he y hy)
    refine ⟨d, ?_, hok⟩
    rw [List.foldlM_cons, (C52_diff_exact simplecasTable builtinDiff C52_builtin e x dx).2 hdx]
    exact hd

/-- The same value in every ring. -/
def SameEverywhere (d d' : Expr) : Prop :=
  ∀ (K : Type) [CommRing K] (o : Fns K) (ρ : Expr → K), Ints ρ → ev o ρ d = ev o ρ d'

theorem same_diffs (xs : List Expr) (hx : ∀ x ∈ xs, ∀ n, x ≠ integer n) {e e' d d' : Expr}
    (he : SameEverywhere e e') (hd : xs.foldlM (fun d x => Expr.diff d x) e = .ok d)
    (hd' : xs.foldlM (fun d x => Expr.diff d x) e' = .ok d') : SameEverywhere d d' := by
  induction xs generalizing e e' with
  | nil => cases hd; cases hd'; exact he
  | cons x xs ih =>
    rw [List.foldlM_cons] at hd hd'
    cases h1 : e.diff x with
    | error err => rw [h1] at hd; cases hd
    | ok e1 =>
      cases h2 : e'.diff x with
      | error err => rw [h2] at hd'; cases hd'
      | ok e1' =>
        rw [h1] at hd
        rw [h2] at hd'
        refine ih (fun y hy => hx y (List.mem_cons_of_mem _ hy)) ?_ hd hd'
        intro K _ o ρ hρ
        have h1 := (C52_diff_exact simplecasTable builtinDiff C52_builtin e x e1).1 h1
        have h2 := (C52_diff_exact simplecasTable builtinDiff C52_builtin e' x e1').1 h2
        rw [← ev_snd o ρ hρ e h1, ← ev_snd o ρ hρ e' h2,
          he _ (lift o) (vary ρ x) (hρ.vary (hx x List.mem_cons_self))]

theorem perm_same {S : List Expr} (hS : ∀ y ∈ S, ∀ n, y ≠ integer n) {xs ys : List Expr}
    (hp : xs.Perm ys) (hxs : ∀ x ∈ xs, x ∈ S) (e : Expr) (he : ∀ y ∈ S, Ok y e) {d d' : Expr}
    (hd : xs.foldlM (fun d x => Expr.diff d x) e = .ok d)
    (hd' : ys.foldlM (fun d x => Expr.diff d x) e = .ok d') : SameEverywhere d d' := by
  induction hp generalizing e d d' with
  | nil => cases hd; cases hd'; exact fun _ _ _ _ _ => rfl
  | cons x _ ih =>
    obtain ⟨dx, hdx⟩ := he x (hxs x List.mem_cons_self)
    have hdx' := (C52_diff_exact simplecasTable builtinDiff C52_builtin e x dx).2 hdx
    rw [List.foldlM_cons, hdx'] at hd hd'
    exact ih (fun y hy => hxs y (List.mem_cons_of_mem _ hy)) dx
      (fun y hy => ok_mixed (hS y hy) e hdx (he y hy)) hd hd'
  | swap x y l =>
    have hx := hxs x (by simp)
    have hy := hxs y (by simp)
    obtain ⟨dx, hdx⟩ := he x hx
    obtain ⟨dy, hdy⟩ := he y hy
    obtain ⟨dxy, hdxy⟩ := ok_mixed (hS y hy) e hdx (he y hy)
    obtain ⟨dyx, hdyx⟩ := ok_mixed (hS x hx) e hdy (he x hx)
    have hex : ∀ t u s, Derives simplecasTable s t u → Expr.diff t s = .ok u := fun t u s h =>
      (C52_diff_exact simplecasTable builtinDiff C52_builtin t s u).2 h
    rw [List.foldlM_cons, hex _ _ _ hdy] at hd
    change (x :: l).foldlM (fun d x => Expr.diff d x) dy = _ at hd
    rw [List.foldlM_cons, hex _ _ _ hdyx] at hd
    rw [List.foldlM_cons, hex _ _ _ hdx] at hd'
    change (y :: l).foldlM (fun d x => Expr.diff d x) dx = _ at hd'
    rw [List.foldlM_cons, hex _ _ _ hdxy] at hd'
    refine same_diffs l (fun z hz => hS z (hxs z (by simp [hz]))) ?_ hd hd'
    intro K _ o ρ hρ
    exact ev_mixed o ρ hρ (hS y hy) (hS x hx) hdy hdx hdyx hdxy
  | trans h1 h2 ih1 ih2 =>
    have hys := fun y hy => hxs y (h1.mem_iff.2 hy)
    obtain ⟨dm, hdm, _⟩ := diffs_ok hS _ hys e he
    intro K _ o ρ hρ
    exact (ih1 hxs e he hd hdm K o ρ hρ).trans (ih2 hys e he hdm hd' K o ρ hρ)

/-- **C58.** Let `e.diff(x)` succeed for every `x` in a list of expressions that are not
integers.  Then differentiating with respect to all of them, one after the other, succeeds in
every order, and in exact real arithmetic the results have the same value for all values of the
symbols for which both have one. -/
theorem C58_order_of_differentiation (e : Expr) (xs ys : List Expr) (hp : xs.Perm ys)
    (hx : ∀ x ∈ xs, (∀ n, x ≠ integer n) ∧ ∃ d, e.diff x = .ok d) :
    ∃ d d', xs.foldlM (fun d x => Expr.diff d x) e = .ok d ∧
      ys.foldlM (fun d x => Expr.diff d x) e = .ok d' ∧
      ∀ (values : Dict Expr ℝ), SymbolValues values → ∀ v v',
        d.evalF64 realOps (some values) = .ok v → d'.evalF64 realOps (some values) = .ok v' →
        v = v' := by
  have he : ∀ y ∈ xs, Ok y e := by
    intro y hy
    obtain ⟨d, hd⟩ := (hx y hy).2
    exact ⟨d, (C52_diff_exact simplecasTable builtinDiff C52_builtin e y d).1 hd⟩
  have hS := fun y hy => (hx y hy).1
  obtain ⟨d, hd, _⟩ := diffs_ok hS xs (fun _ h => h) e he
  obtain ⟨d', hd', _⟩ := diffs_ok hS ys (fun _ h => hp.mem_iff.2 h) e he
  refine ⟨d, d', hd, hd', ?_⟩
  intro values hv v v' h1 h2
  rw [C51_eval_f64 _ _ _ hv.unique] at h1 h2
  rw [← ev_value hv d h1, ← ev_value hv d' h2]
  exact perm_same hS hp (fun _ h => h) e he hd hd' ℝ realFns _ (given_ints hv)

/-- **C58, mixed partial derivatives.** `e.diff(x).diff(y)` and `e.diff(y).diff(x)` have the same
value wherever both have one. -/
theorem C58_mixed_partials (e x y dx dy dxy dyx : Expr) (hx : ∀ n, x ≠ integer n)
    (hy : ∀ n, y ≠ integer n) (h1 : e.diff x = .ok dx) (h2 : e.diff y = .ok dy)
    (h3 : dx.diff y = .ok dxy) (h4 : dy.diff x = .ok dyx) (values : Dict Expr ℝ)
    (hv : SymbolValues values) (v v' : ℝ) (hdv : dxy.evalF64 realOps (some values) = .ok v)
    (hdv' : dyx.evalF64 realOps (some values) = .ok v') : v = v' := by
  obtain ⟨d, d', hd, hd', h⟩ := C58_order_of_differentiation e [x, y] [y, x] (.swap y x [])
    (fun z hz => by
      rcases List.mem_pair.1 hz with rfl | rfl
      · exact ⟨hx, dx, h1⟩
      · exact ⟨hy, dy, h2⟩)
  rw [List.foldlM_cons, h1] at hd
  change [y].foldlM (fun d x => Expr.diff d x) dx = _ at hd
  rw [List.foldlM_cons, h3] at hd
  rw [List.foldlM_cons, h2] at hd'
  change [x].foldlM (fun d x => Expr.diff d x) dy = _ at hd'
  rw [List.foldlM_cons, h4] at hd'
  cases hd
  cases hd'
  exact h values hv v v' hdv hdv'

/-- `x**2*sin(x*y)`: the two results are different expressions. -/
example : ((Expr.diff (mul (pow x (integer 2)) (sin (mul x y))) x).bind fun d => d.diff y) ≠
    ((Expr.diff (mul (pow x (integer 2)) (sin (mul x y))) y).bind fun d => d.diff x) := by
  decide +kernel

example : (∃ d, Expr.diff (mul (pow x (integer 2)) (sin (mul x y))) x = .ok d) ∧
    ∃ d, Expr.diff (mul (pow x (integer 2)) (sin (mul x y))) y = .ok d := by
  refine ⟨⟨(match Expr.diff (mul (pow x (integer 2)) (sin (mul x y))) x with
    | .ok d => d | .error _ => x), ?_⟩, ⟨(match Expr.diff (mul (pow x (integer 2)) (sin (mul x y))) y
    with | .ok d => d | .error _ => x), ?_⟩⟩ <;> decide +kernel

/-- They can both be evaluated, here for `sin(x)*y` at `x = 2`, `y = 3`. -/
example : ∃ d d' : Expr, ((Expr.diff (mul (sin x) y) x).bind fun d => d.diff y) = .ok d ∧
    ((Expr.diff (mul (sin x) y) y).bind fun d => d.diff x) = .ok d' ∧
    ∃ v v', d.evalF64 realOps (some (Dict.ofPairs [(x, 2), (y, 3)])) = .ok v ∧
      d'.evalF64 realOps (some (Dict.ofPairs [(x, 2), (y, 3)])) = .ok v' := by
  have hd : (Dict.ofPairs [(x, (2 : ℝ)), (y, 3)]).keys.Nodup := by
    change [x, y].Nodup
    decide
  refine ⟨mul (cos x) one, mul (cos x) one, by decide +kernel, by decide +kernel,
    [Real.cos 2, ((1 : Int) : ℝ)].prod, [Real.cos 2, ((1 : Int) : ℝ)].prod, ?_⟩
  have h : (mul (cos x) one).evalF64 realOps (some (Dict.ofPairs [(x, (2 : ℝ)), (y, 3)])) =
      .ok [Real.cos 2, ((1 : Int) : ℝ)].prod := by
    rw [C51_eval_f64 _ _ _ hd]
    exact .product (.cons (.cosine (.given rfl rfl rfl) rfl)
      (.cons (.integer (fun v h => by cases h) rfl) .nil)) rfl
  exact ⟨h, h⟩

end Verif.Props
