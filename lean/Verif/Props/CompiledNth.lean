import Mathlib.Analysis.Calculus.IteratedDeriv.Defs
import Verif.Props.CompiledDiff

/-!
# C61 for higher derivatives
-/

set_option exponentiation.threshold 2000

namespace Verif.Props
open Spec Expr Mixed

theorem diff_zero (e x : Expr) : e.diff x ((0 : Nat) : Int) = .ok e :=
  (C25_repeated builtinDiff e x).2.1 _ (by simp)

theorem diff_succ (e x : Expr) (n : Nat) :
    e.diff x ((n + 1 : Nat) : Int) = (e.diff x (n : Int)).bind (fun d => d.diff x) := by
  have := (C25_repeated builtinDiff e x).2.2.2 n (by omega)
  push_cast
  exact this

theorem nth_supported (S : List Expr) (x : Expr) (e : Expr) (hs : Supported S e) (n : Nat) :
    ∀ d, e.diff x (n : Int) = .ok d → Supported S d := by
  induction n with
  | zero =>
    intro d hd
    rw [diff_zero] at hd
    obtain rfl := Except.ok.inj hd
    exact hs
  | succ n ih =>
    intro d hd
    rw [diff_succ] at hd
    cases hc : e.diff x (n : Int) with
    | error err => rw [hc] at hd; cases hd
    | ok c =>
      rw [hc] at hd
      exact C61_compilable S c d x (ih c hc) hd

/-- On an open set without domain errors the machine's values of `e.diff(x, n)` are the `n`-th
derivative of its values of `e`. -/
theorem ir_nth (S : List Expr) (hn : S.Nodup) (hS : Symbols S) (e x : Expr) (hs : Supported S e)
    (k : Nat) (hk : S[k]? = some x) (vs : List ℝ) (hlen : vs.length = S.length)
    (htot : ∀ e, Supported S e → ∀ us : List ℝ, us.length = S.length →
      ∃ v, evalTree (irMeaning exactMachine S us) e = .ok v)
    (G : ℝ → ℝ) (hG : ∀ t, evalTree (irMeaning exactMachine S (vs.set k t)) e = .ok (G t))
    (U : Set ℝ) (hU : IsOpen U) (n : Nat) :
    (∀ j ≤ n, ∀ dj, e.diff x (j : Int) = .ok dj → ∀ t ∈ U, DefinedAt S (vs.set k t) dj) →
    ∀ d, e.diff x (n : Int) = .ok d → ∀ t ∈ U, ∀ v,
      evalTree (irMeaning exactMachine S (vs.set k t)) d = .ok v → iteratedDeriv n G t = v := by
  induction n with
  | zero =>
    intro _ d hd t _ v hv
    rw [diff_zero] at hd
    obtain rfl := Except.ok.inj hd
    rw [hG] at hv
    rw [iteratedDeriv_zero]
    exact Except.ok.inj hv
  | succ n ih =>
    intro hdef d hd t ht v hv
    have hklt : k < vs.length := hlen ▸ (List.getElem?_eq_some_iff.1 hk).1
    have hd0 := hd
    rw [diff_succ] at hd
    cases hc : e.diff x (n : Int) with
    | error err => rw [hc] at hd; cases hd
    | ok c =>
      rw [hc] at hd
      have hsc := nth_supported S x e hs n c hc
      have hsd := C61_compilable S c d x hsc hd
      have hex : ∀ t, ∃ w, evalTree (irMeaning exactMachine S (vs.set k t)) c = .ok w := fun t =>
        htot c hsc _ (by simp [hlen])
      choose H hH using hex
      have heq : ∀ t ∈ U, iteratedDeriv n G t = H t := fun t ht =>
        ih (fun j hj => hdef j (by omega)) c hc t ht _ (hH t)
      have hw := ir_derivative S hn hS c d x hsc hsd k hk hd (vs.set k t) (by simp [hlen]) H v
        (fun s => by rw [List.set_set]; exact hH s) hv (hdef n (by omega) c hc t ht)
        (hdef (n + 1) le_rfl d hd0 t ht) t (by rw [List.getElem?_set_self hklt])
      have hnb : {s | DefinedAt S ((vs.set k t).set k s) c} ∈ nhds t := by
        refine Filter.mem_of_superset (hU.mem_nhds ht) ?_
        intro s hsU
        simp only [List.set_set]
        exact hdef n (by omega) c hc s hsU
      have hda := hw.hasDerivAt hnb
      rw [iteratedDeriv_succ]
      have hev : iteratedDeriv n G =ᶠ[nhds t] H :=
        Filter.eventuallyEq_of_mem (hU.mem_nhds ht) heq
      rw [hev.deriv_eq]
      exact hda.deriv

/-- **C61, higher derivatives.**  Without rounding, the function compiled from `e.diff(x, n)` returns
the `n`-th derivative of the function compiled from `e` with respect to the argument for `x`, on every
open set of values of it on which no domain error occurs in `e` and its derivatives up to the `n`-th. -/
theorem C61_nth {P : Platform ℝ} (hP : PlatformOK P exactMachine) (S : List Expr)
    (hg : GoodParams S) (hS : Symbols S) (e d x : Expr) (hs : Supported S e) (k : Nat)
    (hk : S[k]? = some x) (n : Nat) (hd : e.diff x (n : Int) = .ok d) (s : Proc ℝ) (f fd : Callable)
    (hf : Compiled P f S (.expr e) s) (hfd : Compiled P fd S (.expr d) s) (vs : List ℝ)
    (hlen : vs.length = S.length) :
    ∃ G D : ℝ → ℝ,
      (∀ t, call P f ((vs.set k t).map .float) s = (.float (G t), s)) ∧
      (∀ t, call P fd ((vs.set k t).map .float) s = (.float (D t), s)) ∧
      ∀ U : Set ℝ, IsOpen U →
        (∀ j ≤ n, ∀ dj, e.diff x (j : Int) = .ok dj → ∀ t ∈ U, DefinedAt S (vs.set k t) dj) →
        ∀ t ∈ U, D t = iteratedDeriv n G t := by
  have hsd := nth_supported S x e hs n d hd
  have hcall : ∀ t, ∃ v, evalTree (irMeaning exactMachine S (vs.set k t)) e = .ok v ∧
      call P f ((vs.set k t).map .float) s = (.float v, s) := fun t =>
    compiled_call hP hg hs hf _ _ (forall₂_floats _) (by simp [hlen])
  choose G hG1 hG2 using hcall
  have hcalld : ∀ t, ∃ v, evalTree (irMeaning exactMachine S (vs.set k t)) d = .ok v ∧
      call P fd ((vs.set k t).map .float) s = (.float v, s) := fun t =>
    compiled_call hP hg hsd hfd _ _ (forall₂_floats _) (by simp [hlen])
  choose D hD1 hD2 using hcalld
  refine ⟨G, D, hG2, hD2, ?_⟩
  intro U hU hdef t ht
  have htot : ∀ e, Supported S e → ∀ us : List ℝ, us.length = S.length →
      ∃ v, evalTree (irMeaning exactMachine S us) e = .ok v := by
    intro e hs us hus
    obtain ⟨g, s', hgc, _⟩ := compiled_exists_of_le hP hg hs Proc.start (compiled_length hf)
    obtain ⟨v, hv, _⟩ := compiled_call hP hg hs hgc _ us (forall₂_floats us) (by simp [hus])
    exact ⟨v, hv⟩
  exact (ir_nth S (goodParams_nodup hg) hS e x hs k hk vs hlen htot G hG1 U hU n hdef d hd t ht _
    (hD1 t)).symm

/-! ### Everywhere -/

/-- `n + -1 + … + -1`, with the value `v`. -/
inductive Expo : Int → Expr → Prop
  | lit {n : Int} : 1 ≤ n → n ≤ 2 ^ 53 → Expo n (integer n)
  | pred {v c} : Expo v c → Expo (v - 1) (add c negone)

/-- Built with `+`, `*`, `sin`, `cos` and exponents at least `m` and integers up to `N`. -/
inductive Tower (S : List Expr) (N : Int) (m : Nat) : Expr → Prop where
  | param {t} : t ∈ S → Tower S N m t
  | int {n : Int} : |n| ≤ N → Tower S N m (Expr.integer n)
  | add {args} : args ≠ [] → (∀ a ∈ args, Tower S N m a) → Tower S N m (.node (Expr.addH :: args))
  | mul {args} : args ≠ [] → (∀ a ∈ args, Tower S N m a) → Tower S N m (.node (Expr.mulH :: args))
  | pow {a c v} : Tower S N m a → Expo v c → (m : Int) ≤ v → Tower S N m (Expr.pow a c)
  | sin {a} : Tower S N m a → Tower S N m (Expr.sin a)
  | cos {a} : Tower S N m a → Tower S N m (Expr.cos a)

theorem expo_tower {S : List Expr} {N : Int} (hN : 2 ^ 53 ≤ N) {m : Nat} {v : Int} {c : Expr} (h : Expo v c) : Tower S N m c := by
  induction h with
  | lit h1 h2 => exact .int ((exponent_bound h1 h2).1.trans hN)
  | pred _ ih =>
    refine .add (by simp) ?_
    intro u hu
    rcases List.mem_pair.1 hu with rfl | rfl
    · exact ih
    · exact .int (n := -1) (le_trans (by norm_num) hN)

theorem expo_derives {x : Expr} (hx : ∀ n, x ≠ integer n) {v : Int} {c : Expr} (h : Expo v c) :
    Derives simplecasTable x c zero := by
  have hi : ∀ n, Derives simplecasTable x (integer n) zero := fun n =>
    (derives_leaf rfl).2 (.inr ⟨fun h => hx n h.symm, rfl⟩)
  induction h with
  | lit _ _ => exact hi _
  | pred _ ih =>
    have := Derives.sum (T := simplecasTable) (x := x)
      (by simp [DiffTable.Distributive, simplecasTable]; decide)
      (.cons ih (.cons (hi (-1)) .nil))
    exact this

theorem tower_mono {S : List Expr} {N : Int} {m : Nat} {e : Expr} (h : Tower S N (m + 1) e) : Tower S N m e := by
  induction h with
  | param h => exact .param h
  | int h => exact .int h
  | add h _ ih => exact .add h ih
  | mul h _ ih => exact .mul h ih
  | pow _ h1 h2 ih => exact .pow ih h1 (by push_cast at h2; omega)
  | sin _ ih => exact .sin ih
  | cos _ ih => exact .cos ih

theorem tower_ok {S : List Expr} {N : Int} (hS : Symbols S) {m : Nat} {e : Expr} (h : Tower S N m e) {x : Expr}
    (hx : x ∈ S) : Ok x e := by
  induction h with
  | param ht =>
    obtain ⟨n, rfl⟩ := hS _ ht
    exact ok_leaf rfl
  | int hn => exact ok_leaf rfl
  | add _ _ ih => exact ok_add ih
  | mul _ _ ih => exact ok_mul ih
  | pow _ h1 _ ih =>
    refine ok_pow ih (expo_derives ?_ h1)
    rintro n rfl
    obtain ⟨_, h⟩ := hS _ hx
    cases h
  | sin _ ih => exact ok_unary (by decide) (by decide) (by decide) rule_sin (by decide) ih
  | cos _ ih => exact ok_unary (by decide) (by decide) (by decide) rule_cos (by decide) ih

theorem tower_inv {S : List Expr} {N : Int} (hN : 2 ^ 53 ≤ N) (hS : Symbols S) {m : Nat} {h : Expr} {args : List Expr}
    (hq : Tower S N m (.node (h :: args))) : (∀ a ∈ args, Tower S N m a) ∧ h ≠ listH ∧
      ∀ a b, h = powH → args = [a, b] → ∃ v, Expo v b ∧ (m : Int) ≤ v := by
  generalize ht : (.node (h :: args) : Expr) = t at hq
  cases hq with
  | param hm => obtain ⟨n, rfl⟩ := hS _ hm; cases ht
  | int => cases ht
  | add _ h2 => cases ht; exact ⟨h2, by decide, fun a b h => absurd h (by decide)⟩
  | mul _ h2 => cases ht; exact ⟨h2, by decide, fun a b h => absurd h (by decide)⟩
  | pow ha h1 h2 =>
    cases ht
    refine ⟨?_, by decide, ?_⟩
    · intro u hu
      rcases List.mem_pair.1 hu with rfl | rfl
      · exact ha
      · exact expo_tower hN h1
    · intro a b _ hab
      cases hab
      exact ⟨_, h1, h2⟩
  | sin ha =>
    cases ht
    exact ⟨fun u hu => by obtain rfl := List.mem_singleton.1 hu; exact ha, by decide,
      fun a b h => absurd h (by decide)⟩
  | cos ha =>
    cases ht
    exact ⟨fun u hu => by obtain rfl := List.mem_singleton.1 hu; exact ha, by decide,
      fun a b h => absurd h (by decide)⟩

theorem tower_pair {S : List Expr} {N : Int} {m : Nat} {a b : Expr} (ha : Tower S N m a) (hb : Tower S N m b) :
    ∀ u ∈ [a, b], Tower S N m u := by
  intro u hu
  rcases List.mem_pair.1 hu with rfl | rfl
  · exact ha
  · exact hb

/-- The derivative loses one. -/
theorem tower_derivative {S : List Expr} {N : Int} (hN : 2 ^ 53 ≤ N) (hS : Symbols S) {m : Nat} {e d x : Expr}
    (h : Tower S N (m + 1) e) (hd : Derives simplecasTable x e d) : Tower S N m d := by
  have hneg : Tower S N m negone := .int (n := -1) (le_trans (by norm_num) hN)
  refine derives_closed (Tower S N (m + 1)) (Tower S N m) (.int (n := 0) (le_trans (by norm_num) hN))
    (.int (n := 1) (le_trans (by norm_num) hN)) (fun ts => .add) (fun ts => .mul) ?_ (fun t => tower_mono)
    ?_ ?_ ?_ e d hd h
  · intro h args hq
    exact ⟨(tower_inv hN hS hq).2.1, (tower_inv hN hS hq).1⟩
  · intro a hq
    exact .cos (tower_mono ((tower_inv hN hS hq).1 a (by simp)))
  · intro a hq
    exact .mul (by simp) (tower_pair hneg (.sin (tower_mono ((tower_inv hN hS hq).1 a (by simp)))))
  · intro a b hq
    obtain ⟨h1, _, h2⟩ := tower_inv hN hS hq
    obtain ⟨v, h3, h4⟩ := h2 a b rfl rfl
    exact .mul (by simp) (tower_pair (expo_tower hN h3)
      (.pow (tower_mono (h1 a (by simp))) (.pred h3) (by push_cast at h4; omega)))

theorem expo_value {S : List Expr} (hS : Symbols S) {vs : List ℝ} {v : Int} {c : Expr} (h : Expo v c) :
    evalTree (meaning (evalF64 exactFloats) (fun t => lastAssoc t (S.zip vs))) c = .ok (v : ℝ) := by
  induction h with
  | @lit n h1 h2 => exact hasVal_int hS n n (exact_small n (exponent_bound h1 h2).1)
  | @pred v c _ ih =>
    have hm1 : evalTree (meaning (evalF64 exactFloats) (fun t => lastAssoc t (S.zip vs))) negone =
        .ok (-1) := hasVal_int hS (-1) (-1) (by simpa using exact_small (-1) (by norm_num))
    rw [show (add c negone : Expr) = .node [addH, c, negone] from rfl, f64_node,
      List.mapM_cons, ih, List.mapM_cons, hm1]
    show Except.ok ([(v : ℝ), -1].sum) = _
    congr 1
    simp [sub_eq_add_neg]

theorem tower_defined {S : List Expr} {N : Int} (hN : N < 2 ^ 1024 - 2 ^ 970) (hS : Symbols S) {vs : List ℝ} (hlen : vs.length = S.length)
    {m : Nat} {e : Expr} (h : Tower S N m e) : HasVal S vs e := by
  induction h with
  | @param t ht => exact elementary_defined hS hlen (.param ht)
  | @int n hn => exact elementary_defined hS hlen (.int (lt_of_le_of_lt hn hN))
  | add _ _ ih => exact hasVal_sum ih
  | mul _ _ ih => exact hasVal_prod ih
  | @pow a c v _ h1 h2 ih =>
    refine hasVal_pow ih v.toNat ?_
    rw [expo_value hS h1]
    congr 1
    have : ((v.toNat : ℤ) : ℝ) = (v : ℝ) := by rw [Int.toNat_of_nonneg (by omega)]
    rw [← this, Int.cast_natCast]
  | sin _ ih => exact hasVal_sin ih
  | cos _ ih => exact hasVal_cos ih

theorem tower_nth {S : List Expr} {N : Int} (hN : 2 ^ 53 ≤ N) (hS : Symbols S) {x : Expr} (hx : x ∈ S) (n : Nat) :
    ∀ (m : Nat) (e : Expr), Tower S N (m + n) e → ∃ d, e.diff x (n : Int) = .ok d ∧ Tower S N m d := by
  induction n with
  | zero => exact fun m e h => ⟨e, diff_zero e x, h⟩
  | succ n ih =>
    intro m e h
    obtain ⟨c, hc, hct⟩ := ih (m + 1) e (by rwa [Nat.add_right_comm, Nat.add_assoc])
    obtain ⟨d, hd⟩ := tower_ok hS hct hx
    exact ⟨d, by rw [diff_succ, hc]; exact (C52_diff_exact _ _ C52_builtin c x d).2 hd,
      tower_derivative hN hS hct hd⟩

theorem elementary_tower {S : List Expr} {N : Int} {e : Expr} (n : Nat) (h : Elementary S e)
    (hint : ∀ m : Int, ArgSub e (integer m) → |m| < 2 ^ 1024 - 2 ^ 970 → |m| ≤ N)
    (hexp : ∀ a (m : Int), ArgSub e (pow a (integer m)) → (n : Int) ≤ m) : Tower S N n e := by
  induction h with
  | param h => exact .param h
  | @int m h => exact .int (hint m (Reach.refl (by simp)) h)
  | add h _ ih =>
    exact .add h fun a ha => ih a ha
      (fun m hb => hint m (Reach.down (by simp) (by simpa [kids, Tree.children] using ha) hb))
      fun b m hb => hexp b m (Reach.down (by simp) (by simpa [kids, Tree.children] using ha) hb)
  | mul h _ ih =>
    exact .mul h fun a ha => ih a ha
      (fun m hb => hint m (Reach.down (by simp) (by simpa [kids, Tree.children] using ha) hb))
      fun b m hb => hexp b m (Reach.down (by simp) (by simpa [kids, Tree.children] using ha) hb)
  | @pow a m _ h1 h2 ih =>
    exact .pow (ih
      (fun m hb => hint m (Reach.down (by simp) (by simp [kids, pow, Tree.call]) hb))
      fun b m hb => hexp b m (Reach.down (by simp) (by simp [kids, pow, Tree.call]) hb))
      (.lit h1 h2) (hexp a m (Reach.refl (by simp)))
  | sin _ ih =>
    exact .sin (ih
      (fun m hb => hint m (Reach.down (by simp) (by simp [kids, sin, Tree.call]) hb))
      fun b m hb => hexp b m (Reach.down (by simp) (by simp [kids, sin, Tree.call]) hb))
  | cos _ ih =>
    exact .cos (ih
      (fun m hb => hint m (Reach.down (by simp) (by simp [kids, cos, Tree.call]) hb))
      fun b m hb => hexp b m (Reach.down (by simp) (by simp [kids, cos, Tree.call]) hb))

/-- **C61, higher derivatives everywhere.**  For expressions built with `+`, `*`, `sin`, `cos` and
literal exponents that are all at least `n` (and 1), `e.diff(x, n)` exists, can be compiled, and is at
every point the `n`-th derivative of the compiled function (without rounding). -/
theorem C61_elementary_nth {P : Platform ℝ} (hP : PlatformOK P exactMachine) (S : List Expr)
    (hg : GoodParams S) (hS : Symbols S) (e x : Expr) (he : Elementary S e) (k : Nat)
    (hk : S[k]? = some x) (n : Nat)
    (hexp : ∀ a (m : Int), ArgSub e (pow a (integer m)) → (n : Int) ≤ m) :
    ∃ d, e.diff x (n : Int) = .ok d ∧ Supported S d ∧
      ∀ (s : Proc ℝ) (f fd : Callable), Compiled P f S (.expr e) s → Compiled P fd S (.expr d) s →
      ∀ vs : List ℝ, vs.length = S.length →
      ∃ G : ℝ → ℝ, (∀ t, call P f ((vs.set k t).map .float) s = (.float (G t), s)) ∧
        ∀ t, call P fd ((vs.set k t).map .float) s = (.float (iteratedDeriv n G t), s) := by
  have hx := List.mem_of_getElem? hk
  have ht := elementary_tower (N := 2 ^ 1024 - 2 ^ 970 - 1) n he (fun m _ h => Int.le_sub_one_of_lt h)
    hexp
  have hN : (2 ^ 53 : Int) ≤ 2 ^ 1024 - 2 ^ 970 - 1 := by norm_num
  have hs := elementary_supported hS he
  obtain ⟨d, hd, _⟩ := tower_nth hN hS hx n 0 e (by rwa [Nat.zero_add])
  refine ⟨d, hd, nth_supported S x e hs n d hd, ?_⟩
  intro s f fd hf hfd vs hlen
  obtain ⟨G, D, h1, h2, h3⟩ := C61_nth hP S hg hS e d x hs k hk n hd s f fd hf hfd vs hlen
  refine ⟨G, h1, ?_⟩
  intro t
  rw [h2, h3 Set.univ isOpen_univ ?_ t trivial]
  intro j hj dj hdj t _
  obtain ⟨dj', hdj', htj⟩ := tower_nth hN hS hx j (n - j) e (by rwa [Nat.sub_add_cancel hj])
  rw [hdj] at hdj'
  obtain rfl := Except.ok.inj hdj'
  exact definedAt_hasVal.2 (tower_defined (by norm_num) hS (by simp [hlen]) htj)

/-- The exponents must be at least `n`: the second derivative of `x**1` is
`1*((1 + -1)*x**(1 + -1 + -1))`, which has no value at 0. -/
theorem C61_low_exponent_boundary :
    Elementary [x] (pow x one) ∧
    Expr.diff (pow x one) x 2 =
      .ok (mul one (mul (add one negone) (pow x (add (add one negone) negone)))) ∧
    ¬ DefinedAt [x] [0] (mul one (mul (add one negone) (pow x (add (add one negone) negone)))) := by
  refine ⟨.pow (.param (by simp)) (by norm_num) (by norm_num), by decide +kernel, ?_⟩
  rintro ⟨v, hv⟩
  rw [definedAt_iff] at hv
  have hS : Symbols [x] := fun t ht => by
    obtain rfl := List.mem_singleton.1 ht
    exact ⟨_, rfl⟩
  have hexpo : Expo (1 - 1 - 1) (add (add one negone) negone) :=
    .pred (.pred (.lit (by norm_num) (by norm_num)))
  have he := expo_value (vs := [0]) hS hexpo
  have h1 := expo_value (vs := [0]) hS (Expo.lit (n := 1) (by norm_num) (by norm_num))
  have h0 := expo_value (vs := [0]) hS (Expo.pred (Expo.lit (n := 1) (by norm_num) (by norm_num)))
  have hx : evalTree (meaning (evalF64 exactFloats) (fun t => lastAssoc t ([x].zip [0]))) x =
      .ok (0 : ℝ) := by
    rw [evalTree_leaf _ rfl]
    rfl
  have hp : evalTree (meaning (evalF64 exactFloats) (fun t => lastAssoc t ([x].zip [0])))
      (pow x (add (add one negone) negone)) = realOps.pow 0 ((1 - 1 - 1 : Int) : ℝ) := by
    rw [show (pow x (add (add one negone) negone) : Expr) =
      .node [powH, x, add (add one negone) negone] from rfl, f64_node, List.mapM_cons, hx,
      List.mapM_cons, he]
    rfl
  have herr : ∀ w, realOps.pow 0 ((1 - 1 - 1 : Int) : ℝ) ≠ .ok w := by
    intro w hw
    simp only [realOps] at hw
    split at hw
    · rename_i hc
      have := hc.1 rfl
      norm_num at this
    · cases hw
  cases hp' : evalTree (meaning (evalF64 exactFloats) (fun t => lastAssoc t ([x].zip [0])))
      (pow x (add (add one negone) negone)) with
  | ok w => rw [hp] at hp'; exact herr w hp'
  | error err =>
    rw [show (mul one (mul (add one negone) (pow x (add (add one negone) negone))) : Expr) =
      .node [mulH, one, mul (add one negone) (pow x (add (add one negone) negone))] from rfl,
      f64_node, List.mapM_cons, show (one : Expr) = integer 1 from rfl, h1, List.mapM_cons,
      show (mul (add (integer 1) negone) (pow x (add (add (integer 1) negone) negone)) : Expr) =
      .node [mulH, add (integer 1) negone, pow x (add (add (integer 1) negone) negone)] from rfl,
      f64_node, List.mapM_cons, h0, List.mapM_cons,
      show (integer 1 : Expr) = one from rfl, hp'] at hv
    cases hv

theorem sample_exponents (a : Expr) (m : Int)
    (h : ArgSub (add (mul (pow x (integer 3)) (sin (mul x y))) (integer 5)) (pow a (integer m))) :
    ((3 : Nat) : Int) ≤ m := by
  have hm := ((C05_topological_sort false _).1 _).2 h
  revert hm
  rw [show topologicalSort false [] (add (mul (pow x (integer 3)) (sin (mul x y))) (integer 5)) =
    [x, integer 3, pow x (integer 3), y, mul x y, sin (mul x y),
      mul (pow x (integer 3)) (sin (mul x y)), integer 5,
      add (mul (pow x (integer 3)) (sin (mul x y))) (integer 5)] from by decide +kernel]
  intro hm
  simp only [List.mem_cons, List.not_mem_nil, or_false] at hm
  rcases hm with h | h | h | h | h | h | h | h | h
  · cases h
  · cases h
  · cases h; decide
  · cases h
  all_goals first
    | cases h; done
    | exact absurd (List.cons.inj (Tree.node.inj h)).1 (by decide)

/-- `x**3*sin(x*y) + 5` and its third derivative with respect to `x`: the hypotheses hold, both are
compiled, and the second function is everywhere the third derivative of the first. -/
example {P : Platform ℝ} (hP : PlatformOK P exactMachine) (b : ℝ) :
    ∃ d f fd s G, Expr.diff (add (mul (pow x (integer 3)) (sin (mul x y))) (integer 5)) x 3 = .ok d ∧
      Compiled P f [x, y] (.expr (add (mul (pow x (integer 3)) (sin (mul x y))) (integer 5))) s ∧
      Compiled P fd [x, y] (.expr d) s ∧
      (∀ t, call P f [.float t, .float b] s = (.float (G t), s)) ∧
      ∀ t, call P fd [.float t, .float b] s = (.float (iteratedDeriv 3 G t), s) := by
  obtain ⟨h1, _, _⟩ := goodParams_xy
  obtain ⟨d, hd, hsd, hall⟩ :=
    C61_elementary_nth hP [x, y] h1 symbols_xy _ x sample_elementary 0 rfl 3 sample_exponents
  obtain ⟨f, s1, hf, _⟩ := compiled_exists hP h1 (elementary_supported symbols_xy sample_elementary)
    Proc.start
  obtain ⟨fd, s, hfd, hl⟩ := compiled_exists hP h1 hsd s1
  have hf := hf.later hl
  obtain ⟨G, g1, g2⟩ := hall s f fd hf hfd [0, b] rfl
  exact ⟨d, f, fd, s, G, hd, hf, hfd, g1, g2⟩

end Verif.Props
