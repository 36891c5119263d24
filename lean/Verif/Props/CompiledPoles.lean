import Verif.Props.CompiledError

/-!
# C64: derivatives of expressions with negative powers, away from the poles
-/

set_option exponentiation.threshold 2000

namespace Verif.Props
open Spec Expr Filter Mixed

theorem two53_lt : (2 : Int) ^ 53 < 2 ^ 1024 - 2 ^ 970 := by norm_num

/-- `n + -1 + … + -1`, with the value `v`, for any literal `n`. -/
inductive ExpoZ : Int → Expr → Prop
  | lit {n : Int} : |n| ≤ 2 ^ 53 → ExpoZ n (integer n)
  | pred {v c} : ExpoZ v c → |v - 1| ≤ 2 ^ 53 → ExpoZ (v - 1) (add c negone)

/-- Built with `+`, `*`, `sin`, `cos` and powers with an exponent of at least `m` or a base that is not 0 at
the point; integers are at most `2^53`. -/
inductive Pole (S : List Expr) (xs : List ℝ) (m : Nat) : Expr → Prop where
  | param {t} : t ∈ S → Pole S xs m t
  | int {n : Int} : |n| ≤ 2 ^ 53 → Pole S xs m (Expr.integer n)
  | add {args} : args ≠ [] → (∀ a ∈ args, Pole S xs m a) → Pole S xs m (.node (Expr.addH :: args))
  | mul {args} : args ≠ [] → (∀ a ∈ args, Pole S xs m a) → Pole S xs m (.node (Expr.mulH :: args))
  | pow {a c v} : Pole S xs m a → ExpoZ v c → |v| + m ≤ 2 ^ 53 →
      ((m : Int) ≤ v ∨ ∃ r, ExactValue S xs a r ∧ r ≠ 0) → Pole S xs m (Expr.pow a c)
  | sin {a} : Pole S xs m a → Pole S xs m (Expr.sin a)
  | cos {a} : Pole S xs m a → Pole S xs m (Expr.cos a)

variable {S : List Expr} {xs : List ℝ}

theorem pole_expo {m : Nat} {v : Int} {c : Expr} (h : ExpoZ v c) : Pole S xs m c := by
  induction h with
  | lit h => exact .int h
  | pred _ _ ih =>
    refine .add (by simp) ?_
    intro u hu
    rcases List.mem_pair.1 hu with rfl | rfl
    · exact ih
    · exact .int (n := -1) (by norm_num)

theorem poleExpo_derives {x : Expr} (hx : ∀ n, x ≠ integer n) {v : Int} {c : Expr} (h : ExpoZ v c) :
    Derives simplecasTable x c zero := by
  have hi : ∀ n, Derives simplecasTable x (integer n) zero := fun n =>
    (derives_leaf rfl).2 (.inr ⟨fun h => hx n h.symm, rfl⟩)
  induction h with
  | lit _ => exact hi _
  | pred _ _ ih =>
    have := Derives.sum (T := simplecasTable) (x := x)
      (by simp [DiffTable.Distributive, simplecasTable]; decide)
      (.cons ih (.cons (hi (-1)) .nil))
    exact this

theorem poleExpo_small {v : Int} {c : Expr} (h : ExpoZ v c) : SmallInt c v := by
  induction h with
  | lit h => exact .lit h
  | pred _ h ih =>
    rw [sub_eq_add_neg] at h ⊢
    exact .add ih (.lit (by norm_num)) h

theorem pole_mono {m : Nat} {e : Expr} (h : Pole S xs (m + 1) e) : Pole S xs m e := by
  induction h with
  | param h => exact .param h
  | int h => exact .int h
  | add h _ ih => exact .add h ih
  | mul h _ ih => exact .mul h ih
  | pow _ h1 h2 h3 ih =>
    push_cast at h2 h3
    exact .pow ih h1 (by omega) (h3.imp_left fun h => by omega)
  | sin _ ih => exact .sin ih
  | cos _ ih => exact .cos ih

theorem pole_le {m n : Nat} (hmn : m ≤ n) {e : Expr} (h : Pole S xs n e) : Pole S xs m e := by
  induction hmn with
  | refl => exact h
  | step _ ih => exact ih (pole_mono h)

theorem pole_ok (hS : Symbols S) {m : Nat} {e : Expr} (h : Pole S xs m e) {x : Expr} (hx : x ∈ S) :
    Ok x e := by
  induction h with
  | param ht =>
    obtain ⟨n, rfl⟩ := hS _ ht
    exact ok_leaf rfl
  | int hn => exact ok_leaf rfl
  | add _ _ ih => exact ok_add ih
  | mul _ _ ih => exact ok_mul ih
  | pow _ h1 _ _ ih =>
    refine ok_pow ih (poleExpo_derives ?_ h1)
    rintro n rfl
    obtain ⟨_, h⟩ := hS _ hx
    cases h
  | sin _ ih => exact ok_unary (by decide) (by decide) (by decide) rule_sin (by decide) ih
  | cos _ ih => exact ok_unary (by decide) (by decide) (by decide) rule_cos (by decide) ih

theorem pole_inv (hS : Symbols S) {m : Nat} {h : Expr} {args : List Expr}
    (hq : Pole S xs m (.node (h :: args))) : (∀ a ∈ args, Pole S xs m a) ∧ h ≠ listH ∧
      ∀ a b, h = powH → args = [a, b] → ∃ v, ExpoZ v b ∧ |v| + m ≤ 2 ^ 53 ∧
        ((m : Int) ≤ v ∨ ∃ r, ExactValue S xs a r ∧ r ≠ 0) := by
  generalize ht : (.node (h :: args) : Expr) = t at hq
  cases hq with
  | param hm => obtain ⟨n, rfl⟩ := hS _ hm; cases ht
  | int => cases ht
  | add _ h2 => cases ht; exact ⟨h2, by decide, fun a b h => absurd h (by decide)⟩
  | mul _ h2 => cases ht; exact ⟨h2, by decide, fun a b h => absurd h (by decide)⟩
  | pow ha h1 h2 h3 =>
    cases ht
    refine ⟨?_, by decide, ?_⟩
    · intro u hu
      rcases List.mem_pair.1 hu with rfl | rfl
      · exact ha
      · exact pole_expo h1
    · intro a b _ hab
      cases hab
      exact ⟨_, h1, h2, h3⟩
  | sin ha =>
    cases ht
    exact ⟨fun u hu => by obtain rfl := List.mem_singleton.1 hu; exact ha, by decide,
      fun a b h => absurd h (by decide)⟩
  | cos ha =>
    cases ht
    exact ⟨fun u hu => by obtain rfl := List.mem_singleton.1 hu; exact ha, by decide,
      fun a b h => absurd h (by decide)⟩

theorem pole_pair {m : Nat} {a b : Expr} (ha : Pole S xs m a) (hb : Pole S xs m b) :
    ∀ u ∈ [a, b], Pole S xs m u := by
  intro u hu
  rcases List.mem_pair.1 hu with rfl | rfl
  · exact ha
  · exact hb

theorem pole_derivative (hS : Symbols S) {m : Nat} {e d x : Expr} (h : Pole S xs (m + 1) e)
    (hd : Derives simplecasTable x e d) : Pole S xs m d := by
  have hneg : Pole S xs m negone := .int (n := -1) (by norm_num)
  refine derives_closed (Pole S xs (m + 1)) (Pole S xs m) (.int (n := 0) (by norm_num))
    (.int (n := 1) (by norm_num)) (fun ts => .add) (fun ts => .mul) ?_ (fun t => pole_mono)
    ?_ ?_ ?_ e d hd h
  · intro h args hq
    exact ⟨(pole_inv hS hq).2.1, (pole_inv hS hq).1⟩
  · intro a hq
    exact .cos (pole_mono ((pole_inv hS hq).1 a (by simp)))
  · intro a hq
    exact .mul (by simp) (pole_pair hneg (.sin (pole_mono ((pole_inv hS hq).1 a (by simp)))))
  · intro a b hq
    obtain ⟨h1, _, h2⟩ := pole_inv hS hq
    obtain ⟨v, h3, h4, h5⟩ := h2 a b rfl rfl
    push_cast at h4 h5
    have h6 : |v - 1| ≤ |v| + 1 := by
      have := abs_sub v 1
      simpa using this
    exact .mul (by simp) (pole_pair (pole_expo h3)
      (.pow (pole_mono (h1 a (by simp))) (.pred h3 (by omega)) (by omega)
        (h5.imp_left fun h => by omega)))

theorem pole_nth (hS : Symbols S) {x : Expr} (hx : x ∈ S) (n : Nat) :
    ∀ (m : Nat) (e : Expr), Pole S xs (m + n) e → ∃ d, e.diff x (n : Int) = .ok d ∧ Pole S xs m d := by
  induction n with
  | zero => exact fun m e h => ⟨e, diff_zero e x, h⟩
  | succ n ih =>
    intro m e h
    obtain ⟨c, hc, hct⟩ := ih (m + 1) e (by rwa [Nat.add_right_comm, Nat.add_assoc])
    obtain ⟨d, hd⟩ := pole_ok hS hct hx
    exact ⟨d, by rw [diff_succ, hc]; exact (C52_diff_exact _ _ C52_builtin c x d).2 hd,
      pole_derivative hS hct hd⟩

theorem withPowers_pole {e : Expr} (n : Nat) (h : WithPowers S e)
    (hint : ∀ m : Int, ArgSub e (integer m) → |m| ≤ 2 ^ 53)
    (hexp : ∀ a (m : Int), ArgSub e (pow a (integer m)) →
      |m| + n ≤ 2 ^ 53 ∧ ((n : Int) ≤ m ∨ ∃ r, ExactValue S xs a r ∧ r ≠ 0)) : Pole S xs n e := by
  induction h with
  | param h => exact .param h
  | @int m h => exact .int (hint m (Reach.refl (by simp)))
  | add h _ ih =>
    exact .add h fun a ha => ih a ha
      (fun m hb => hint m (Reach.down (by simp) (by simpa [kids, Tree.children] using ha) hb))
      fun b m hb => hexp b m (Reach.down (by simp) (by simpa [kids, Tree.children] using ha) hb)
  | mul h _ ih =>
    exact .mul h fun a ha => ih a ha
      (fun m hb => hint m (Reach.down (by simp) (by simpa [kids, Tree.children] using ha) hb))
      fun b m hb => hexp b m (Reach.down (by simp) (by simpa [kids, Tree.children] using ha) hb)
  | @pow a m _ h1 ih =>
    obtain ⟨h2, h3⟩ := hexp a m (Reach.refl (by simp))
    exact .pow (ih
      (fun m hb => hint m (Reach.down (by simp) (by simp [kids, pow, Tree.call]) hb))
      fun b m hb => hexp b m (Reach.down (by simp) (by simp [kids, pow, Tree.call]) hb))
      (.lit h1) h2 h3
  | sin _ ih =>
    exact .sin (ih
      (fun m hb => hint m (Reach.down (by simp) (by simp [kids, Expr.sin, Tree.call]) hb))
      fun b m hb => hexp b m (Reach.down (by simp) (by simp [kids, Expr.sin, Tree.call]) hb))
  | cos _ ih =>
    exact .cos (ih
      (fun m hb => hint m (Reach.down (by simp) (by simp [kids, Expr.cos, Tree.call]) hb))
      fun b m hb => hexp b m (Reach.down (by simp) (by simp [kids, Expr.cos, Tree.call]) hb))

theorem withPowers_supported (hS : Symbols S) {e : Expr} (h : WithPowers S e) : Supported S e := by
  induction h with
  | param ht =>
    obtain ⟨n, rfl⟩ := hS _ ht
    exact (supported_leaf rfl).2 (Or.inl ht)
  | int hn => exact supported_int S _ hn
  | add hne _ ih =>
    exact supported_node.2 ⟨Or.inl ⟨Or.inl rfl, List.length_pos_of_ne_nil hne⟩, ih⟩
  | mul hne _ ih =>
    exact supported_node.2 ⟨Or.inl ⟨Or.inr rfl, List.length_pos_of_ne_nil hne⟩, ih⟩
  | pow _ h1 ih =>
    refine supported_node.2 ⟨Or.inr (Or.inl ⟨rfl, rfl⟩), ?_⟩
    intro u hu
    rcases List.mem_pair.1 hu with rfl | rfl
    · exact ih
    · exact supported_int S _ (lt_of_le_of_lt h1 two53_lt)
  | sin _ ih =>
    refine supported_node.2 ⟨Or.inr (Or.inr ⟨Or.inl rfl, rfl⟩), ?_⟩
    intro u hu
    obtain rfl := List.mem_singleton.1 hu
    exact ih
  | cos _ ih =>
    refine supported_node.2 ⟨Or.inr (Or.inr ⟨Or.inr rfl, rfl⟩), ?_⟩
    intro u hu
    obtain rfl := List.mem_singleton.1 hu
    exact ih

theorem continuousAt_list_sum (args : List Expr) (G : Expr → ℝ → ℝ) {t₀ : ℝ}
    (h : ∀ a ∈ args, ContinuousAt (G a) t₀) :
    ContinuousAt (fun t => (args.map fun a => G a t).sum) t₀ := by
  induction args with
  | nil => simpa using continuousAt_const
  | cons a args ih =>
    simp only [List.map_cons, List.sum_cons]
    exact (h a (by simp)).add (ih fun b hb => h b (by simp [hb]))

theorem continuousAt_list_prod (args : List Expr) (G : Expr → ℝ → ℝ) {t₀ : ℝ}
    (h : ∀ a ∈ args, ContinuousAt (G a) t₀) :
    ContinuousAt (fun t => (args.map fun a => G a t).prod) t₀ := by
  induction args with
  | nil => simpa using continuousAt_const
  | cons a args ih =>
    simp only [List.map_cons, List.prod_cons]
    exact (h a (by simp)).mul (ih fun b hb => h b (by simp [hb]))

/-- Near the point the value exists and is continuous. -/
theorem pole_near (hS : Symbols S) (hn : S.Nodup) (hlen : xs.length = S.length) {k : Nat} {t₀ : ℝ}
    (ht₀ : xs[k]? = some t₀) {m : Nat} {e : Expr} (h : Pole S xs m e) :
    ∃ G : ℝ → ℝ, ContinuousAt G t₀ ∧ ∀ᶠ t in nhds t₀, ExactValue S (xs.set k t) e (G t) := by
  have hself : xs.set k t₀ = xs := set_self ht₀
  have hargs : ∀ args : List Expr,
      (∀ a ∈ args, ∃ G : ℝ → ℝ, ContinuousAt G t₀ ∧ ∀ᶠ t in nhds t₀, ExactValue S (xs.set k t) a (G t)) →
      ∃ G : Expr → ℝ → ℝ, (∀ a ∈ args, ContinuousAt (G a) t₀) ∧
        ∀ᶠ t in nhds t₀, ∀ a ∈ args, ExactValue S (xs.set k t) a (G a t) := by
    intro args h
    have : ∀ a, ∃ G : ℝ → ℝ, a ∈ args → ContinuousAt G t₀ ∧
        ∀ᶠ t in nhds t₀, ExactValue S (xs.set k t) a (G t) := by
      intro a
      by_cases ha : a ∈ args
      · obtain ⟨G, hG⟩ := h a ha
        exact ⟨G, fun _ => hG⟩
      · exact ⟨0, fun h => absurd h ha⟩
    choose G hG using this
    refine ⟨G, fun a ha => (hG a ha).1, ?_⟩
    have hfin : {a | a ∈ args}.Finite := args.finite_toSet
    exact (eventually_all_finite hfin).2 fun a ha => (hG a ha).2
  induction h with
  | @param t ht =>
    obtain ⟨i, hi⟩ := List.getElem?_of_mem ht
    obtain ⟨hlt, _⟩ := List.getElem?_eq_some_iff.1 hi
    refine ⟨fun s => (xs.set k s)[i]'(by simp; omega), ?_, .of_forall fun s => .param ?_⟩
    · by_cases hik : k = i
      · subst hik
        simp only [List.getElem_set_self]
        exact continuousAt_id
      · simp only [List.getElem_set_ne hik]
        exact continuousAt_const
    · refine List.mem_of_getElem? (i := i) ?_
      rw [List.getElem?_zip_eq_some]
      exact ⟨hi, List.getElem?_eq_getElem _⟩
  | int _ => exact ⟨_, continuousAt_const, .of_forall fun _ => .int _⟩
  | @add args _ _ ih =>
    obtain ⟨G, h1, h2⟩ := hargs args ih
    refine ⟨fun t => (args.map fun a => G a t).sum, ?_, h2.mono fun t ht => .add ht⟩
    exact continuousAt_list_sum args G h1
  | @mul args _ _ ih =>
    obtain ⟨G, h1, h2⟩ := hargs args ih
    refine ⟨fun t => (args.map fun a => G a t).prod, ?_, h2.mono fun t ht => .mul ht⟩
    exact continuousAt_list_prod args G h1
  | @pow a c v _ hc _ hv ih =>
    obtain ⟨G, h1, h2⟩ := ih
    have hne : (0 : Int) ≤ v ∨ G t₀ ≠ 0 := by
      rcases hv with hv | ⟨r, hr, hr0⟩
      · left; omega
      · right
        have := h2.self_of_nhds
        rw [hself] at this
        rwa [exact_unique hS hn hlen this hr]
    refine ⟨fun t => G t ^ v, ?_, ?_⟩
    · exact h1.zpow₀ v hne.symm
    · have hev : ∀ᶠ t in nhds t₀, G t = 0 → 0 ≤ v := by
        rcases hne with hv | hv
        · exact .of_forall fun _ _ => hv
        · exact (h1.eventually_ne hv).mono fun t ht h0 => absurd h0 ht
      filter_upwards [h2, hev] with t ht h0
      exact .pow v ht (smallInt_exact (poleExpo_small hc)) h0
  | sin _ ih =>
    obtain ⟨G, h1, h2⟩ := ih
    exact ⟨fun t => Real.sin (G t), Real.continuous_sin.continuousAt.comp h1, h2.mono fun _ h => .sin h⟩
  | cos _ ih =>
    obtain ⟨G, h1, h2⟩ := ih
    exact ⟨fun t => Real.cos (G t), Real.continuous_cos.continuousAt.comp h1, h2.mono fun _ h => .cos h⟩

/-- There is a bound, if the arithmetic is accurate enough and the range of numbers large enough. -/
def BoundedFor (S : List Expr) (xs : List ℝ) (U : ℝ) (e : Expr) (D : ℕ) (B H : ℝ) : Prop :=
  ∀ u small hi, 0 ≤ u → u ≤ U → 0 ≤ small → small ≤ 1 → H ≤ hi →
    ∃ M, 0 ≤ M ∧ M ≤ B ∧ ErrBound S xs u small hi e M D

theorem boundedFor_le {U U' : ℝ} (h : U' ≤ U) {e : Expr} {D : ℕ} {B H : ℝ}
    (hb : BoundedFor S xs U e D B H) : BoundedFor S xs U' e D B H :=
  fun u small hi h0 h1 => hb u small hi h0 (h1.trans h)

theorem boundedFor_nonneg {U : ℝ} (hU : 0 ≤ U) {e : Expr} {D : ℕ} {B H : ℝ}
    (hb : BoundedFor S xs U e D B H) : 0 ≤ B := by
  obtain ⟨M, g1, g2, _⟩ := hb 0 0 _ le_rfl hU le_rfl zero_le_one le_rfl
  exact g1.trans g2

theorem boundedFor_args (args : List Expr)
    (h : ∀ a ∈ args, ∃ U D B H, 0 < U ∧ U ≤ 1 ∧ BoundedFor S xs U a D B H) :
    ∃ (U : ℝ) (D : Expr → ℕ) (B : Expr → ℝ) (H : ℝ), 0 < U ∧ U ≤ 1 ∧ 0 ≤ H ∧ (∀ a ∈ args, 0 ≤ B a) ∧
      ∀ u small hi, 0 ≤ u → u ≤ U → 0 ≤ small → small ≤ 1 → H ≤ hi →
        ∃ M : Expr → ℝ, ∀ a ∈ args, 0 ≤ M a ∧ M a ≤ B a ∧ ErrBound S xs u small hi a (M a) (D a) := by
  have hUs : ∃ U, 0 < U ∧ U ≤ 1 ∧ ∀ a ∈ args, ∃ D B H, BoundedFor S xs U a D B H := by
    induction args with
    | nil => exact ⟨1, one_pos, le_rfl, by simp⟩
    | cons a args ih =>
      obtain ⟨U, h1, h2, h3⟩ := ih fun b hb => h b (by simp [hb])
      obtain ⟨U', D, B, H, g1, g2, g3⟩ := h a (by simp)
      refine ⟨min U U', lt_min h1 g1, (min_le_left _ _).trans h2, fun b hb => ?_⟩
      rcases List.mem_cons.1 hb with rfl | hb
      · exact ⟨D, B, H, boundedFor_le (min_le_right _ _) g3⟩
      · obtain ⟨D, B, H, h4⟩ := h3 b hb
        exact ⟨D, B, H, boundedFor_le (min_le_left _ _) h4⟩
  obtain ⟨U, hU0, hU1, h⟩ := hUs
  have hex : ∀ a, ∃ p : ℕ × ℝ × ℝ, a ∈ args → BoundedFor S xs U a p.1 p.2.1 p.2.2 := by
    intro a
    by_cases ha : a ∈ args
    · obtain ⟨D, B, H, h⟩ := h a ha
      exact ⟨(D, B, H), fun _ => h⟩
    · exact ⟨(0, 0, 0), fun h => absurd h ha⟩
  choose p hp using hex
  have hle : ∀ a ∈ args, (p a).2.2 ≤ (args.map fun a => |(p a).2.2|).sum := by
    intro a ha
    refine (le_abs_self _).trans (List.single_le_sum ?_ _ (List.mem_map_of_mem ha))
    intro y hy
    obtain ⟨b, _, rfl⟩ := List.mem_map.1 hy
    exact abs_nonneg _
  refine ⟨U, fun a => (p a).1, fun a => (p a).2.1, (args.map fun a => |(p a).2.2|).sum, hU0, hU1, ?_,
    fun a ha => boundedFor_nonneg hU0.le (hp a ha), ?_⟩
  · apply List.sum_nonneg
    intro y hy
    obtain ⟨b, _, rfl⟩ := List.mem_map.1 hy
    exact abs_nonneg _
  · intro u small hi h0 h1 h2 h3 h4
    have : ∀ a, ∃ M, a ∈ args → 0 ≤ M ∧ M ≤ (p a).2.1 ∧ ErrBound S xs u small hi a M (p a).1 := by
      intro a
      by_cases ha : a ∈ args
      · obtain ⟨M, hM⟩ := hp a ha u small hi h0 h1 h2 h3 ((hle a ha).trans h4)
        exact ⟨M, fun _ => hM⟩
      · exact ⟨0, fun h => absurd h ha⟩
    choose M hM using this
    exact ⟨M, hM⟩

theorem pole_bounded (hlen : xs.length = S.length) {m : Nat} {e : Expr} (h : Pole S xs m e) :
    ∃ U D B H, 0 < U ∧ U ≤ 1 ∧ BoundedFor S xs U e D B H := by
  induction h with
  | @param t ht =>
    obtain ⟨i, hi⟩ := List.getElem?_of_mem ht
    obtain ⟨hlt, _⟩ := List.getElem?_eq_some_iff.1 hi
    refine ⟨1, 0, |xs[i]'(by omega)|, 0, one_pos, le_rfl, fun u small hi _ _ _ _ _ =>
      ⟨_, abs_nonneg _, le_rfl, .param (List.mem_of_getElem? (i := i) ?_)⟩⟩
    rw [List.getElem?_zip_eq_some]
    exact ⟨‹_›, List.getElem?_eq_getElem _⟩
  | int hn =>
    exact ⟨1, 0, _, 0, one_pos, le_rfl, fun u small hi _ _ _ _ _ => ⟨_, abs_nonneg _, le_rfl, .int hn⟩⟩
  | @add args hne _ ih =>
    obtain ⟨U, D, B, H, hU0, hU1, hH0, hB0, hb⟩ := boundedFor_args args ih
    let E := (args.map D).sum + args.length
    have hE : ∀ a ∈ args, D a + 1 ≤ E ∧ D a + args.length ≤ E + 1 := by
      intro a ha
      have h1 : D a ≤ (args.map D).sum := List.single_le_sum (by simp) _ (List.mem_map_of_mem ha)
      have h2 := List.length_pos_of_ne_nil hne
      simp only [E]
      omega
    refine ⟨U, E, (args.map B).sum, H + (args.map B).sum * 2 ^ E, hU0, hU1, ?_⟩
    intro u small hi h0 h1 h2 h3 h4
    have hBs : 0 ≤ (args.map B).sum := by
      apply List.sum_nonneg
      intro y hy
      obtain ⟨b, hb', rfl⟩ := List.mem_map.1 hy
      exact hB0 b hb'
    have hp : 0 ≤ (args.map B).sum * 2 ^ E := by positivity
    obtain ⟨M, hM⟩ := hb u small hi h0 h1 h2 h3 (by linarith)
    have hMs : 0 ≤ (args.map M).sum := by
      apply List.sum_nonneg
      intro y hy
      obtain ⟨b, hb', rfl⟩ := List.mem_map.1 hy
      exact (hM b hb').1
    have hMB : (args.map M).sum ≤ (args.map B).sum :=
      List.sum_le_sum fun a ha => (hM a ha).2.1
    exact ⟨_, hMs, hMB, .add hne (fun a ha => (hM a ha).2.2) hE
      (bound_le h0 (h1.trans hU1) E hMs hMB (by linarith) h4)⟩
  | @mul args hne _ ih =>
    obtain ⟨a, args, rfl⟩ := List.exists_cons_of_ne_nil hne
    obtain ⟨U, D, B, H, hU0, hU1, hH0, hB0, hb⟩ := boundedFor_args (a :: args) ih
    let E := ((a :: args).map D).sum + args.length
    let C := args.foldl (fun p b => p * (B b + 1) + 1) (B a)
    have hBa := hB0 a (by simp)
    have hBl : ∀ b ∈ args, 0 ≤ B b := fun b hb => hB0 b (by simp [hb])
    have hC0 : 0 ≤ C := hBa.trans (foldl_prefix args [] B hBl (List.nil_prefix) _ hBa)
    refine ⟨U, E, C, H + C * 2 ^ E, hU0, hU1, ?_⟩
    intro u small hi h0 h1 h2 h3 h4
    have hp : 0 ≤ C * 2 ^ E := by positivity
    obtain ⟨M, hM⟩ := hb u small hi h0 h1 h2 h3 (by linarith)
    have hMa := hM a (by simp)
    have hpre : ∀ pre, pre <+: args → 0 ≤ pre.foldl (fun p b => p * M b + small) (M a) ∧
        pre.foldl (fun p b => p * M b + small) (M a) ≤ C := by
      intro pre hpre
      obtain ⟨g1, g2⟩ := foldl_bounds pre M B h2 h3 (fun b hb => by
        have := hM b (by simp [hpre.subset hb])
        exact ⟨this.1, this.2.1⟩) (M a) (B a) hMa.1 hMa.2.1
      exact ⟨g1, g2.trans (foldl_prefix args pre B hBl hpre _ hBa)⟩
    exact ⟨_, (hpre args (List.prefix_refl _)).1, (hpre args (List.prefix_refl _)).2,
      .mul (fun b hb => (hM b hb).2.2) le_rfl fun pre h =>
        bound_le h0 (h1.trans hU1) E (hpre pre h).1 (hpre pre h).2 (by linarith) h4⟩
  | @pow a c v ha hc _ hv ih =>
    obtain ⟨U, D, B, H, hU0, hU1, hb⟩ := ih
    have hB0 := boundedFor_nonneg hU0.le hb
    by_cases hpos : 0 ≤ v
    · have hcast : ((v.toNat : ℕ) : ℤ) = v := Int.toNat_of_nonneg hpos
      refine ⟨U, v.toNat * D + 1, B ^ v.toNat + 1, |H| + (B ^ v.toNat + 1) * 2 ^ (v.toNat * D + 1),
        hU0, hU1, ?_⟩
      intro u small hi h0 h1 h2 h3 h4
      have hp : 0 ≤ (B ^ v.toNat + 1) * 2 ^ (v.toNat * D + 1) := by positivity
      have := le_abs_self H
      have := abs_nonneg H
      obtain ⟨M, hM0, hMB, hM⟩ := hb u small hi h0 h1 h2 h3 (by linarith)
      have hpw : M ^ v.toNat ≤ B ^ v.toNat := pow_le_pow_left₀ hM0 hMB _
      have hpw0 : 0 ≤ M ^ v.toNat := pow_nonneg hM0 _
      refine ⟨M ^ v.toNat + small, by linarith, by linarith, .pow hM ?_ ?_⟩
      · rw [hcast]; exact poleExpo_small hc
      · exact bound_le (B := B ^ v.toNat + 1) h0 (h1.trans hU1) _ (by linarith) (by linarith)
          (by linarith) h4
    · obtain ⟨r, hr, hr0⟩ := hv.resolve_left (by omega)
      obtain ⟨n, hnv⟩ : ∃ n : ℕ, v = -(n : ℤ) := ⟨(-v).toNat, by omega⟩
      subst hnv
      have hr1 : 0 < |r| := abs_pos.2 hr0
      let L := |r| / 2
      have hL : 0 < L := by simp only [L]; linarith
      let K : ℝ := D * 2 ^ D * B
      have hK : 0 ≤ K := by simp only [K]; positivity
      let C := (B / L ^ 2) ^ n + 1
      have hC0 : 0 ≤ C := by simp only [C]; positivity
      refine ⟨min U (L / (K + 1)), n * D + 1, C, |H| + C * 2 ^ (n * D + 1),
        lt_min hU0 (by positivity), (min_le_left _ _).trans hU1, ?_⟩
      intro u small hi h0 h1 h2 h3 h4
      have hu1 : u ≤ 1 := h1.trans ((min_le_left _ _).trans hU1)
      have hp : 0 ≤ C * 2 ^ (n * D + 1) := by positivity
      have := le_abs_self H
      have := abs_nonneg H
      obtain ⟨M, hM0, hMB, hM⟩ := hb u small hi h0 (h1.trans (min_le_left _ _)) h2 h3 (by linarith)
      have hgap : ((1 + u) ^ D - 1) * M ≤ L := by
        have g1 := growth_linear h0 hu1 D
        have g2 : 0 ≤ (1 + u) ^ D - 1 := by linarith [one_le_growth h0 D]
        have g3 : ((1 + u) ^ D - 1) * M ≤ (D * 2 ^ D * u) * B := mul_le_mul g1 hMB hM0 (g2.trans g1)
        have g4 : (D * 2 ^ D * u) * B = u * K := by simp only [K]; ring
        have g5 : u * (K + 1) ≤ L := (le_div_iff₀ (by positivity)).1 (h1.trans (min_le_right _ _))
        nlinarith
      have hq0 : 0 ≤ M / L ^ 2 := by positivity
      have hq : (M / L ^ 2) ^ n ≤ (B / L ^ 2) ^ n :=
        pow_le_pow_left₀ hq0 (div_le_div_of_nonneg_right hMB (by positivity)) _
      have hq1 : 0 ≤ (M / L ^ 2) ^ n := pow_nonneg hq0 _
      have hle : (M / L ^ 2) ^ n + small ≤ C := by simp only [C]; linarith
      refine ⟨(M / L ^ 2) ^ n + small, by linarith, hle, .powNeg hM (poleExpo_small hc) hr hL ?_ ?_⟩
      · have : L + L = |r| := by simp only [L]; ring
        linarith
      · exact bound_le h0 hu1 _ (by linarith) hle (by linarith) h4
  | sin _ ih =>
    obtain ⟨U, D, B, H, hU0, hU1, hb⟩ := ih
    refine ⟨U, D + 1, 1 + B, H, hU0, hU1, fun u small hi h0 h1 h2 h3 h4 => ?_⟩
    obtain ⟨M, hM0, hMB, hM⟩ := hb u small hi h0 h1 h2 h3 h4
    exact ⟨1 + M, by linarith, by linarith, .sin hM⟩
  | cos _ ih =>
    obtain ⟨U, D, B, H, hU0, hU1, hb⟩ := ih
    refine ⟨U, D + 1, 1 + B, H, hU0, hU1, fun u small hi h0 h1 h2 h3 h4 => ?_⟩
    obtain ⟨M, hM0, hMB, hM⟩ := hb u small hi h0 h1 h2 h3 h4
    exact ⟨1 + M, by linarith, by linarith, .cos hM⟩

/-- **C64, order of the error, away from the poles.**  Let `e` be built with `+`, `*`, `sin`, `cos` and
powers with any integer literal as an exponent, with integers up to `2^53`, and let the base of every power
whose exponent is less than `n` have a value other than 0 at the point (`n = 0`: of every negative power).
Then near the point `e` has an exact value `G`, and there are constants `K` and `U > 0` such that in every
arithmetic with a unit roundoff `u ≤ U` and a large enough range the numbers that the function compiled from
`e.diff(x, n)` and `eval_f64` return differ from the `n`-th derivative of `G` by at most `K*u`. -/
theorem C64_order_poles (S : List Expr) (hg : GoodParams S) (hS : Symbols S) (e x : Expr)
    (he : WithPowers S e) (k : Nat) (hk : S[k]? = some x) (n : Nat) (xs : List ℝ)
    (hlen : xs.length = S.length) (t₀ : ℝ) (ht₀ : xs[k]? = some t₀)
    (hint : ∀ m : Int, ArgSub e (integer m) → |m| ≤ 2 ^ 53)
    (hexp : ∀ a (m : Int), ArgSub e (pow a (integer m)) →
      |m| + n ≤ 2 ^ 53 ∧ ((n : Int) ≤ m ∨ ∃ r, ExactValue S xs a r ∧ r ≠ 0)) :
    ∃ (d : Expr) (G : ℝ → ℝ) (K H U : ℝ), 0 < U ∧ e.diff x (n : Int) = .ok d ∧ Supported S d ∧
      (∀ᶠ t in nhds t₀, ExactValue S (xs.set k t) e (G t)) ∧
      ∀ (F : Type) (val : F → Option ℝ) (u small hi : ℝ), 0 ≤ u → u ≤ U → 0 ≤ small → small ≤ 1 →
        H ≤ hi → ∀ vs : List F, List.Forall₂ (fun v x => val v = some x) vs xs →
        (∀ (P : Platform F) (A : IRArith F), PlatformOK P A → Accurate val u small hi A →
          ∀ (s : Proc F) (fd : Callable), Compiled P fd S (.expr d) s →
          ∀ args, List.Forall₂ (IsDouble A) args vs →
          ∃ w z, call P fd args s = (.float w, s) ∧ val w = some z ∧
            |z - iteratedDeriv n G t₀| ≤ K * u) ∧
        (∀ [HasNone F] (B : FloatOps F), AccuratePython val u small hi B →
          (∀ v ∈ vs, HasNone.isNone v = false) →
          ∃ w z, d.evalF64 B (some (Dict.ofPairs (S.zip vs))) = .ok w ∧ val w = some z ∧
            |z - iteratedDeriv n G t₀| ≤ K * u) := by
  have hx := List.mem_of_getElem? hk
  have ht : Pole S xs n e := withPowers_pole n he hint hexp
  have hn := goodParams_nodup hg
  obtain ⟨d, hd, hdt⟩ := pole_nth hS hx n 0 e (by rwa [Nat.zero_add])
  obtain ⟨G, _, hG⟩ := pole_near hS hn hlen ht₀ ht
  obtain ⟨U, D, B, H, hU0, hU1, hb⟩ := pole_bounded hlen hdt
  have hB0 := boundedFor_nonneg hU0.le hb
  refine ⟨d, G, D * 2 ^ D * B, H, U, hU0, hd, nth_supported S x e (withPowers_supported hS he) n d hd,
    hG, ?_⟩
  have hev : ∀ᶠ t in nhds t₀, ∀ j ∈ Finset.range (n + 1), ∀ dj, e.diff x (j : Int) = .ok dj →
      ∃ v, ExactValue S (xs.set k t) dj v := by
    refine (Finset.eventually_all _).2 fun j hj => ?_
    have hj : j ≤ n := by simpa [Nat.lt_succ_iff] using hj
    obtain ⟨dj, hdj, htj⟩ := pole_nth hS hx j (n - j) e (by rwa [Nat.sub_add_cancel hj])
    obtain ⟨Gj, _, hGj⟩ := pole_near hS hn hlen ht₀ htj
    filter_upwards [hGj] with t h dj' hdj'
    rw [hdj] at hdj'
    obtain rfl := Except.ok.inj hdj'
    exact ⟨_, h⟩
  obtain ⟨V, hV, hVo, hVt⟩ := eventually_nhds_iff.1 (hG.and hev)
  have hder : ∀ r, ExactValue S xs d r → iteratedDeriv n G t₀ = r := fun r hr =>
    exact_derivative hS hn hk n hd hlen ht₀ G V hVo hVt (fun t h => (hV t h).1)
      (fun j hj dj hdj t h => (hV t h).2 j (by simpa [Nat.lt_succ_iff] using hj) dj hdj) hr
  intro F val u small hi hu hu1 hsm hsm1 hH vs hxs
  obtain ⟨M, hM0, hMB, hM⟩ := hb u small hi hu hu1 hsm hsm1 hH
  have hle : ((1 + u) ^ D - 1) * M ≤ D * 2 ^ D * B * u := by
    have h1 := growth_linear hu (hu1.trans hU1) D
    have h2 : 0 ≤ (1 + u) ^ D - 1 := by linarith [one_le_growth hu D]
    have h3 : ((1 + u) ^ D - 1) * M ≤ (D * 2 ^ D * u) * B := mul_le_mul h1 hMB hM0 (h2.trans h1)
    linarith
  have hvl : vs.length = S.length := by rw [hxs.length_eq, hlen]
  constructor
  · intro P A hP hA s fd hfd args hv
    obtain ⟨w, z, r, h1, h2, h3, _, h4⟩ := C62_lambdify hP hA hu hsm S hg hS d s fd hfd args vs xs hv
      hxs (by rw [hv.length_eq, hvl]) M D hM
    exact ⟨w, z, h1, h2, by rw [hder r h3]; exact h4.trans hle⟩
  · intro _ B' hB' hnone
    obtain ⟨w, z, r, h1, h2, h3, _, h4⟩ := C62_eval_f64 hB' hu hsm S hS hn d vs hnone xs hxs hvl M D hM
    exact ⟨w, z, h1, h2, by rw [hder r h3]; exact h4.trans hle⟩

theorem call_heads {f g : Expr} {as bs : List Expr} (h : f ≠ g) : f.call as ≠ g.call bs := by
  rintro ⟨⟩; exact h rfl

theorem pow_literal_inj {a b c d : Expr} (h : pow a b = pow c d) : a = c ∧ b = d := by
  have h : [powH, a, b] = [powH, c, d] := by injection h
  simpa using h

/-- The subexpressions of `x**-1 + y*sin(x)`. -/
theorem poles_sample_mem {c : Expr}
    (h : ArgSub (add (pow x (integer (-1))) (mul y (sin x))) c) :
    c ∈ [x, integer (-1), pow x (integer (-1)), y, sin x, mul y (sin x),
      add (pow x (integer (-1))) (mul y (sin x))] := by
  have hm := ((C05_topological_sort false _).1 _).2 h
  revert hm
  rw [show topologicalSort false [] (add (pow x (integer (-1))) (mul y (sin x))) =
    [x, integer (-1), pow x (integer (-1)), y, sin x, mul y (sin x),
      add (pow x (integer (-1))) (mul y (sin x))] from by decide +kernel]
  exact id

/-- The second derivative of `x**-1 + y*sin(x)` at a point with `x ≠ 0`: in the arithmetics `noisy u` the
error is at most `K*u`. -/
example (a b : ℝ) (ha : a ≠ 0) : ∃ (d : Expr) (G : ℝ → ℝ) (K U : ℝ), 0 < U ∧
    Expr.diff (add (pow x (integer (-1))) (mul y (sin x))) x 2 = .ok d ∧
    (∀ᶠ t in nhds a, ExactValue [x, y] [t, b] (add (pow x (integer (-1))) (mul y (sin x))) (G t)) ∧
    ∀ u : ℝ, 0 ≤ u → u ≤ U → ∀ P, PlatformOK P (noisy u) → ∃ f s z,
      Compiled P f [x, y] (.expr d) s ∧ call P f [.float a, .float b] s = (.float z, s) ∧
      |z - iteratedDeriv 2 G a| ≤ K * u := by
  have hxm : ExactValue [x, y] [a, b] x a := .param (by simp)
  obtain ⟨d, G, K, H, U, hU, h1, h2, h3, h4⟩ := C64_order_poles [x, y] goodParams_xy.1 symbols_xy
    (add (pow x (integer (-1))) (mul y (sin x))) x
    (.add (by simp) (by
      intro e he
      rcases List.mem_pair.1 he with rfl | rfl
      · exact .pow (.param (by simp)) (by norm_num)
      · refine .mul (by simp) fun e he => ?_
        rcases List.mem_pair.1 he with rfl | rfl
        · exact .param (by simp)
        · exact .sin (.param (by simp)))) 0 rfl 2 [a, b] rfl a rfl
    (by
      intro m h
      have hm := poles_sample_mem h
      simp only [List.mem_cons, List.not_mem_nil, or_false] at hm
      rcases hm with h | h | h | h | h | h | h <;> cases h
      norm_num)
    (by
      intro c m h
      have hm := poles_sample_mem h
      simp only [List.mem_cons, List.not_mem_nil, or_false] at hm
      rcases hm with h | h | h | h | h | h | h
      · cases h
      · cases h
      · obtain ⟨rfl, hm⟩ := pow_literal_inj h
        cases hm
        exact ⟨by norm_num, .inr ⟨a, hxm, ha⟩⟩
      · cases h
      · exact absurd h (call_heads (by decide))
      · exact absurd h (call_heads (by decide))
      · exact absurd h (call_heads (by decide)))
  refine ⟨d, G, K, U, hU, h1, h3, ?_⟩
  intro u hu hu1 P hP
  obtain ⟨f, s, hf, _⟩ := compiled_exists hP goodParams_xy.1 h2 Proc.start
  obtain ⟨w, z, g1, g2, g3⟩ := (h4 ℝ some u 0 H hu hu1 le_rfl zero_le_one le_rfl [a, b]
    (.cons rfl (.cons rfl .nil))).1 P _ hP (noisy_accurate hu H) s f hf
    [.float a, .float b] (.cons (Or.inl rfl) (.cons (Or.inl rfl) .nil))
  obtain rfl := Option.some.inj g2
  exact ⟨f, s, w, hf, g1, g3⟩

end Verif.Props
