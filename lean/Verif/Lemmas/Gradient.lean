import Mathlib.Analysis.Calculus.FDeriv.Mul
import Mathlib.Analysis.SpecialFunctions.Trigonometric.Deriv
import Verif.Lemmas.Chain

/-!
# Total derivatives

Not protosym code: the calculus behind C81.  The value of an expression, as a function of a point
`p` of a normed space on which the values of the symbols depend, is differentiated by evaluating in
dual numbers.
-/

namespace Verif.Mixed
open Spec Expr Verif.Props

variable {E : Type} [NormedAddCommGroup E] [NormedSpace ℝ E] {S : Set E} {p₀ : E}

/-- The variation `z v` of `f` in the direction `v` is its derivative. -/
def Follows (S : Set E) (p₀ : E) (f : E → ℝ) (z : E → DualNumber ℝ) : Prop :=
  (∀ v, (z v).fst = f p₀) ∧ ∃ D : E →L[ℝ] ℝ, (∀ v, D v = (z v).snd) ∧ HasFDerivWithinAt f D S p₀

theorem follows_const {f : E → ℝ} {z : E → DualNumber ℝ} (hp : p₀ ∈ S) (h1 : ∀ v, (z v).fst = f p₀)
    (h2 : ∀ v, (z v).snd = 0) (h3 : ∀ p ∈ S, f p = f p₀) : Follows S p₀ f z :=
  ⟨h1, 0, fun v => (h2 v).symm,
    (hasFDerivWithinAt_const (f p₀) p₀ S).congr (fun p h => h3 p h) (h3 p₀ hp)⟩

theorem Follows.add {f g : E → ℝ} {z w : E → DualNumber ℝ} (h1 : Follows S p₀ f z)
    (h2 : Follows S p₀ g w) : Follows S p₀ (fun p => f p + g p) (fun v => z v + w v) := by
  obtain ⟨a1, D1, b1, c1⟩ := h1
  obtain ⟨a2, D2, b2, c2⟩ := h2
  refine ⟨fun v => ?_, D1 + D2, fun v => ?_, c1.add c2⟩
  · rw [TrivSqZeroExt.fst_add, a1, a2]
  · rw [TrivSqZeroExt.snd_add, ← b1, ← b2]; rfl

theorem Follows.mul {f g : E → ℝ} {z w : E → DualNumber ℝ} (h1 : Follows S p₀ f z)
    (h2 : Follows S p₀ g w) : Follows S p₀ (fun p => f p * g p) (fun v => z v * w v) := by
  obtain ⟨a1, D1, b1, c1⟩ := h1
  obtain ⟨a2, D2, b2, c2⟩ := h2
  refine ⟨fun v => ?_, f p₀ • D2 + g p₀ • D1, fun v => ?_, c1.mul c2⟩
  · rw [TrivSqZeroExt.fst_mul, a1, a2]
  · rw [snd_mul', ← b1, ← b2, a1, a2]
    simp only [add_apply, smul_apply, smul_eq_mul]
    ring

theorem follows_list {α : Type} (F : α → E → ℝ) (Z : α → E → DualNumber ℝ) (hp : p₀ ∈ S) (l : List α)
    (h : ∀ a ∈ l, Follows S p₀ (F a) (Z a)) :
    Follows S p₀ (fun p => (l.map fun a => F a p).sum) (fun v => (l.map fun a => Z a v).sum) ∧
    Follows S p₀ (fun p => (l.map fun a => F a p).prod) (fun v => (l.map fun a => Z a v).prod) := by
  induction l with
  | nil =>
    exact ⟨follows_const hp (fun _ => rfl) (fun _ => rfl) (fun _ _ => rfl),
      follows_const hp (fun _ => rfl) (fun _ => rfl) (fun _ _ => rfl)⟩
  | cons a l ih =>
    obtain ⟨i1, i2⟩ := ih fun b hb => h b (List.mem_cons_of_mem _ hb)
    have ha := h a List.mem_cons_self
    exact ⟨ha.add i1, ha.mul i2⟩

theorem Follows.sin {f : E → ℝ} {z : E → DualNumber ℝ} (h : Follows S p₀ f z) :
    Follows S p₀ (fun p => Real.sin (f p)) (fun v => (lift realFns).sin (z v)) := by
  obtain ⟨a, D, b, c⟩ := h
  refine ⟨fun v => ?_, Real.cos (f p₀) • D, fun v => ?_, c.sin⟩
  · change Real.sin (z v).fst = _
    rw [a]
  · rw [lift_sin_snd, a, ← b]
    rfl

theorem Follows.cos {f : E → ℝ} {z : E → DualNumber ℝ} (h : Follows S p₀ f z) :
    Follows S p₀ (fun p => Real.cos (f p)) (fun v => (lift realFns).cos (z v)) := by
  obtain ⟨a, D, b, c⟩ := h
  refine ⟨fun v => ?_, -Real.sin (f p₀) • D, fun v => ?_, c.cos⟩
  · change Real.cos (z v).fst = _
    rw [a]
  · rw [lift_cos_snd, a, ← b]
    simp [realFns]

theorem Follows.pow {f g : E → ℝ} {z w : E → DualNumber ℝ} (h : Follows S p₀ f z)
    (hw : ∀ v, (w v).fst = g p₀) (hg : ∀ p ∈ S, g p = g p₀) (hne : f p₀ ≠ 0 ∨ 1 ≤ g p₀) :
    Follows S p₀ (fun p => f p ^ g p) (fun v => (lift realFns).pow (z v) (w v)) := by
  obtain ⟨a, D, b, c⟩ := h
  have key := ((Real.hasDerivAt_rpow_const hne).comp_hasFDerivWithinAt p₀ c).congr
    (f₁ := fun p => f p ^ g p) (fun p h => by simp [hg p h]) (by simp)
  refine ⟨fun v => ?_, _, fun v => ?_, key⟩
  · change (z v).fst ^ (w v).fst = _
    rw [a, hw]
  · rw [lift_pow_snd, a, hw, ← b]
    rfl

/-- The value depends on the leaves in argument position only. -/
theorem ev_congr {K : Type} [CommRing K] (o : Fns K) {ρ ρ' : Expr → K} (e : Expr)
    (h : ∀ t, t.children = [] → ArgSub e t → ρ t = ρ' t) : ev o ρ e = ev o ρ' e := by
  induction e using Tree.induction with
  | h e ih =>
    by_cases hl : e.children = []
    · rw [ev_leaf _ _ hl, ev_leaf _ _ hl]
      exact h e hl (Reach.refl (by simp))
    · obtain ⟨hd, args, rfl⟩ := node_of_not_leaf hl
      rw [ev_node, ev_node]
      congr 1
      apply List.map_congr_left
      intro t ht
      have hk : t ∈ kids false (.node (hd :: args)) := by simpa [kids, Tree.children] using ht
      exact ih t (List.mem_cons_of_mem _ ht) fun u hu hs => h u hu (Reach.down (by simp) hk hs)

/-- The derivative exists and has a value. -/
def Good (values : Dict Expr ℝ) (k e : Expr) : Prop :=
  ∃ d, Derives simplecasTable k e d ∧ ∃ v, F64Value realOps values.get? d v

theorem zero_constant {k e : Expr} (hk : k.children = []) (h : Derives simplecasTable k e zero) :
    ¬ ArgSub e k := by
  exact C23_zero_only_if_constant builtinDiff (.inl rfl) e k hk
      (((C52_diff_exact simplecasTable builtinDiff C52_builtin e k zero).2 h).trans
        (by rw [show builtinDiff.zero = zero from by decide +kernel]))

theorem value_zero {values : Dict Expr ℝ} (hv : SymbolValues values) :
    ∃ v, F64Value realOps values.get? zero v :=
  ⟨_, .integer (n := 0) (fun v h => by rw [hv.noInteger] at h; cases h) rfl⟩

theorem value_one {values : Dict Expr ℝ} (hv : SymbolValues values) :
    ∃ v, F64Value realOps values.get? one v :=
  ⟨_, .integer (n := 1) (fun v h => by rw [hv.noInteger] at h; cases h) rfl⟩

theorem values_mem {values : Expr → Option ℝ} {args : List Expr} {vs : List ℝ}
    (h : F64Values realOps values args vs) : ∀ t ∈ args, ∃ v, F64Value realOps values t v := by
  intro t ht
  induction args generalizing vs with
  | nil => cases ht
  | cons a as ih =>
    cases h with
    | cons h1 h2 =>
      rcases List.mem_cons.1 ht with rfl | ht
      · exact ⟨_, h1⟩
      · exact ih h2 ht

theorem value_add {values : Expr → Option ℝ} {args : List Expr} {v : ℝ}
    (h : F64Value realOps values (.node (addH :: args)) v) :
    ∀ t ∈ args, ∃ v, F64Value realOps values t v := by
  generalize he : (.node (addH :: args) : Expr) = e at h
  cases h with
  | given hl _ _ => subst he; cases hl
  | integer _ _ => cases he
  | sum h1 _ =>
    obtain ⟨_, rfl⟩ := List.cons.inj (Tree.node.inj he)
    exact values_mem h1
  | product _ _ => exact absurd (List.cons.inj (Tree.node.inj he)).1 (by decide)
  | power _ _ _ => exact absurd (List.cons.inj (Tree.node.inj he)).1 (by decide)
  | sine _ _ => exact absurd (List.cons.inj (Tree.node.inj he)).1 (by decide)
  | cosine _ _ => exact absurd (List.cons.inj (Tree.node.inj he)).1 (by decide)

theorem value_mul {values : Expr → Option ℝ} {args : List Expr} {v : ℝ}
    (h : F64Value realOps values (.node (mulH :: args)) v) :
    ∀ t ∈ args, ∃ v, F64Value realOps values t v := by
  generalize he : (.node (mulH :: args) : Expr) = e at h
  cases h with
  | given hl _ _ => subst he; cases hl
  | integer _ _ => cases he
  | product h1 _ =>
    obtain ⟨_, rfl⟩ := List.cons.inj (Tree.node.inj he)
    exact values_mem h1
  | sum _ _ => exact absurd (List.cons.inj (Tree.node.inj he)).1 (by decide)
  | power _ _ _ => exact absurd (List.cons.inj (Tree.node.inj he)).1 (by decide)
  | sine _ _ => exact absurd (List.cons.inj (Tree.node.inj he)).1 (by decide)
  | cosine _ _ => exact absurd (List.cons.inj (Tree.node.inj he)).1 (by decide)

theorem value_pow {values : Dict Expr ℝ} (hv : SymbolValues values) {a b : Expr} {v : ℝ}
    (h : F64Value realOps values.get? (.node [powH, a, b]) v) :
    PowDefined (ev realFns (given values) a) (ev realFns (given values) b) := by
  generalize he : (.node [powH, a, b] : Expr) = e at h
  cases h with
  | given hl _ _ => subst he; cases hl
  | integer _ _ => cases he
  | power h1 h2 h3 =>
    obtain ⟨_, g1⟩ := List.cons.inj (Tree.node.inj he)
    obtain ⟨rfl, g2⟩ := List.cons.inj g1
    obtain ⟨rfl, _⟩ := List.cons.inj g2
    rw [ev_value hv _ h1, ev_value hv _ h2]
    simp only [realOps] at h3
    split at h3
    · assumption
    · cases h3
  | sum _ _ => exact absurd (List.cons.inj (Tree.node.inj he)).1 (by decide)
  | product _ _ => exact absurd (List.cons.inj (Tree.node.inj he)).1 (by decide)
  | sine _ _ => exact absurd (List.cons.inj (Tree.node.inj he)).1 (by decide)
  | cosine _ _ => exact absurd (List.cons.inj (Tree.node.inj he)).1 (by decide)

theorem value_total {values : Expr → Option ℝ} {ts : List Expr} {v : ℝ}
    (h : F64Value realOps values (simplecasTable.total ts) v) :
    ∀ t ∈ ts, ∃ v, F64Value realOps values t v := by
  match ts with
  | [] => intro t ht; cases ht
  | [t] =>
    intro u hu
    obtain rfl := List.mem_singleton.1 hu
    exact ⟨v, h⟩
  | a :: b :: ts => exact value_add h

/-- Where the derivative has a value, so have those of the arguments of a known function; and a base
that varies is not 0, or the exponent is at least 1. -/
theorem good_args {values : Dict Expr ℝ} (hv : SymbolValues values) {k h : Expr} {args : List Expr}
    (hl : h ≠ listH) (hg : Good values k (.node (h :: args))) :
    (∀ a ∈ args, Good values k a) ∧
    ∀ a b, h = powH → args = [a, b] → Derives simplecasTable k b zero ∧
      (Derives simplecasTable k a zero ∨ ev realFns (given values) a ≠ 0 ∨
        1 ≤ ev realFns (given values) b) := by
  obtain ⟨d, hd, v, hdv⟩ := hg
  obtain ⟨ds, hds, hcase⟩ := derives_node.1 hd
  have hf := derivesAll_forall₂.1 hds
  have key : ∀ (i : ℕ) (hi : i < args.length), ∃ (d : Expr), ds[i]? = some d ∧
      Derives simplecasTable k args[i] d ∧ (d = zero ∨ (d, i) ∈ simplecasTable.nonzero ds) := by
    intro i hi
    have hlen := hf.length_eq
    refine ⟨ds[i]'(by omega), by rw [List.getElem?_eq_getElem], ?_, ?_⟩
    · exact (List.forall₂_iff_get.1 hf).2 i hi (by omega)
    · by_cases h0 : ds[i]'(by omega) = zero
      · exact .inl h0
      · right
        refine List.mem_filter.2 ⟨List.mem_zipIdx_iff_getElem?.2 ?_, decide_eq_true h0⟩
        exact List.getElem?_eq_getElem _
  have hgood : (∀ q ∈ simplecasTable.nonzero ds, ∃ v, F64Value realOps values.get? q.1 v) →
      ∀ a ∈ args, Good values k a := by
    intro hq a ha
    obtain ⟨i, hi, rfl⟩ := List.mem_iff_getElem.1 ha
    obtain ⟨d, _, h2, h3⟩ := key i hi
    rcases h3 with rfl | h3
    · exact ⟨_, h2, value_zero hv⟩
    · exact ⟨d, h2, hq _ h3⟩
  rcases hcase with ⟨hx, rfl⟩ | ⟨_, rfl, rfl⟩ | ⟨_, _, rfl, rfl⟩ | ⟨_, h2, h3, ts, hts, rfl⟩
  · exact absurd (by simpa [DiffTable.Distributive, simplecasTable] using hx) hl
  · refine ⟨hgood fun q hq => ?_, fun a b h => absurd h (by decide)⟩
    exact value_total hdv _ (List.mem_map_of_mem hq)
  · refine ⟨hgood fun q hq => ?_, fun a b h => absurd h (by decide)⟩
    obtain ⟨w, hw⟩ := value_total hdv _ (List.mem_map_of_mem (f := fun q : Expr × Nat =>
      (.node (simplecasTable.mul :: args.set q.2 q.1) : Expr)) hq)
    refine value_mul hw q.1 (List.mem_set ?_ _)
    have := List.mem_zipIdx_iff_getElem?.1 (List.mem_filter.1 hq).1
    have := (List.getElem?_eq_some_iff.1 this).1
    have := hf.length_eq
    omega
  · have hterm : ∀ q ∈ simplecasTable.nonzero ds, ∃ t, ChainTerm simplecasTable h args q t ∧
        ∃ v, F64Value realOps values.get? t v := by
      intro q hq
      obtain ⟨i, hi, rfl⟩ := List.mem_iff_getElem.1 hq
      have hlen := hts.length_eq
      refine ⟨ts[i]'(by omega), (List.forall₂_iff_get.1 hts).2 i hi (by omega), ?_⟩
      exact value_total hdv _ (List.getElem_mem _)
    have hq : ∀ q ∈ simplecasTable.nonzero ds, (∃ v, F64Value realOps values.get? q.1 v) ∧
        ∀ a b, h = powH → args = [a, b] → ev realFns (given values) a ≠ 0 ∨
          1 ≤ ev realFns (given values) b := by
      intro q hq
      obtain ⟨t, ht, w, hw⟩ := hterm q hq
      obtain ⟨g, rfl, _, hg⟩ := chainTerm_simplecas ht
      have h4 : (∃ v, F64Value realOps values.get? q.1 v) ∧ ∃ v, F64Value realOps values.get? g v := by
        split at hw
        · next h => exact ⟨h ▸ value_one hv, _, hw⟩
        · have := value_mul hw
          exact ⟨this _ (by simp), this _ (by simp)⟩
      refine ⟨h4.1, ?_⟩
      intro a b h5 h6
      rcases hg with ⟨rfl, _⟩ | ⟨rfl, _⟩ | ⟨_, a', b', h7, rfl⟩
      · exact absurd h5 (by decide)
      · exact absurd h5 (by decide)
      · rw [h6] at h7
        obtain ⟨rfl, h8⟩ := List.cons.inj h7
        obtain ⟨rfl, _⟩ := List.cons.inj h8
        obtain ⟨w, hw⟩ := h4.2
        obtain ⟨w2, hw2⟩ := value_mul hw (pow a (add b negone)) (by simp)
        have hp := value_pow hv hw2
        have h8 : ev realFns (given values) (.node [addH, b, negone]) =
            ev realFns (given values) b - 1 := by
          rw [ev_add]
          have : ev realFns (given values) negone = -1 :=
            (ev_leaf _ _ rfl).trans (given_ints hv).negone
          simp [this, sub_eq_add_neg]
        have h9 := hp.1
        change _ → 0 ≤ ev realFns (given values) (.node [addH, b, negone]) at h9
        rw [h8] at h9
        by_cases h0 : ev realFns (given values) a = 0
        · right
          linarith [h9 h0]
        · exact .inl h0
    refine ⟨hgood fun q h => (hq q h).1, ?_⟩
    intro a b h5 h6
    subst h5 h6
    refine ⟨exponent_constant hd, ?_⟩
    obtain ⟨d0, h7, h8, h9⟩ := key 0 (by simp)
    rcases h9 with rfl | h9
    · exact .inl h8
    · exact .inr ((hq _ h9).2 a b rfl rfl)

open Classical in
/-- The value follows the values of the symbols. -/
theorem follows_ev {values : Dict Expr ℝ} (hv : SymbolValues values) (xs : List Expr)
    (hxs : ∀ k ∈ xs, k.children = []) (ρ : E → Expr → ℝ) (γ' : Expr → E →L[ℝ] ℝ) (hp : p₀ ∈ S)
    (hρ : ρ p₀ = given values)
    (hin : ∀ k ∈ xs, HasFDerivWithinAt (fun p => ρ p k) (γ' k) S p₀)
    (hout : ∀ t, t ∉ xs → ∀ p ∈ S, ρ p t = ρ p₀ t) (e : Expr) (hgood : ∀ k ∈ xs, Good values k e) :
    Follows S p₀ (fun p => ev realFns (ρ p) e)
      (fun v => ev (lift realFns) (along (ρ p₀) fun t => if t ∈ xs then γ' t v else 0) e) := by
  have hconst : ∀ e : Expr, (∀ k ∈ xs, ¬ ArgSub e k) → (∀ p ∈ S, ev realFns (ρ p) e = ev realFns (ρ p₀) e) ∧
      ∀ v, (ev (lift realFns) (along (ρ p₀) fun t => if t ∈ xs then γ' t v else 0) e).snd = 0 := by
    intro e he
    refine ⟨fun p hp => ev_congr _ e fun t _ hs => hout t (fun h => he t h hs) p hp, fun v => ?_⟩
    rw [ev_congr _ e (ρ' := along (ρ p₀) fun _ => 0) fun t _ hs => by
      unfold along
      beta_reduce
      rw [if_neg fun h => he t h hs], ev_still]
  induction e using Tree.induction with
  | h e ih =>
    by_cases hocc : ∃ k ∈ xs, ArgSub e k
    swap
    · have hocc' : ∀ k ∈ xs, ¬ ArgSub e k := fun k hk hs => hocc ⟨k, hk, hs⟩
      exact follows_const hp (fun v => ev_fst_along _ _ _ _) (hconst e hocc').2 (hconst e hocc').1
    by_cases hl : e.children = []
    · obtain ⟨k, hk, hs⟩ := hocc
      obtain rfl : k = e := by
        cases hs with
        | refl _ => rfl
        | down _ hc _ =>
          cases e with
          | atom a => cases hc
          | node cs => cases hl; cases hc
      have h1 : (fun p => ev realFns (ρ p) k) = fun p => ρ p k := funext fun p => ev_leaf _ _ hl
      rw [h1]
      refine ⟨fun v => ?_, γ' k, fun v => ?_, hin k hk⟩
      · beta_reduce
        rw [ev_leaf _ _ hl]; rfl
      · beta_reduce
        rw [ev_leaf _ _ hl]
        exact (if_pos hk).symm
    · obtain ⟨h, args, rfl⟩ := node_of_not_leaf hl
      by_cases hlist : h = listH
      · subst hlist
        have h1 : ∀ {K : Type} [CommRing K] (o : Fns K) (ρ : Expr → K), ev o ρ (.node (listH :: args)) = 0 := by
          intro K _ o ρ
          rw [ev_node]
          unfold op
          rw [if_neg (by decide), if_neg (by decide), if_neg (by decide), if_neg (by decide),
            if_neg (by decide)]
        simp only [h1]
        exact follows_const hp (fun _ => rfl) (fun _ => rfl) (fun _ _ => rfl)
      have hargs : ∀ a ∈ args, Follows S p₀ (fun p => ev realFns (ρ p) a)
          (fun v => ev (lift realFns) (along (ρ p₀) fun t => if t ∈ xs then γ' t v else 0) a) :=
        fun a ha => ih a (List.mem_cons_of_mem _ ha) fun k hk => (good_args hv hlist (hgood k hk)).1 a ha
      have hz : Follows S p₀ (fun _ => 0) fun _ => 0 :=
        follows_const hp (fun _ => rfl) (fun _ => rfl) (fun _ _ => rfl)
      obtain ⟨l1, l2⟩ := follows_list (fun a p => ev realFns (ρ p) a)
        (fun a v => ev (lift realFns) (along (ρ p₀) fun t => if t ∈ xs then γ' t v else 0) a) hp args hargs
      simp only [ev_node]
      unfold op
      by_cases h1 : h = addH
      · simpa only [if_pos h1] using l1
      by_cases h2 : h = mulH
      · simpa only [if_neg h1, if_pos h2] using l2
      by_cases h3 : h = powH
      · simp only [if_neg h1, if_neg h2, if_pos h3]
        match args, hargs, hgood, hocc with
        | [], _, _, _ => exact hz
        | [a], _, _, _ => exact hz
        | a :: b :: c :: l, _, _, _ => exact hz
        | [a, b], hargs, hgood, hocc =>
          obtain ⟨k, hk, hs⟩ := hocc
          have hb : ∀ k ∈ xs, ¬ ArgSub b k := fun k hk =>
            zero_constant (hxs k hk) ((good_args hv hlist (hgood k hk)).2 a b h3 rfl).1
          have ha : ArgSub a k := by
            cases hs with
            | refl _ => exact absurd (hxs _ hk) (by simp [Tree.children])
            | down _ hc hs =>
              rcases (by simpa [kids] using hc : _ = a ∨ _ = b) with rfl | rfl
              · exact hs
              · exact absurd hs (hb k hk)
          have hside := ((good_args hv hlist (hgood k hk)).2 a b h3 rfl).2
          rcases hside with h0 | hside
          · exact absurd ha (zero_constant (hxs k hk) h0)
          · rw [← hρ] at hside
            exact Follows.pow (hargs a (by simp)) (hargs b (by simp)).1 (hconst b hb).1 hside
      by_cases h4 : h = sinH
      · simp only [if_neg h1, if_neg h2, if_neg h3, if_pos h4]
        match args, hargs with
        | [], _ => exact hz
        | [a], hargs => exact (hargs a (by simp)).sin
        | a :: b :: l, _ => exact hz
      by_cases h5 : h = cosH
      · simp only [if_neg h1, if_neg h2, if_neg h3, if_neg h4, if_pos h5]
        match args, hargs with
        | [], _ => exact hz
        | [a], hargs => exact (hargs a (by simp)).cos
        | a :: b :: l, _ => exact hz
      · simp only [if_neg h1, if_neg h2, if_neg h3, if_neg h4, if_neg h5]
        exact hz

end Verif.Mixed
