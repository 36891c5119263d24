import Verif.Lemmas.Mixed
import Verif.Props.Compiled

/-!
# The chain rule in dual numbers

Not protosym code: the algebra behind C75.
-/

namespace Verif.Mixed
open Spec Expr Verif.Props

variable {K : Type} [CommRing K]

theorem node_of_not_leaf {e : Expr} (hl : ¬ e.children = []) : ∃ h args, e = .node (h :: args) := by
  cases e with
  | atom b => exact absurd rfl hl
  | node cs =>
    cases cs with
    | nil => exact absurd rfl hl
    | cons h args => exact ⟨h, args, rfl⟩

/-- The first part is the value, whatever varies. -/
theorem ev_fst_any (o : Fns K) (σ : Expr → DualNumber K) (e : Expr) :
    (ev (lift o) σ e).fst = ev o (fun t => (σ t).fst) e := by
  induction e using Tree.induction with
  | h e ih =>
    by_cases hl : e.children = []
    · rw [ev_leaf _ _ hl, ev_leaf _ _ hl]
    · obtain ⟨h, args, rfl⟩ := node_of_not_leaf hl
      have hmap : (args.map (ev (lift o) σ)).map TrivSqZeroExt.fst =
          args.map (ev o fun t => (σ t).fst) := by
        rw [List.map_map]
        exact List.map_congr_left fun t ht => ih t (List.mem_cons_of_mem _ ht)
      rw [ev_node, ev_node, ← hmap]
      generalize args.map (ev (lift o) σ) = vs
      unfold op
      split
      · exact map_list_sum (TrivSqZeroExt.fstHom K K K) vs
      split
      · exact TrivSqZeroExt.fst_list_prod vs
      split
      · match vs with
        | [] => rfl
        | [a] => rfl
        | [a, b] => rfl
        | a :: b :: c :: vs => rfl
      split
      · match vs with
        | [] => rfl
        | [a] => rfl
        | a :: b :: vs => rfl
      split
      · match vs with
        | [] => rfl
        | [a] => rfl
        | a :: b :: vs => rfl
      · rfl

/-- The values `ρ`, varying as `s` says. -/
def along (ρ s : Expr → K) : Expr → DualNumber K := fun t => dn (ρ t) (s t)

theorem ev_fst_along (o : Fns K) (ρ s : Expr → K) (e : Expr) :
    (ev (lift o) (along ρ s) e).fst = ev o ρ e := ev_fst_any o _ e

theorem snd_mul' (a b : DualNumber K) : (a * b).snd = a.fst * b.snd + a.snd * b.fst := by
  rw [TrivSqZeroExt.snd_mul]
  simp only [smul_eq_mul, MulOpposite.smul_eq_mul_unop, MulOpposite.unop_op]

theorem linear_list {α : Type} (p : K) (f f1 f2 : α → DualNumber K) (l : List α)
    (h1 : ∀ a ∈ l, (f1 a).fst = (f a).fst) (h2 : ∀ a ∈ l, (f2 a).fst = (f a).fst)
    (h : ∀ a ∈ l, (f a).snd = (f1 a).snd + p * (f2 a).snd) :
    ((l.map f).sum.snd = (l.map f1).sum.snd + p * (l.map f2).sum.snd) ∧
    ((l.map f1).prod.fst = (l.map f).prod.fst) ∧ ((l.map f2).prod.fst = (l.map f).prod.fst) ∧
    ((l.map f).prod.snd = (l.map f1).prod.snd + p * (l.map f2).prod.snd) := by
  induction l with
  | nil => simp
  | cons a l ih =>
    obtain ⟨i1, i2, i3, i4⟩ := ih (fun b hb => h1 b (by simp [hb])) (fun b hb => h2 b (by simp [hb]))
      (fun b hb => h b (by simp [hb]))
    have ha := h a (by simp)
    have ha1 := h1 a (by simp)
    have ha2 := h2 a (by simp)
    simp only [List.map_cons, List.sum_cons, List.prod_cons]
    refine ⟨?_, ?_, ?_, ?_⟩
    · rw [TrivSqZeroExt.snd_add, TrivSqZeroExt.snd_add, TrivSqZeroExt.snd_add, i1, ha]; ring
    · rw [TrivSqZeroExt.fst_mul, TrivSqZeroExt.fst_mul, i2, ha1]
    · rw [TrivSqZeroExt.fst_mul, TrivSqZeroExt.fst_mul, i3, ha2]
    · rw [snd_mul', snd_mul', snd_mul', i4, ha, ha1, ha2, i2, i3]; ring

theorem lift_pow_snd (o : Fns K) (a b : DualNumber K) :
    ((lift o).pow a b).snd = b.fst * o.pow a.fst (b.fst - 1) * a.snd := by rfl

theorem lift_sin_snd (o : Fns K) (a : DualNumber K) :
    ((lift o).sin a).snd = o.cos a.fst * a.snd := by rfl

theorem lift_cos_snd (o : Fns K) (a : DualNumber K) :
    ((lift o).cos a).snd = -(o.sin a.fst * a.snd) := by rfl

/-- The variation of the value is linear in the variation of the leaves. -/
theorem ev_linear (o : Fns K) (ρ s1 s2 : Expr → K) (p : K) (e : Expr) :
    (ev (lift o) (along ρ fun t => s1 t + p * s2 t) e).snd =
      (ev (lift o) (along ρ s1) e).snd + p * (ev (lift o) (along ρ s2) e).snd := by
  induction e using Tree.induction with
  | h e ih =>
    by_cases hl : e.children = []
    · rw [ev_leaf _ _ hl, ev_leaf _ _ hl, ev_leaf _ _ hl]; rfl
    · obtain ⟨h, args, rfl⟩ := node_of_not_leaf hl
      have key := linear_list p (ev (lift o) (along ρ fun t => s1 t + p * s2 t))
        (ev (lift o) (along ρ s1)) (ev (lift o) (along ρ s2)) args
        (fun a _ => by rw [ev_fst_along, ev_fst_along]) (fun a _ => by rw [ev_fst_along, ev_fst_along])
        (fun a ha => ih a (List.mem_cons_of_mem _ ha))
      have hi : ∀ a ∈ args, _ := fun a ha => ih a (List.mem_cons_of_mem _ ha)
      rw [ev_node, ev_node, ev_node]
      have hz : (0 : DualNumber K).snd = (0 : DualNumber K).snd + p * (0 : DualNumber K).snd := by simp
      unfold op
      split
      · exact key.1
      split
      · exact key.2.2.2
      split
      · match args, hi with
        | [], _ => exact hz
        | [a], _ => exact hz
        | [a, b], hi =>
          simp only [List.map_cons, List.map_nil, lift_pow_snd, ev_fst_along]
          rw [hi a (by simp)]
          ring
        | a :: b :: c :: l, _ => exact hz
      split
      · match args, hi with
        | [], _ => exact hz
        | [a], hi =>
          simp only [List.map_cons, List.map_nil, lift_sin_snd, ev_fst_along]
          rw [hi a (by simp)]
          ring
        | a :: b :: l, _ => exact hz
      split
      · match args, hi with
        | [], _ => exact hz
        | [a], hi =>
          simp only [List.map_cons, List.map_nil, lift_cos_snd, ev_fst_along]
          rw [hi a (by simp)]
          ring
        | a :: b :: l, _ => exact hz
      · exact hz

open Classical in
/-- How the leaves vary if each `q.1` varies by `q.2.1`. -/
noncomputable def direction (L : List (Expr × K × Expr)) (t : Expr) : K :=
  (L.map fun q => if t = q.1 then q.2.1 else 0).sum

theorem ev_still (o : Fns K) (ρ : Expr → K) (e : Expr) :
    (ev (lift o) (along ρ fun _ => 0) e).snd = 0 := by
  have h := ev_linear o ρ (fun _ => 0) (fun _ => 0) 1 e
  have hz : (fun _ : Expr => (0 : K) + 1 * 0) = fun _ => 0 := by funext; ring
  rw [hz, one_mul] at h
  exact left_eq_add.1 h

/-- Total derivative: the sum of the partial ones. -/
theorem ev_total_derivative (o : Fns K) (ρ : Expr → K) (hρ : Ints ρ) (e : Expr)
    (L : List (Expr × K × Expr)) (hL : ∀ q ∈ L, Derives simplecasTable q.1 e q.2.2) :
    (ev (lift o) (along ρ (direction L)) e).snd = (L.map fun q => q.2.1 * ev o ρ q.2.2).sum := by
  induction L with
  | nil => exact ev_still o ρ e
  | cons q L ih =>
    classical
    have hd : (direction (q :: L) : Expr → K) =
        fun t => direction L t + q.2.1 * (if t = q.1 then 1 else 0) := by
      funext t
      unfold direction
      rw [List.map_cons, List.sum_cons, add_comm]
      congr 1
      by_cases h : t = q.1 <;> simp [h]
    rw [hd, ev_linear, ih fun r hr => hL r (by simp [hr]), List.map_cons, List.sum_cons, add_comm]
    congr 2
    have := ev_snd o ρ hρ e (hL q (by simp))
    rw [← this]
    congr 2

/-- The values of the replacements. -/
noncomputable def through (o : Fns K) (ρ : Expr → K) (σ : Expr → Option Expr) (t : Expr) : K :=
  match σ t with
  | some g => ev o ρ g
  | none => ρ t

/-- Replacing leaves that are used as values is evaluating with their values. -/
theorem ev_subst (o : Fns K) (ρ : Expr → K) (σ : Expr → Option Expr) (e : Expr)
    (hσ : ∀ k, σ k ≠ none → k.children = [] ∧
      ∀ h args, ArgSub e (.node (h :: args)) → ¬ OccursIn k h) :
    ev o ρ (subst σ e) = ev o (through o ρ σ) e := by
  induction e using Tree.induction with
  | h e ih =>
    by_cases hl : e.children = []
    · rw [ev_leaf _ _ hl]
      have hs : subst σ e = (σ e).getD e := by
        cases e with
        | atom a => rw [subst]
        | node cs => cases hl; rw [subst, substList]
      rw [hs]
      unfold through
      cases σ e with
      | none => exact ev_leaf _ _ hl
      | some g => rfl
    · obtain ⟨h, args, rfl⟩ := node_of_not_leaf hl
      have hn : σ (.node (h :: args)) = none := by
        refine Classical.byContradiction fun hne => ?_
        exact absurd (hσ _ hne).1 (by simp [Tree.children])
      have hh : subst σ h = h := subst_absent σ h fun t ht => by
        refine Classical.byContradiction fun hne => ?_
        exact (hσ t hne).2 h args (Reach.refl (by simp)) ht
      rw [subst_none_node hn, List.map_cons, hh, ev_node, ev_node, List.map_map]
      congr 1
      apply List.map_congr_left
      intro t ht
      exact ih t (List.mem_cons_of_mem _ ht) fun k hk => ⟨(hσ k hk).1, fun h' args' hs =>
        (hσ k hk).2 h' args' (Reach.down (by simp) (by simpa [kids, Tree.children] using ht) hs)⟩

/-- Nothing to replace in an expression that depends on none of the keys. -/
theorem subst_constant (σ : Expr → Option Expr) (e : Expr)
    (hσ : ∀ k, σ k ≠ none → k.children = [] ∧
      ∀ h args, ArgSub e (.node (h :: args)) → ¬ OccursIn k h)
    (h0 : ∀ k, σ k ≠ none → Derives simplecasTable k e zero) : subst σ e = e := by
  have hno : ∀ k, σ k ≠ none → ¬ ArgSub e k := fun k hk =>
    C23_zero_only_if_constant builtinDiff (.inl rfl) e k (hσ k hk).1
      (((C52_diff_exact simplecasTable builtinDiff C52_builtin e k zero).2 (h0 k hk)).trans
        (by rw [show builtinDiff.zero = zero from by decide +kernel]))
  clear h0
  induction e using Tree.induction with
  | h e ih =>
    have hn : σ e = none := by
      refine Classical.byContradiction fun hne => ?_
      exact hno e hne (Reach.refl (by simp))
    by_cases hl : e.children = []
    · cases e with
      | atom a => rw [subst, hn]; rfl
      | node cs => cases hl; rw [subst, substList, hn]; rfl
    · obtain ⟨h, args, rfl⟩ := node_of_not_leaf hl
      have hh : subst σ h = h := subst_absent σ h fun t ht => by
        refine Classical.byContradiction fun hne => ?_
        exact (hσ t hne).2 h args (Reach.refl (by simp)) ht
      rw [subst_none_node hn, List.map_cons, hh]
      congr 2
      conv_rhs => rw [← List.map_id args]
      apply List.map_congr_left
      intro t ht
      have hk : t ∈ kids false (.node (h :: args)) := by simpa [kids, Tree.children] using ht
      exact ih t (List.mem_cons_of_mem _ ht)
        (fun k hk' => ⟨(hσ k hk').1, fun h' args' hs =>
          (hσ k hk').2 h' args' (Reach.down (by simp) hk hs)⟩)
        fun k hk' hs => hno k hk' (Reach.down (by simp) hk hs)

/-- Either all arguments of a function are constant, or there is a rule. -/
theorem chain_args {x h : Expr} {args : List Expr} {d : Expr} (h1 : h ≠ listH) (h2 : h ≠ addH)
    (h3 : h ≠ mulH) (hd : Derives simplecasTable x (.node (h :: args)) d) :
    (∀ a ∈ args, Derives simplecasTable x a zero) ∨ (h = sinH ∧ ∃ a, args = [a]) ∨
      (h = cosH ∧ ∃ a, args = [a]) ∨ (h = powH ∧ ∃ a b, args = [a, b]) := by
  obtain ⟨ds, hds, hcase⟩ := derives_node.1 hd
  rcases hcase with ⟨hx, _⟩ | ⟨_, hx, _⟩ | ⟨_, _, hx, _⟩ | ⟨_, _, _, ts, hts, _⟩
  · exact absurd (by simpa [DiffTable.Distributive, simplecasTable] using hx) h1
  · exact absurd hx h2
  · exact absurd hx h3
  · by_cases hnil : simplecasTable.nonzero ds = []
    · left
      intro a ha
      rw [derivesAll_forall₂] at hds
      obtain ⟨i, hi, hai⟩ := List.mem_iff_getElem.1 ha
      have hlen := hds.length_eq
      have := (List.forall₂_iff_get.1 hds).2 i hi (by omega)
      rw [List.get_eq_getElem, List.get_eq_getElem, hai] at this
      obtain hz : ds[i]'(by omega) = zero := by
        refine Decidable.byContradiction fun hne => ?_
        have hm : (ds[i]'(by omega), i) ∈ simplecasTable.nonzero ds :=
          List.mem_filter.2 ⟨List.mem_zipIdx_iff_getElem?.2 (by rw [List.getElem?_eq_getElem]),
            decide_eq_true hne⟩
        rw [hnil] at hm
        cases hm
      rw [hz] at this
      exact this
    · right
      obtain ⟨q, qs, hqs⟩ := List.exists_cons_of_ne_nil hnil
      rw [hqs] at hts
      cases hts with
      | cons ht _ =>
        obtain ⟨g, _, _, hg⟩ := chainTerm_simplecas ht
        rcases hg with ⟨rfl, a, rfl, _⟩ | ⟨rfl, a, rfl, _⟩ | ⟨rfl, a, b, rfl, _⟩
        · exact .inl ⟨rfl, a, rfl⟩
        · exact .inr (.inl ⟨rfl, a, rfl⟩)
        · exact .inr (.inr ⟨rfl, a, b, rfl⟩)

/-- If the partial derivatives and those of the replacements exist, so does the derivative of the
result. -/
theorem ok_subst {y : Expr} (σ : Expr → Option Expr) (e : Expr)
    (hσ : ∀ k, σ k ≠ none → k.children = [] ∧
      ∀ h args, ArgSub e (.node (h :: args)) → ¬ OccursIn k h)
    (hk : ∀ k, σ k ≠ none → Ok k e) (hy : Ok y e) (hg : ∀ k g, σ k = some g → Ok y g) :
    Ok y (subst σ e) := by
  induction e using Tree.induction with
  | h e ih =>
    by_cases hl : e.children = []
    · have hs : subst σ e = (σ e).getD e := by
        cases e with
        | atom a => rw [subst]
        | node cs => cases hl; rw [subst, substList]
      rw [hs]
      cases h : σ e with
      | none => exact hy
      | some g => exact hg e g h
    · obtain ⟨h, args, rfl⟩ := node_of_not_leaf hl
      have hn : σ (.node (h :: args)) = none := by
        refine Classical.byContradiction fun hne => ?_
        exact absurd (hσ _ hne).1 (by simp [Tree.children])
      have hh : subst σ h = h := subst_absent σ h fun t ht => by
        refine Classical.byContradiction fun hne => ?_
        exact (hσ t hne).2 h args (Reach.refl (by simp)) ht
      have harg : ∀ {x}, Ok x (.node (h :: args)) → ∀ t ∈ args, Ok x t := by
        rintro x ⟨d, hd⟩ t ht
        obtain ⟨ds, hds, _⟩ := derives_node.1 hd
        exact derivesAll_arg hds ht
      have hσa : ∀ t ∈ args, ∀ k, σ k ≠ none → k.children = [] ∧
          ∀ h args, ArgSub t (.node (h :: args)) → ¬ OccursIn k h := fun t ht k hk' =>
        ⟨(hσ k hk').1, fun h' args' hs => (hσ k hk').2 h' args'
          (Reach.down (by simp) (by simpa [kids, Tree.children] using ht) hs)⟩
      have hok : ∀ t ∈ args, Ok y (subst σ t) := fun t ht =>
        ih t (List.mem_cons_of_mem _ ht) (hσa t ht) (fun k hk' => harg (hk k hk') t ht) (harg hy t ht)
      have hokm : ∀ t ∈ args.map (subst σ), Ok y t := by
        intro t ht
        obtain ⟨u, hu, rfl⟩ := List.mem_map.1 ht
        exact hok u hu
      have hsub : subst σ (.node (h :: args)) = .node (h :: args.map (subst σ)) := by
        rw [subst_none_node hn, List.map_cons, hh]
      rw [hsub]
      by_cases h1 : h = listH
      · subst h1
        obtain ⟨ds, hds⟩ := ok_all hokm
        exact ⟨_, .distributive (by simp [DiffTable.Distributive, simplecasTable]) hds⟩
      by_cases h2 : h = addH
      · subst h2; exact ok_add hokm
      by_cases h3 : h = mulH
      · subst h3; exact ok_mul hokm
      by_cases hshape : (h = sinH ∧ ∃ a, args = [a]) ∨ (h = cosH ∧ ∃ a, args = [a]) ∨
          (h = powH ∧ ∃ a b, args = [a, b])
      · rcases hshape with ⟨rfl, a, rfl⟩ | ⟨rfl, a, rfl⟩ | ⟨rfl, a, b, rfl⟩
        · exact ok_unary h1 h2 h3 rule_sin (by decide) (hok a (by simp))
        · exact ok_unary h1 h2 h3 rule_cos (by decide) (hok a (by simp))
        · obtain ⟨d, hd⟩ := hy
          have hb : subst σ b = b := subst_constant σ b (hσa b (by simp)) fun k hk' => by
            obtain ⟨d, hd⟩ := hk k hk'
            exact exponent_constant hd
          refine ok_pow (hok a (by simp)) ?_
          rw [hb]
          exact exponent_constant hd
      · have hall : ∀ k, σ k ≠ none → ∀ a ∈ args, Derives simplecasTable k a zero := by
          intro k hk'
          obtain ⟨d, hd⟩ := hk k hk'
          exact (chain_args h1 h2 h3 hd).resolve_right hshape
        have hsame : args.map (subst σ) = args := by
          conv_rhs => rw [← List.map_id args]
          exact List.map_congr_left fun t ht => subst_constant σ t (hσa t ht) fun k hk' =>
            hall k hk' t ht
        rw [hsame]
        exact hy

end Verif.Mixed
