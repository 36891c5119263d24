import Mathlib.Algebra.DualNumber
import Mathlib.Analysis.SpecialFunctions.Pow.Deriv
import Verif.Props.DiffSubs
import Verif.Props.Float
import Verif.Spec.Real

/-!
# Differentiation as evaluation in dual numbers

Not protosym code: the algebra behind C58.  A ring with functions `pow`, `sin`, `cos` is extended
to its dual numbers; the `ε`-part of the value of `e` is the value of `e.diff(x)`.
-/

namespace Verif.Mixed
open Spec Expr Verif.Props

/-- Functions on a ring. -/
structure Fns (K : Type) where
  pow : K → K → K
  sin : K → K
  cos : K → K

set_option linter.unusedSectionVars false

variable {K : Type} [CommRing K]

/-- The value of a compound expression. -/
noncomputable def op (o : Fns K) (h : Expr) (vs : List K) : K :=
  if h = addH then vs.sum
  else if h = mulH then vs.prod
  else if h = powH then (match vs with | [a, b] => o.pow a b | _ => 0)
  else if h = sinH then (match vs with | [a] => o.sin a | _ => 0)
  else if h = cosH then (match vs with | [a] => o.cos a | _ => 0)
  else 0

mutual
/-- The value of an expression. -/
noncomputable def ev (o : Fns K) (ρ : Expr → K) : Expr → K
  | .atom a => ρ (.atom a)
  | .node [] => ρ (.node [])
  | .node (h :: args) => op o h (evs o ρ args)
/-- Pointwise. -/
noncomputable def evs (o : Fns K) (ρ : Expr → K) : List Expr → List K
  | [] => []
  | e :: es => ev o ρ e :: evs o ρ es
end

theorem evs_eq (o : Fns K) (ρ : Expr → K) (l : List Expr) : evs o ρ l = l.map (ev o ρ) := by
  induction l with
  | nil => simp [evs]
  | cons e l ih => simp [evs, ih]

theorem ev_leaf (o : Fns K) (ρ : Expr → K) {t : Expr} (h : t.children = []) : ev o ρ t = ρ t := by
  cases t with
  | atom a => rw [ev]
  | node cs => cases h; rw [ev]

theorem ev_node (o : Fns K) (ρ : Expr → K) (h : Expr) (args : List Expr) :
    ev o ρ (.node (h :: args)) = op o h (args.map (ev o ρ)) := by
  rw [ev, evs_eq]

theorem ev_add (o : Fns K) (ρ : Expr → K) (args : List Expr) :
    ev o ρ (.node (addH :: args)) = (args.map (ev o ρ)).sum := by
  rw [ev_node]; unfold op; rw [if_pos rfl]

theorem ev_mul (o : Fns K) (ρ : Expr → K) (args : List Expr) :
    ev o ρ (.node (mulH :: args)) = (args.map (ev o ρ)).prod := by
  rw [ev_node]; unfold op; rw [if_neg (by decide), if_pos rfl]

theorem ev_pow (o : Fns K) (ρ : Expr → K) (a b : Expr) :
    ev o ρ (.node [powH, a, b]) = o.pow (ev o ρ a) (ev o ρ b) := by
  rw [ev_node]; unfold op; rw [if_neg (by decide), if_neg (by decide), if_pos rfl]; rfl

theorem ev_sin (o : Fns K) (ρ : Expr → K) (a : Expr) :
    ev o ρ (.node [sinH, a]) = o.sin (ev o ρ a) := by
  rw [ev_node]; unfold op; rw [if_neg (by decide), if_neg (by decide), if_neg (by decide), if_pos rfl]; rfl

theorem ev_cos (o : Fns K) (ρ : Expr → K) (a : Expr) :
    ev o ρ (.node [cosH, a]) = o.cos (ev o ρ a) := by
  rw [ev_node]; unfold op; rw [if_neg (by decide), if_neg (by decide), if_neg (by decide), if_neg (by decide),
    if_pos rfl]; rfl

theorem ev_total (o : Fns K) (ρ : Expr → K) (h0 : ρ zero = 0) (ts : List Expr) :
    ev o ρ (simplecasTable.total ts) = (ts.map (ev o ρ)).sum := by
  match ts with
  | [] => exact (ev_leaf o ρ rfl).trans h0
  | [t] => simp [DiffTable.total]
  | a :: b :: ts => exact ev_add o ρ (a :: b :: ts)

/-- A dual number. -/
def dn (a b : K) : DualNumber K := (a, b)

theorem fst_mk (a b : K) : (dn a b).fst = a := rfl
theorem snd_mk (a b : K) : (dn a b).snd = b := rfl

/-- The functions on the dual numbers. -/
noncomputable def lift (o : Fns K) : Fns (DualNumber K) where
  pow a b := dn (o.pow a.fst b.fst) (b.fst * o.pow a.fst (b.fst - 1) * a.snd)
  sin a := dn (o.sin a.fst) (o.cos a.fst * a.snd)
  cos a := dn (o.cos a.fst) (-(o.sin a.fst * a.snd))

open Classical in
/-- `x` varies. -/
noncomputable def vary (ρ : Expr → K) (x : Expr) : Expr → DualNumber K :=
  fun t => dn (ρ t) (if t = x then 1 else 0)

/-- The first part is the value. -/
theorem ev_fst (o : Fns K) (ρ : Expr → K) (x e : Expr) :
    (ev (lift o) (vary ρ x) e).fst = ev o ρ e := by
  induction e using Tree.induction with
  | h e ih =>
    by_cases hl : e.children = []
    · rw [ev_leaf _ _ hl, ev_leaf _ _ hl]; rfl
    · obtain ⟨h, args, rfl⟩ : ∃ h args, e = .node (h :: args) := by
        cases e with
        | atom b => exact absurd rfl hl
        | node cs =>
          cases cs with
          | nil => exact absurd rfl hl
          | cons h args => exact ⟨h, args, rfl⟩
      have hmap : (args.map (ev (lift o) (vary ρ x))).map TrivSqZeroExt.fst = args.map (ev o ρ) := by
        rw [List.map_map]
        exact List.map_congr_left fun t ht => ih t (List.mem_cons_of_mem _ ht)
      rw [ev_node, ev_node, ← hmap]
      generalize args.map (ev (lift o) (vary ρ x)) = vs
      unfold op
      split
      · exact map_list_sum (TrivSqZeroExt.fstHom K K K) vs
      split
      · exact TrivSqZeroExt.fst_list_prod vs
      split
      · match vs with
        | [] => rfl
        | [a] => rfl
        | [a, b] => rfl
        | a :: b :: c :: vs => rfl
      split
      · match vs with
        | [] => rfl
        | [a] => rfl
        | a :: b :: vs => rfl
      split
      · match vs with
        | [] => rfl
        | [a] => rfl
        | a :: b :: vs => rfl
      · rfl

theorem sum_filter_ring {α : Type} (l : List α) (q : α → Bool) (f : α → K)
    (h : ∀ a ∈ l, q a = false → f a = 0) : ((l.filter q).map f).sum = (l.map f).sum := by
  induction l with
  | nil => rfl
  | cons a l ih =>
    have ih := ih (fun b hb => h b (by simp [hb]))
    cases hq : q a with
    | true => simp [hq, ih]
    | false => simp [hq, ih, h a (by simp) hq]

/-- The product rule. -/
theorem snd_prod (L : List (DualNumber K)) (pre : List K) :
    (((L.map TrivSqZeroExt.snd).zipIdx pre.length).map fun q =>
      ((pre ++ L.map TrivSqZeroExt.fst).set q.2 q.1).prod).sum = pre.prod * L.prod.snd := by
  induction L generalizing pre with
  | nil => simp
  | cons a L ih =>
    have ih := ih (pre ++ [a.fst])
    simp only [List.map_cons, List.zipIdx_cons, List.sum_cons, List.prod_cons,
      List.append_assoc, List.cons_append, List.nil_append, List.length_append, List.length_cons,
      List.length_nil, zero_add, List.prod_append, List.prod_nil, mul_one] at ih ⊢
    rw [ih]
    have hset : (pre ++ a.fst :: L.map TrivSqZeroExt.fst).set pre.length a.snd =
        pre ++ a.snd :: L.map TrivSqZeroExt.fst := by
      rw [List.set_append_right _ _ (Nat.le_refl _)]; simp
    rw [hset, TrivSqZeroExt.snd_mul, List.prod_append, List.prod_cons,
      ← TrivSqZeroExt.fst_list_prod]
    simp only [smul_eq_mul, MulOpposite.smul_eq_mul_unop, MulOpposite.unop_op]
    ring

theorem isRule_simplecas {h : Expr} {i : Nat} {params : List Expr} {rhs : Expr}
    (hr : simplecasTable.IsRule h i params rhs) :
    (h = sinH ∧ i = 0 ∧ params = [wild "a"] ∧ rhs = cos (wild "a")) ∨
    (h = cosH ∧ i = 0 ∧ params = [wild "a"] ∧ rhs = mul negone (sin (wild "a"))) ∨
    (h = powH ∧ i = 0 ∧ params = [wild "a", wild "b"] ∧
      rhs = mul (wild "b") (pow (wild "a") (add (wild "b") negone))) := by
  obtain ⟨later, sym, earlier, h1, h2, _⟩ := hr
  have hm : .rule (.node (h :: params)) sym rhs ∈ simplecasTable.told := by rw [h1]; simp
  simp only [simplecasTable, List.mem_cons, List.not_mem_nil, or_false, reduceCtorEq, false_or,
    DiffCommand.rule.injEq] at hm
  rcases hm with ⟨hp, rfl, rfl⟩ | ⟨hp, rfl, rfl⟩ | ⟨hp, rfl, rfl⟩
  all_goals obtain ⟨rfl, rfl⟩ := List.cons.inj (Tree.node.inj hp)
  · right; right
    refine ⟨rfl, ?_, rfl, rfl⟩
    match i, h2 with
    | 0, _ => rfl
    | 1, h2 => exact absurd h2 (by decide)
    | _ + 2, h2 => cases h2
  · right; left
    refine ⟨rfl, ?_, rfl, rfl⟩
    match i, h2 with
    | 0, _ => rfl
    | _ + 1, h2 => cases h2
  · left
    refine ⟨rfl, ?_, rfl, rfl⟩
    match i, h2 with
    | 0, _ => rfl
    | _ + 1, h2 => cases h2

/-- The terms of the chain rule, spelled out. -/
theorem chainTerm_simplecas {h : Expr} {args : List Expr} {q : Expr × Nat} {t : Expr}
    (ht : ChainTerm simplecasTable h args q t) :
    ∃ g, t = (if q.1 = one then g else .node [mulH, g, q.1]) ∧ q.2 = 0 ∧
    ((h = sinH ∧ ∃ a, args = [a] ∧ g = cos a) ∨
     (h = cosH ∧ ∃ a, args = [a] ∧ g = mul negone (sin a)) ∨
     (h = powH ∧ ∃ a b, args = [a, b] ∧ g = mul b (pow a (add b negone)))) := by
  have key : ∀ {params rhs r}, simplecasTable.IsRule h q.2 params rhs →
      Instance params rhs args r → q.2 = 0 ∧
      ((h = sinH ∧ ∃ a, args = [a] ∧ r = cos a) ∨
       (h = cosH ∧ ∃ a, args = [a] ∧ r = mul negone (sin a)) ∨
       (h = powH ∧ ∃ a b, args = [a, b] ∧ r = mul b (pow a (add b negone)))) := by
    intro params rhs r hr hi
    rcases isRule_simplecas hr with ⟨rfl, hq, rfl, rfl⟩ | ⟨rfl, hq, rfl, rfl⟩ | ⟨rfl, hq, rfl, rfl⟩
    · refine ⟨hq, .inl ⟨rfl, ?_⟩⟩
      cases hi with
      | last hm _ _ => exact absurd hm (by decide)
      | replaced _ hl =>
        match args, hl with
        | [a], _ => exact ⟨a, rfl, rfl⟩
    · refine ⟨hq, .inr (.inl ⟨rfl, ?_⟩)⟩
      cases hi with
      | last hm _ _ => exact absurd hm (by decide)
      | replaced _ hl =>
        match args, hl with
        | [a], _ => exact ⟨a, rfl, rfl⟩
    · refine ⟨hq, .inr (.inr ⟨rfl, ?_⟩)⟩
      cases hi with
      | last hm _ _ => exact absurd hm (by decide)
      | replaced _ hl =>
        match args, hl with
        | [a, b], _ => exact ⟨a, b, rfl, rfl⟩
  cases ht with
  | one hr hi h1 =>
    obtain ⟨hq, hc⟩ := key hr hi
    exact ⟨_, (if_pos h1).symm, hq, hc⟩
  | times hr hi h1 =>
    obtain ⟨hq, hc⟩ := key hr hi
    exact ⟨_, (if_neg h1).symm, hq, hc⟩

/-- Integers are integers. -/
def Ints (ρ : Expr → K) : Prop := ∀ n : Int, ρ (integer n) = (n : K)

theorem Ints.zero {ρ : Expr → K} (h : Ints ρ) : ρ zero = 0 := by
  have := h 0; rw [Int.cast_zero] at this; exact this

theorem Ints.one {ρ : Expr → K} (h : Ints ρ) : ρ one = 1 := by
  have := h 1; rw [Int.cast_one] at this; exact this

theorem Ints.negone {ρ : Expr → K} (h : Ints ρ) : ρ negone = -1 := by
  have := h (-1); rw [Int.cast_neg, Int.cast_one] at this; exact this

theorem Ints.vary {ρ : Expr → K} (h : Ints ρ) {x : Expr} (hx : ∀ n, x ≠ integer n) :
    Ints (vary ρ x) := by
  intro n
  refine TrivSqZeroExt.ext ?_ ?_
  · exact (h n).trans (TrivSqZeroExt.fst_intCast n).symm
  · refine Eq.trans ?_ (TrivSqZeroExt.snd_intCast n).symm
    exact if_neg fun he => hx n he.symm

theorem nonzero_one {d : Expr} {q : Expr × Nat} {qs : List (Expr × Nat)}
    (h : simplecasTable.nonzero [d] = q :: qs) : q = (d, 0) ∧ qs = [] := by
  unfold DiffTable.nonzero at h
  rw [List.zipIdx_cons, List.zipIdx_nil, List.filter_cons] at h
  split at h
  · cases h; exact ⟨rfl, rfl⟩
  · cases h

theorem nonzero_two {d d' : Expr} {q : Expr × Nat} {qs : List (Expr × Nat)}
    (h : simplecasTable.nonzero [d, d'] = q :: qs)
    (h0 : ∀ q ∈ simplecasTable.nonzero [d, d'], q.2 = 0) : q = (d, 0) ∧ qs = [] ∧ d' = zero := by
  have hd' : d' = zero := by
    refine Decidable.byContradiction fun hne => ?_
    have := h0 (d', 1) (List.mem_filter.2 ⟨by simp, decide_eq_true hne⟩)
    cases this
  subst hd'
  unfold DiffTable.nonzero at h
  rw [List.zipIdx_cons, List.zipIdx_cons, List.zipIdx_nil, List.filter_cons] at h
  split at h
  · cases h; exact ⟨rfl, rfl, rfl⟩
  · cases h

theorem derivesAll_arg {T : DiffTable} {x : Expr} {args ds : List Expr}
    (h : DerivesAll T x args ds) {t : Expr} (ht : t ∈ args) : ∃ d, Derives T x t d := by
  obtain ⟨i, hi, hti⟩ := List.mem_iff_getElem.1 ht
  have hf := derivesAll_forall₂.1 h
  have hlen := hf.length_eq
  have := (List.forall₂_iff_get.1 hf).2 i hi (by omega)
  rw [List.get_eq_getElem, hti] at this
  exact ⟨_, this⟩

/-- There is no rule for the exponent. -/
theorem exponent_constant {x a b d : Expr}
    (hd : Derives simplecasTable x (.node [powH, a, b]) d) : Derives simplecasTable x b zero := by
  obtain ⟨ds, hds, hcase⟩ := derives_node.1 hd
  rcases hcase with ⟨h1, _⟩ | ⟨_, h1, _⟩ | ⟨_, _, h1, _⟩ | ⟨_, _, _, ts, hts, _⟩
  · have h1 : powH = listH := by simpa [DiffTable.Distributive, simplecasTable] using h1
    exact absurd h1 (by decide)
  · exact absurd h1 (by decide)
  · exact absurd h1 (by decide)
  · cases hds with
    | cons ha h =>
      cases h with
      | cons hb h =>
        cases h
        rename_i da db
        obtain rfl : db = zero := by
          refine Decidable.byContradiction fun hne => ?_
          have hq : (db, 1) ∈ simplecasTable.nonzero [da, db] :=
            List.mem_filter.2 ⟨by simp, decide_eq_true hne⟩
          obtain ⟨i, hi, hqi⟩ := List.mem_iff_getElem.1 hq
          have hlen := hts.length_eq
          have ht := (List.forall₂_iff_get.1 hts).2 i hi (by omega)
          rw [List.get_eq_getElem, hqi] at ht
          exact absurd (chainTerm_simplecas ht).choose_spec.2.1 (by simp)
        exact hb

/-- The derivative of a function is read off the second part. -/
theorem ev_snd (o : Fns K) (ρ : Expr → K) (hρ : Ints ρ) {x : Expr} (e : Expr) {d : Expr}
    (hd : Derives simplecasTable x e d) :
    (ev (lift o) (vary ρ x) e).snd = ev o ρ d := by
  have h0 : ev o ρ zero = 0 := (ev_leaf o ρ rfl).trans hρ.zero
  have h1 : ev o ρ one = 1 := (ev_leaf o ρ rfl).trans hρ.one
  have hn : ev o ρ negone = -1 := (ev_leaf o ρ rfl).trans hρ.negone
  induction e using Tree.induction generalizing d with
  | h e ih =>
    by_cases hl : e.children = []
    · rw [ev_leaf _ _ hl]
      rcases (derives_leaf hl).1 hd with ⟨rfl, rfl⟩ | ⟨hne, rfl⟩
      · exact (if_pos rfl).trans h1.symm
      · exact (if_neg hne).trans h0.symm
    · obtain ⟨h, args, rfl⟩ : ∃ h args, e = .node (h :: args) := by
        cases e with
        | atom b => exact absurd rfl hl
        | node cs =>
          cases cs with
          | nil => exact absurd rfl hl
          | cons h args => exact ⟨h, args, rfl⟩
      obtain ⟨ds, hds, hcase⟩ := derives_node.1 hd
      have hsnd : (args.map (ev (lift o) (vary ρ x))).map TrivSqZeroExt.snd = ds.map (ev o ρ) := by
        rw [derivesAll_forall₂] at hds
        have ih' : ∀ t ∈ args, ∀ d, Derives simplecasTable x t d →
          (ev (lift o) (vary ρ x) t).snd = ev o ρ d := fun t ht d hd =>
            ih t (List.mem_cons_of_mem _ ht) hd
        clear hcase hd hl ih
        induction hds with
        | nil => rfl
        | cons hd _ ihl =>
          simp only [List.map_cons]
          rw [ih' _ List.mem_cons_self _ hd, ihl fun t ht => ih' t (List.mem_cons_of_mem _ ht)]
      have hfst : (args.map (ev (lift o) (vary ρ x))).map TrivSqZeroExt.fst = args.map (ev o ρ) := by
        rw [List.map_map]
        exact List.map_congr_left fun t _ => ev_fst o ρ x t
      rcases hcase with ⟨hdist, rfl⟩ | ⟨_, rfl, rfl⟩ | ⟨_, _, rfl, rfl⟩ | ⟨_, hadd, hmul, ts, hts, rfl⟩
      · obtain rfl : h = listH := by
          simpa [DiffTable.Distributive, simplecasTable] using hdist
        rw [ev_node, ev_node]
        rfl
      · change (ev (lift o) (vary ρ x) (.node (addH :: args))).snd = _
        rw [ev_add, ev_total _ _ hρ.zero]
        have e1 := map_list_sum (TrivSqZeroExt.sndHom K K) (args.map (ev (lift o) (vary ρ x)))
        refine e1.trans ?_
        have e2 : List.map (⇑(TrivSqZeroExt.sndHom K K)) (args.map (ev (lift o) (vary ρ x))) =
          ds.map (ev o ρ) := hsnd
        rw [e2]
        unfold DiffTable.nonzero
        rw [List.map_map, sum_filter_ring]
        · rw [← List.map_map, List.zipIdx_map_fst]
        · rintro ⟨d, i⟩ _ hq
          have : d = zero := not_not.1 (of_decide_eq_false hq)
          simp [this, h0]
      · change (ev (lift o) (vary ρ x) (.node (mulH :: args))).snd = _
        rw [ev_mul, ev_total _ _ hρ.zero]
        have e1 := snd_prod (args.map (ev (lift o) (vary ρ x))) []
        simp only [List.nil_append, List.length_nil, List.prod_nil, one_mul, hsnd, hfst] at e1
        rw [← e1]
        unfold DiffTable.nonzero
        rw [List.map_map, sum_filter_ring]
        · rw [List.zipIdx_map, List.map_map]
          congr 1
          apply List.map_congr_left
          rintro ⟨d, i⟩ hq
          change ((args.map (ev o ρ)).set i (ev o ρ d)).prod = ev o ρ (.node (mulH :: args.set i d))
          rw [ev_mul, List.map_set]
        · rintro ⟨d, i⟩ hm hq
          have : d = zero := not_not.1 (of_decide_eq_false hq)
          subst this
          change ev o ρ (.node (mulH :: args.set i zero)) = 0
          rw [ev_mul]
          apply List.prod_eq_zero
          rw [List.map_set, h0]
          have hi : i < ds.length := by
            have := List.snd_lt_of_mem_zipIdx hm
            simpa using this
          have hlen := (derivesAll_forall₂.1 hds).length_eq
          apply List.mem_iff_getElem.2
          refine ⟨i, by simp; omega, by simp⟩
      · rw [ev_total _ _ hρ.zero]
        have hnonzero : ∀ q ∈ ds.zipIdx, q.1 ≠ zero → q ∈ simplecasTable.nonzero ds := by
          intro q hq hz
          exact List.mem_filter.2 ⟨hq, decide_eq_true hz⟩
        by_cases hnil : simplecasTable.nonzero ds = []
        · have hz : ∀ d ∈ ds, d = zero := by
            intro d hd
            obtain ⟨i, hi, hdi⟩ := List.mem_iff_getElem.1 hd
            refine Decidable.byContradiction fun hne => ?_
            have := hnonzero (d, i) (List.mem_zipIdx_iff_getElem?.2 (by
              rw [List.getElem?_eq_getElem hi, hdi])) hne
            rw [hnil] at this
            cases this
          rw [hnil] at hts
          cases hts
          have hvs : ∀ v ∈ args.map (ev (lift o) (vary ρ x)), v.snd = 0 := by
            intro v hv
            have : v.snd ∈ ds.map (ev o ρ) := hsnd ▸ List.mem_map_of_mem hv
            obtain ⟨d, hd, hdv⟩ := List.mem_map.1 this
            rw [← hdv, hz d hd, h0]
          rw [ev_node]
          generalize args.map (ev (lift o) (vary ρ x)) = vs at hvs
          unfold op
          rw [if_neg (show ¬ h = addH from hadd), if_neg (show ¬ h = mulH from hmul)]
          split
          · match vs, hvs with
            | [a, b], hvs =>
              change b.fst * o.pow a.fst (b.fst - 1) * a.snd = 0
              rw [hvs a (by simp), mul_zero]
            | [], _ => rfl
            | [a], _ => rfl
            | a :: b :: c :: vs, _ => rfl
          split
          · match vs, hvs with
            | [a], hvs =>
              change o.cos a.fst * a.snd = 0
              rw [hvs a (by simp), mul_zero]
            | [], _ => rfl
            | a :: b :: vs, _ => rfl
          split
          · match vs, hvs with
            | [a], hvs =>
              change -(o.sin a.fst * a.snd) = 0
              rw [hvs a (by simp), mul_zero, neg_zero]
            | [], _ => rfl
            | a :: b :: vs, _ => rfl
          · rfl
        · have hfac : ∀ g d, ev o ρ (if d = one then g else .node [mulH, g, d]) =
              ev o ρ g * ev o ρ d := by
            intro g d
            split
            · next h => rw [h, h1, mul_one]
            · rw [ev_mul]; simp
          have hq0 : ∀ q ∈ simplecasTable.nonzero ds, q.2 = 0 := by
            intro q hq
            obtain ⟨i, hi, hqi⟩ := List.mem_iff_getElem.1 hq
            have hlen := hts.length_eq
            have ht := (List.forall₂_iff_get.1 hts).2 i hi (by omega)
            rw [List.get_eq_getElem, hqi] at ht
            exact (chainTerm_simplecas ht).choose_spec.2.1
          obtain ⟨q, qs, hqs⟩ := List.exists_cons_of_ne_nil hnil
          have hq := hq0 q (hqs ▸ List.mem_cons_self)
          have hts' := hts
          rw [hqs] at hts'
          cases hts' with
          | cons ht hrest =>
            obtain ⟨g, rfl, _, hg⟩ := chainTerm_simplecas ht
            rcases hg with ⟨rfl, a, rfl, rfl⟩ | ⟨rfl, a, rfl, rfl⟩ | ⟨rfl, a, b, rfl, rfl⟩
            · obtain ⟨d, rfl⟩ : ∃ d, ds = [d] := by
                cases hds with | cons _ h => cases h; exact ⟨_, rfl⟩
              obtain ⟨rfl, rfl⟩ := nonzero_one hqs
              cases hrest
              have hs1 : (ev (lift o) (vary ρ x) a).snd = ev o ρ d := (List.cons.inj hsnd).1
              have hf1 : (ev (lift o) (vary ρ x) a).fst = ev o ρ a := (List.cons.inj hfst).1
              rw [ev_sin]
              change o.cos (ev (lift o) (vary ρ x) a).fst * (ev (lift o) (vary ρ x) a).snd = _
              rw [hs1, hf1, List.map_singleton, List.sum_singleton, hfac]
              change _ = ev o ρ (.node [cosH, a]) * _
              rw [ev_cos]
            · obtain ⟨d, rfl⟩ : ∃ d, ds = [d] := by
                cases hds with | cons _ h => cases h; exact ⟨_, rfl⟩
              obtain ⟨rfl, rfl⟩ := nonzero_one hqs
              cases hrest
              have hs1 : (ev (lift o) (vary ρ x) a).snd = ev o ρ d := (List.cons.inj hsnd).1
              have hf1 : (ev (lift o) (vary ρ x) a).fst = ev o ρ a := (List.cons.inj hfst).1
              rw [ev_cos]
              change -(o.sin (ev (lift o) (vary ρ x) a).fst * (ev (lift o) (vary ρ x) a).snd) = _
              rw [hs1, hf1, List.map_singleton, List.sum_singleton, hfac]
              change _ = ev o ρ (.node [mulH, negone, .node [sinH, a]]) * _
              rw [ev_mul, List.map_cons, List.map_singleton, hn, ev_sin]
              simp
            · obtain ⟨d, d', rfl⟩ : ∃ d d', ds = [d, d'] := by
                cases hds with | cons _ h => cases h with | cons _ h => cases h; exact ⟨_, _, rfl⟩
              obtain ⟨rfl, rfl, _⟩ := nonzero_two hqs hq0
              cases hrest
              have hs1 : (ev (lift o) (vary ρ x) a).snd = ev o ρ d := (List.cons.inj hsnd).1
              have hf1 : (ev (lift o) (vary ρ x) a).fst = ev o ρ a := (List.cons.inj hfst).1
              have hf2 : (ev (lift o) (vary ρ x) b).fst = ev o ρ b :=
                (List.cons.inj (List.cons.inj hfst).2).1
              rw [ev_pow]
              change (ev (lift o) (vary ρ x) b).fst * o.pow (ev (lift o) (vary ρ x) a).fst
                ((ev (lift o) (vary ρ x) b).fst - 1) * (ev (lift o) (vary ρ x) a).snd = _
              rw [hs1, hf1, hf2, List.map_singleton, List.sum_singleton, hfac]
              change _ = ev o ρ (.node [mulH, b, .node [powH, a, .node [addH, b, negone]]]) * _
              rw [ev_mul, List.map_cons, List.map_singleton, ev_pow, ev_add]
              simp [hn, sub_eq_add_neg]

/-! ### Two variables -/

/-- Exchange of the two infinitesimals. -/
def swap (z : DualNumber (DualNumber K)) : DualNumber (DualNumber K) :=
  dn (dn z.fst.fst z.snd.fst) (dn z.fst.snd z.snd.snd)

theorem dd_ext {z w : DualNumber (DualNumber K)} (h1 : z.fst.fst = w.fst.fst)
    (h2 : z.fst.snd = w.fst.snd) (h3 : z.snd.fst = w.snd.fst) (h4 : z.snd.snd = w.snd.snd) :
    z = w := by
  exact TrivSqZeroExt.ext (TrivSqZeroExt.ext h1 h2) (TrivSqZeroExt.ext h3 h4)

theorem swap_zero : swap (0 : DualNumber (DualNumber K)) = 0 := by
  exact dd_ext rfl rfl rfl rfl

theorem swap_one : swap (1 : DualNumber (DualNumber K)) = 1 := by
  exact dd_ext rfl rfl rfl rfl

theorem swap_add (z w : DualNumber (DualNumber K)) : swap (z + w) = swap z + swap w := by
  exact dd_ext rfl rfl rfl rfl

theorem swap_mul (z w : DualNumber (DualNumber K)) : swap (z * w) = swap z * swap w := by
  refine dd_ext ?_ ?_ ?_ ?_
  · simp [swap, fst_mk]
  · simp only [swap, fst_mk, snd_mk, TrivSqZeroExt.snd_mul, TrivSqZeroExt.fst_mul,
      TrivSqZeroExt.fst_add, smul_eq_mul, MulOpposite.smul_eq_mul_unop, MulOpposite.unop_op]
  · simp only [swap, fst_mk, snd_mk, TrivSqZeroExt.snd_mul, TrivSqZeroExt.fst_mul,
      TrivSqZeroExt.fst_add, smul_eq_mul, MulOpposite.smul_eq_mul_unop, MulOpposite.unop_op]
  · simp only [swap, fst_mk, snd_mk, TrivSqZeroExt.snd_mul, TrivSqZeroExt.fst_mul,
      TrivSqZeroExt.snd_add, smul_eq_mul, MulOpposite.smul_eq_mul_unop, MulOpposite.unop_op]
    ring

theorem swap_sum (l : List (DualNumber (DualNumber K))) : swap l.sum = (l.map swap).sum := by
  induction l with
  | nil => exact swap_zero
  | cons a l ih => rw [List.sum_cons, swap_add, ih]; rfl

theorem swap_prod (l : List (DualNumber (DualNumber K))) : swap l.prod = (l.map swap).prod := by
  induction l with
  | nil => exact swap_one
  | cons a l ih => rw [List.prod_cons, swap_mul, ih]; rfl

theorem swap_sin (o : Fns K) (z : DualNumber (DualNumber K)) :
    swap ((lift (lift o)).sin z) = (lift (lift o)).sin (swap z) := by
  refine dd_ext ?_ ?_ ?_ ?_
  · rfl
  · simp [swap, lift, fst_mk, snd_mk]
  · simp [swap, lift, fst_mk, snd_mk]
  · simp only [swap, lift, fst_mk, snd_mk, TrivSqZeroExt.snd_mul, smul_eq_mul,
      MulOpposite.smul_eq_mul_unop, MulOpposite.unop_op]
    ring

theorem swap_cos (o : Fns K) (z : DualNumber (DualNumber K)) :
    swap ((lift (lift o)).cos z) = (lift (lift o)).cos (swap z) := by
  refine dd_ext ?_ ?_ ?_ ?_
  · rfl
  · simp [swap, lift, fst_mk, snd_mk]
  · simp [swap, lift, fst_mk, snd_mk]
  · simp only [swap, lift, fst_mk, snd_mk, TrivSqZeroExt.snd_mul, TrivSqZeroExt.snd_neg, smul_eq_mul,
      MulOpposite.smul_eq_mul_unop, MulOpposite.unop_op]
    ring

/-- For an exponent that varies with neither. -/
theorem swap_pow (o : Fns K) (z w : DualNumber (DualNumber K)) (h1 : w.fst.snd = 0)
    (h2 : w.snd = 0) : swap ((lift (lift o)).pow z w) = (lift (lift o)).pow (swap z) (swap w) := by
  refine dd_ext ?_ ?_ ?_ ?_
  · rfl
  · simp [swap, lift, fst_mk, snd_mk]
  · simp [swap, lift, fst_mk, snd_mk]
  · simp only [swap, lift, fst_mk, snd_mk, TrivSqZeroExt.snd_mul, TrivSqZeroExt.fst_mul, smul_eq_mul,
      MulOpposite.smul_eq_mul_unop, MulOpposite.unop_op, TrivSqZeroExt.fst_sub,
      TrivSqZeroExt.fst_one, h1, h2, TrivSqZeroExt.fst_zero]
    ring

/-- If both derivatives exist, the variables can be exchanged. -/
theorem ev_swap (o : Fns K) (ρ : Expr → K) (hρ : Ints ρ) {x y : Expr} (hx : ∀ n, x ≠ integer n)
    (hy : ∀ n, y ≠ integer n) (e : Expr) {dx dy : Expr} (hdx : Derives simplecasTable x e dx)
    (hdy : Derives simplecasTable y e dy) :
    ev (lift (lift o)) (vary (vary ρ x) y) e =
      swap (ev (lift (lift o)) (vary (vary ρ y) x) e) := by
  induction e using Tree.induction generalizing dx dy with
  | h e ih =>
    by_cases hl : e.children = []
    · rw [ev_leaf _ _ hl, ev_leaf _ _ hl]
      refine dd_ext rfl ?_ ?_ ?_
      · change (if e = x then (1 : K) else 0) =
          TrivSqZeroExt.fst (if e = x then (1 : DualNumber K) else 0)
        split <;> rfl
      · change TrivSqZeroExt.fst (if e = y then (1 : DualNumber K) else 0) = if e = y then 1 else 0
        split <;> rfl
      · change TrivSqZeroExt.snd (if e = y then (1 : DualNumber K) else 0) =
          TrivSqZeroExt.snd (if e = x then (1 : DualNumber K) else 0)
        split <;> split <;> rfl
    · obtain ⟨h, args, rfl⟩ : ∃ h args, e = .node (h :: args) := by
        cases e with
        | atom b => exact absurd rfl hl
        | node cs =>
          cases cs with
          | nil => exact absurd rfl hl
          | cons h args => exact ⟨h, args, rfl⟩
      obtain ⟨dxs, hdxs, hcx⟩ := derives_node.1 hdx
      obtain ⟨dys, hdys, hcy⟩ := derives_node.1 hdy
      have hmap : args.map (ev (lift (lift o)) (vary (vary ρ x) y)) =
          (args.map (ev (lift (lift o)) (vary (vary ρ y) x))).map swap := by
        rw [List.map_map]
        apply List.map_congr_left
        intro t ht
        obtain ⟨d, hd⟩ := derivesAll_arg hdxs ht
        obtain ⟨d', hd'⟩ := derivesAll_arg hdys ht
        exact ih t (List.mem_cons_of_mem _ ht) hd hd'
      rw [ev_node, ev_node, hmap]
      by_cases hp : ∃ a b, h = powH ∧ args = [a, b]
      · obtain ⟨a, b, rfl, rfl⟩ := hp
        have hbx := exponent_constant hdx
        have hby := exponent_constant hdy
        have e1 : (ev (lift (lift o)) (vary (vary ρ y) x) b).snd = 0 := by
          rw [ev_snd _ _ (hρ.vary hy) b hbx]
          exact (ev_leaf _ _ rfl).trans (hρ.vary hy).zero
        have e2 : (ev (lift (lift o)) (vary (vary ρ y) x) b).fst.snd = 0 := by
          rw [ev_fst, ev_snd _ _ hρ b hby]
          exact (ev_leaf _ _ rfl).trans hρ.zero
        exact (swap_pow o _ _ e2 e1).symm
      · have hp' : h = powH → ∀ a b, args.map (ev (lift (lift o)) (vary (vary ρ y) x)) ≠ [a, b] := by
          intro hh a b he
          apply hp
          match args, he with
          | [u, v], _ => exact ⟨u, v, hh, rfl⟩
        generalize args.map (ev (lift (lift o)) (vary (vary ρ y) x)) = vs at hp'
        unfold op
        split
        · exact (swap_sum vs).symm
        split
        · exact (swap_prod vs).symm
        split
        · next hh =>
          match vs, hp' hh with
          | [], _ => exact swap_zero.symm
          | [a], _ => exact swap_zero.symm
          | [a, b], hne => exact absurd rfl (hne a b)
          | a :: b :: c :: vs, _ => exact swap_zero.symm
        split
        · match vs with
          | [] => exact swap_zero.symm
          | [a] => exact (swap_sin o a).symm
          | a :: b :: vs => exact swap_zero.symm
        split
        · match vs with
          | [] => exact swap_zero.symm
          | [a] => exact (swap_cos o a).symm
          | a :: b :: vs => exact swap_zero.symm
        · exact swap_zero.symm

/-- The mixed derivatives agree. -/
theorem ev_mixed (o : Fns K) (ρ : Expr → K) (hρ : Ints ρ) {x y : Expr} (hx : ∀ n, x ≠ integer n)
    (hy : ∀ n, y ≠ integer n) {e dx dy dxy dyx : Expr} (hdx : Derives simplecasTable x e dx)
    (hdy : Derives simplecasTable y e dy) (hdxy : Derives simplecasTable y dx dxy)
    (hdyx : Derives simplecasTable x dy dyx) : ev o ρ dxy = ev o ρ dyx := by
  rw [← ev_snd o ρ hρ dx hdxy, ← ev_snd o ρ hρ dy hdyx, ← ev_snd _ _ (hρ.vary hy) e hdx,
    ← ev_snd _ _ (hρ.vary hx) e hdy, ev_swap o ρ hρ hx hy e hdx hdy]
  rfl

/-! ### Both derivatives exist -/

/-- The derivative with respect to `y` exists. -/
def Ok (y e : Expr) : Prop := ∃ d, Derives simplecasTable y e d

theorem ok_leaf {y t : Expr} (ht : t.children = []) : Ok y t := by
  by_cases h : t = y
  · exact ⟨_, (derives_leaf ht).2 (.inl ⟨h, rfl⟩)⟩
  · exact ⟨_, (derives_leaf ht).2 (.inr ⟨h, rfl⟩)⟩

theorem ok_all {y : Expr} {args : List Expr} (h : ∀ t ∈ args, Ok y t) :
    ∃ ds, DerivesAll simplecasTable y args ds := by
  induction args with
  | nil => exact ⟨[], .nil⟩
  | cons t ts ih =>
    obtain ⟨d, hd⟩ := h t List.mem_cons_self
    obtain ⟨ds, hds⟩ := ih fun t ht => h t (List.mem_cons_of_mem _ ht)
    exact ⟨d :: ds, .cons hd hds⟩

theorem ok_add {y : Expr} {args : List Expr} (h : ∀ t ∈ args, Ok y t) :
    Ok y (.node (addH :: args)) := by
  obtain ⟨ds, hds⟩ := ok_all h
  exact ⟨_, .sum (T := simplecasTable) (by simp [DiffTable.Distributive, simplecasTable]; decide)
    hds⟩

theorem ok_mul {y : Expr} {args : List Expr} (h : ∀ t ∈ args, Ok y t) :
    Ok y (.node (mulH :: args)) := by
  obtain ⟨ds, hds⟩ := ok_all h
  exact ⟨_, .product (T := simplecasTable) (by simp [DiffTable.Distributive, simplecasTable]; decide)
    (by decide) hds⟩

theorem ok_total {y : Expr} {ts : List Expr} (h : ∀ t ∈ ts, Ok y t) :
    Ok y (simplecasTable.total ts) := by
  match ts, h with
  | [], _ => exact ok_leaf rfl
  | [t], h => exact h t List.mem_cons_self
  | a :: b :: ts, h => exact ok_add h

theorem rule_sin : simplecasTable.IsRule sinH 0 [wild "a"] (cos (wild "a")) := by
  refine ⟨[.distributive listH,
     .rule (pow (wild "a") (wild "b")) (wild "a")
       (mul (wild "b") (pow (wild "a") (add (wild "b") negone))),
     .rule (cos (wild "a")) (wild "a") (mul negone (sin (wild "a")))], wild "a", [], rfl, rfl, ?_⟩
  intro ps s r hm
  simp only [List.mem_cons, List.not_mem_nil, or_false, reduceCtorEq, false_or,
    DiffCommand.rule.injEq] at hm
  rcases hm with ⟨hp, _⟩ | ⟨hp, _⟩ <;>
    exact absurd (List.cons.inj (Tree.node.inj hp)).1 (by decide)

theorem rule_cos : simplecasTable.IsRule cosH 0 [wild "a"] (mul negone (sin (wild "a"))) := by
  refine ⟨[.distributive listH,
     .rule (pow (wild "a") (wild "b")) (wild "a")
       (mul (wild "b") (pow (wild "a") (add (wild "b") negone)))], wild "a", _, rfl, rfl, ?_⟩
  intro ps s r hm
  simp only [List.mem_cons, List.not_mem_nil, or_false, reduceCtorEq, false_or,
    DiffCommand.rule.injEq] at hm
  exact absurd (List.cons.inj (Tree.node.inj hm.1)).1 (by decide)

theorem rule_pow : simplecasTable.IsRule powH 0 [wild "a", wild "b"]
    (mul (wild "b") (pow (wild "a") (add (wild "b") negone))) := by
  refine ⟨[.distributive listH], wild "a", _, rfl, rfl, ?_⟩
  intro ps s r hm
  simp at hm

theorem notDistributive {h : Expr} (hh : h ≠ listH) : ¬ simplecasTable.Distributive h := by
  simpa [DiffTable.Distributive, simplecasTable] using hh

theorem term_exists {h : Expr} {args params : List Expr} {rhs d : Expr}
    (hr : simplecasTable.IsRule h 0 params rhs) (hn : rhs ∉ params)
    (hl : args.length = params.length) : ∃ t, ChainTerm simplecasTable h args (d, 0) t := by
  by_cases hd : d = one
  · exact ⟨_, .one (q := (d, 0)) hr (.replaced hn hl) hd⟩
  · exact ⟨_, .times (q := (d, 0)) hr (.replaced hn hl) hd⟩

theorem nonzero_single (d : Expr) :
    simplecasTable.nonzero [d] = [] ∨ simplecasTable.nonzero [d] = [(d, 0)] := by
  unfold DiffTable.nonzero
  rw [List.zipIdx_cons, List.zipIdx_nil, List.filter_cons]
  split
  · exact .inr rfl
  · exact .inl rfl

theorem ok_unary {y h a : Expr} {rhs : Expr} (h1 : h ≠ listH) (h2 : h ≠ addH) (h3 : h ≠ mulH)
    (hr : simplecasTable.IsRule h 0 [wild "a"] rhs) (hn : rhs ∉ [wild "a"]) (ha : Ok y a) :
    Ok y (.node [h, a]) := by
  obtain ⟨d, hd⟩ := ha
  have hds : DerivesAll simplecasTable y [a] [d] := .cons hd .nil
  rcases nonzero_single d with hz | hz
  · exact ⟨_, .chain (notDistributive h1) h2 h3 hds (by rw [hz]; exact .nil)⟩
  · obtain ⟨t, ht⟩ := term_exists (args := [a]) (d := d) hr hn rfl
    exact ⟨_, .chain (notDistributive h1) h2 h3 hds (by rw [hz]; exact .cons ht .nil)⟩

theorem ok_pow {y a b : Expr} (ha : Ok y a) (hb : Derives simplecasTable y b zero) :
    Ok y (.node [powH, a, b]) := by
  obtain ⟨d, hd⟩ := ha
  have hds : DerivesAll simplecasTable y [a, b] [d, zero] := .cons hd (.cons hb .nil)
  have hnz : simplecasTable.nonzero [d, zero] = simplecasTable.nonzero [d] := by
    unfold DiffTable.nonzero
    have h1 : [d, zero].zipIdx = [d].zipIdx ++ [(zero, 1)] := rfl
    have h2 : [(zero, 1)].filter (fun q => decide (q.1 ≠ simplecasTable.zero)) = [] :=
      List.filter_eq_nil_iff.2 fun q hq => by
        obtain rfl := List.mem_singleton.1 hq
        exact fun h => of_decide_eq_true h rfl
    rw [h1, List.filter_append, h2, List.append_nil]
  rcases nonzero_single d with hz | hz
  · exact ⟨_, .chain (notDistributive (by decide)) (by decide) (by decide) hds
      (by rw [hnz, hz]; exact .nil)⟩
  · obtain ⟨t, ht⟩ := term_exists (args := [a, b]) (d := d) rule_pow (by decide) rfl
    exact ⟨_, .chain (notDistributive (by decide)) (by decide) (by decide) hds
      (by rw [hnz, hz]; exact .cons ht .nil)⟩

/-- If both derivatives exist, so do the mixed ones. -/
theorem ok_mixed {x y : Expr} (hy : ∀ n, y ≠ integer n) (e : Expr) {dx : Expr}
    (hdx : Derives simplecasTable x e dx) (hoy : Ok y e) : Ok y dx := by
  induction e using Tree.induction generalizing dx with
  | h e ih =>
    by_cases hl : e.children = []
    · rcases (derives_leaf hl).1 hdx with ⟨_, rfl⟩ | ⟨_, rfl⟩
      · exact ok_leaf rfl
      · exact ok_leaf rfl
    · obtain ⟨h, args, rfl⟩ : ∃ h args, e = .node (h :: args) := by
        cases e with
        | atom b => exact absurd rfl hl
        | node cs =>
          cases cs with
          | nil => exact absurd rfl hl
          | cons h args => exact ⟨h, args, rfl⟩
      obtain ⟨ds, hds, hcase⟩ := derives_node.1 hdx
      obtain ⟨dy, hdy⟩ := hoy
      obtain ⟨dys, hdys, _⟩ := derives_node.1 hdy
      have hargs : ∀ t ∈ args, Ok y t := fun t ht => derivesAll_arg hdys ht
      have hokd : ∀ d ∈ ds, Ok y d := by
        intro d hd
        obtain ⟨i, hi, hdi⟩ := List.mem_iff_getElem.1 hd
        have hf := derivesAll_forall₂.1 hds
        have hlen := hf.length_eq
        have := (List.forall₂_iff_get.1 hf).2 i (by omega) hi
        rw [List.get_eq_getElem, List.get_eq_getElem, hdi] at this
        have hm : args[i]'(by omega) ∈ args := List.getElem_mem _
        exact ih _ (List.mem_cons_of_mem _ hm) this (hargs _ hm)
      have hokq : ∀ q ∈ simplecasTable.nonzero ds, Ok y q.1 := fun q hq =>
        hokd _ (List.fst_mem_of_mem_zipIdx (List.mem_filter.1 hq).1)
      rcases hcase with ⟨hdist, rfl⟩ | ⟨_, rfl, rfl⟩ | ⟨_, _, rfl, rfl⟩ | ⟨_, hadd, hmul, ts, hts, rfl⟩
      · obtain ⟨dds, hdds⟩ := ok_all hokd
        exact ⟨_, .distributive hdist hdds⟩
      · apply ok_total
        intro t ht
        obtain ⟨q, hq, rfl⟩ := List.mem_map.1 ht
        exact hokq q hq
      · apply ok_total
        intro t ht
        obtain ⟨q, hq, rfl⟩ := List.mem_map.1 ht
        apply ok_mul
        intro u hu
        rcases List.mem_or_eq_of_mem_set hu with hu | rfl
        · exact hargs u hu
        · exact hokq q hq
      · apply ok_total
        intro t ht
        obtain ⟨i, hi, hti⟩ := List.mem_iff_getElem.1 ht
        have hlen := hts.length_eq
        have hct := (List.forall₂_iff_get.1 hts).2 i (by omega) hi
        rw [List.get_eq_getElem, List.get_eq_getElem, hti] at hct
        obtain ⟨g, hg1, _, hg⟩ := chainTerm_simplecas hct
        have hq := hokq _ (List.getElem_mem (l := simplecasTable.nonzero ds) (n := i) (by omega))
        have hokg : Ok y g := by
          rcases hg with ⟨rfl, a, rfl, rfl⟩ | ⟨rfl, a, rfl, rfl⟩ | ⟨rfl, a, b, rfl, rfl⟩
          · exact ok_unary (by decide) (by decide) (by decide) rule_cos (by decide)
              (hargs a (by simp))
          · apply ok_mul
            intro u hu
            rcases List.mem_pair.1 hu with rfl | rfl
            · exact ok_leaf rfl
            · exact ok_unary (by decide) (by decide) (by decide) rule_sin (by decide)
                (hargs a (by simp))
          · have hb := exponent_constant hdy
            apply ok_mul
            intro u hu
            rcases List.mem_pair.1 hu with rfl | rfl
            · exact hargs _ (by simp)
            · apply ok_pow (hargs a (by simp))
              have hds : DerivesAll simplecasTable y [b, negone] [zero, zero] :=
                .cons hb (.cons ((derives_leaf rfl).2 (.inr ⟨fun h => hy (-1) h.symm, rfl⟩)) .nil)
              exact .sum (T := simplecasTable) (notDistributive (by decide)) hds
        rw [hg1]
        split
        · exact hokg
        · apply ok_mul
          intro u hu
          rcases List.mem_pair.1 hu with rfl | rfl
          · exact hokg
          · exact hq

/-! ### Real values -/

/-- The functions on the reals. -/
noncomputable def realFns : Fns ℝ := ⟨fun a b => a ^ b, Real.sin, Real.cos⟩

/-- The integer of an atom. -/
def intOf : Expr → Int
  | .atom ⟨_, .int n⟩ => n
  | _ => 0

/-- The number given for a leaf. -/
noncomputable def given (values : Dict Expr ℝ) (t : Expr) : ℝ := (values.get? t).getD (intOf t)

theorem given_ints {values : Dict Expr ℝ} (h : SymbolValues values) : Ints (given values) := by
  intro n
  unfold given
  rw [h.noInteger]
  rfl

theorem ev_value {values : Dict Expr ℝ} (hv : SymbolValues values) (e : Expr) {v : ℝ}
    (h : F64Value realOps values.get? e v) : ev realFns (given values) e = v := by
  induction e using Tree.induction generalizing v with
  | h e ih =>
    have hvs : ∀ {args : List Expr} {vs}, (∀ t ∈ args, t ∈ e.children) →
        F64Values realOps values.get? args vs → args.map (ev realFns (given values)) = vs := by
      intro args
      induction args with
      | nil => intro vs _ h; cases h; rfl
      | cons t ts iht =>
        intro vs hm h
        cases h with
        | cons h1 h2 =>
          rw [List.map_cons, ih t (hm t List.mem_cons_self) h1,
            iht (fun t ht => hm t (List.mem_cons_of_mem _ ht)) h2]
    cases h with
    | given hl hg _ =>
      rw [ev_leaf _ _ hl]
      unfold Mixed.given
      rw [hg]; rfl
    | integer _n1 hn =>
      rename_i n
      rw [ev_leaf _ _ rfl, given_ints hv n]
      exact Except.ok.inj hn
    | sum h1 h2 =>
      rename_i args vs
      have := hvs (fun t ht => List.mem_cons_of_mem _ ht) h1
      refine (ev_add _ _ args).trans ?_
      rw [this]
      exact Except.ok.inj h2
    | product h1 h2 =>
      rename_i args vs
      have := hvs (fun t ht => List.mem_cons_of_mem _ ht) h1
      refine (ev_mul _ _ args).trans ?_
      rw [this]
      exact Except.ok.inj h2
    | power h1 h2 h3 =>
      rename_i b c vb vc
      refine (ev_pow _ _ b c).trans ?_
      rw [ih b (by simp [app, Tree.children]) h1, ih c (by simp [app, Tree.children]) h2]
      simp only [realOps] at h3
      split at h3
      · exact Except.ok.inj h3
      · cases h3
    | sine h1 h2 =>
      rename_i a va
      refine (ev_sin _ _ a).trans ?_
      rw [ih a (by simp [app, Tree.children]) h1]
      exact Except.ok.inj h2
    | cosine h1 h2 =>
      rename_i a va
      refine (ev_cos _ _ a).trans ?_
      rw [ih a (by simp [app, Tree.children]) h1]
      exact Except.ok.inj h2

end Verif.Mixed
