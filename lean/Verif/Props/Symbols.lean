import Verif.Spec.Symbols
import Verif.Props.Arith
import Verif.Props.Subs
import Verif.Props.CompiledNth
import Verif.Lemmas.F64

/-!
# C78: where the atoms of a result come from
-/

set_option linter.unusedSectionVars false

namespace Verif.Props
open Spec Expr

theorem hasAtom_iff {heads : Bool} {e : Expr} {a : Atom Val} :
    HasAtom heads e a ↔ Reach heads (fun _ => False) e (.atom a) := by
  cases heads <;> exact Iff.rfl

theorem hasAtom_atom {heads : Bool} {a b : Atom Val} : HasAtom heads (.atom b) a ↔ b = a := by
  rw [hasAtom_iff]
  constructor
  · intro h
    cases h with
    | refl => rfl
    | down _ hc _ => cases hc
  · rintro rfl; exact .refl (fun h => h)

theorem hasAtom_node {heads : Bool} {a : Atom Val} {h : Expr} {args : List Expr} :
    HasAtom heads (.node (h :: args)) a ↔
      (heads = true ∧ HasAtom heads h a) ∨ ∃ c ∈ args, HasAtom heads c a := by
  simp only [hasAtom_iff]
  constructor
  · intro hr
    cases hr with
    | down _ hc hr =>
      cases heads with
      | true =>
        rcases List.mem_cons.1 hc with rfl | hc
        · exact Or.inl ⟨rfl, hr⟩
        · exact Or.inr ⟨_, hc, hr⟩
      | false => exact Or.inr ⟨_, hc, hr⟩
  · rintro (⟨rfl, hr⟩ | ⟨c, hc, hr⟩)
    · exact .down (fun h => h) List.mem_cons_self hr
    · refine .down (fun h => h) ?_ hr
      cases heads
      · exact hc
      · exact List.mem_cons_of_mem _ hc

theorem not_hasAtom_nil {heads : Bool} {a : Atom Val} : ¬ HasAtom heads (.node []) a := by
  rw [hasAtom_iff]
  intro h
  cases h with
  | down _ hc _ => cases hc

/-- What a substitution leaves and brings. -/
theorem hasAtom_subst {heads : Bool} (σ : Expr → Option Expr) (a : Atom Val) (e : Expr)
    (h : HasAtom heads (subst σ e) a) :
    (σ (.atom a) = none ∧ HasAtom heads e a) ∨ ∃ t u, σ t = some u ∧ HasAtom heads u a := by
  induction e using Tree.induction with
  | h e ih =>
    cases hs : σ e with
    | some u =>
      rw [subst_some hs] at h
      exact Or.inr ⟨e, u, hs, h⟩
    | none =>
      cases e with
      | atom b =>
        rw [subst_none_atom hs] at h
        obtain rfl := hasAtom_atom.1 h
        exact Or.inl ⟨hs, h⟩
      | node cs =>
        rw [subst_none_node hs] at h
        cases cs with
        | nil => exact absurd h not_hasAtom_nil
        | cons f args =>
          rw [List.map_cons, hasAtom_node] at h
          rcases h with ⟨hh, h⟩ | ⟨c, hc, h⟩
          · rcases ih f List.mem_cons_self h with ⟨h1, h2⟩ | h2
            · exact Or.inl ⟨h1, hasAtom_node.2 (Or.inl ⟨hh, h2⟩)⟩
            · exact Or.inr h2
          · obtain ⟨c, hc', rfl⟩ := List.mem_map.1 hc
            rcases ih c (List.mem_cons_of_mem _ hc') h with ⟨h1, h2⟩ | h2
            · exact Or.inl ⟨h1, hasAtom_node.2 (Or.inr ⟨c, hc', h2⟩)⟩
            · exact Or.inr h2

theorem derives_atoms {T : DiffTable} {x : Expr} {heads : Bool} {a : Atom Val} (e d : Expr)
    (hd : Derives T x e d) (h : HasAtom heads d a) : HasAtom heads e a ∨ T.Brings heads a := by
  induction e using Tree.induction generalizing d with
  | h e ih =>
  by_cases hl : e.children = []
  · rcases (derives_leaf hl).1 hd with ⟨_, rfl⟩ | ⟨_, rfl⟩
    · exact Or.inr (.one h)
    · exact Or.inr (.zero h)
  · obtain ⟨f, args, rfl⟩ : ∃ h args, e = .node (h :: args) := by
      cases e with
      | atom b => exact absurd rfl hl
      | node cs =>
        cases cs with
        | nil => exact absurd rfl hl
        | cons h args => exact ⟨h, args, rfl⟩
    obtain ⟨ds, hds, hcase⟩ := derives_node.1 hd
    have harg : ∀ c ∈ args, HasAtom heads c a → HasAtom heads (.node (f :: args)) a := fun c hc h =>
      hasAtom_node.2 (Or.inr ⟨c, hc, h⟩)
    have hRd : ∀ d ∈ ds, HasAtom heads d a → HasAtom heads (.node (f :: args)) a ∨ T.Brings heads a := by
      intro d hd h
      obtain ⟨i, hi, hdi⟩ := List.mem_iff_getElem.1 hd
      have hf := derivesAll_forall₂.1 hds
      have hlen := hf.length_eq
      have := (List.forall₂_iff_get.1 hf).2 i (by omega) hi
      rw [List.get_eq_getElem, List.get_eq_getElem, hdi] at this
      have hm : args[i]'(by omega) ∈ args := List.getElem_mem _
      exact (ih _ (List.mem_cons_of_mem _ hm) _ this h).imp_left (harg _ hm)
    have hRq : ∀ q ∈ T.nonzero ds, HasAtom heads q.1 a →
        HasAtom heads (.node (f :: args)) a ∨ T.Brings heads a := fun q hq =>
      hRd _ (List.fst_mem_of_mem_zipIdx (List.mem_filter.1 hq).1)
    have htotal : ∀ ts, (∀ t ∈ ts, HasAtom heads t a → HasAtom heads (.node (f :: args)) a ∨ T.Brings heads a) →
        HasAtom heads (T.total ts) a → HasAtom heads (.node (f :: args)) a ∨ T.Brings heads a := by
      intro ts hts h
      match ts, hts, h with
      | [], _, h => exact Or.inr (.zero h)
      | [t], hts, h => exact hts t List.mem_cons_self h
      | b :: c :: ts, hts, h =>
        rcases hasAtom_node.1 h with ⟨hh, h⟩ | ⟨t, ht, h⟩
        · exact Or.inr (.add hh h)
        · exact hts t ht h
    rcases hcase with ⟨hdist, rfl⟩ | ⟨_, rfl, rfl⟩ | ⟨_, _, rfl, rfl⟩ | ⟨_, hadd, hmul, ts, hts, rfl⟩
    · rcases hasAtom_node.1 h with ⟨hh, h⟩ | ⟨t, ht, h⟩
      · exact Or.inl (hasAtom_node.2 (Or.inl ⟨hh, h⟩))
      · exact hRd t ht h
    · refine htotal _ ?_ h
      intro t ht
      obtain ⟨q, hq, rfl⟩ := List.mem_map.1 ht
      exact hRq q hq
    · refine htotal _ ?_ h
      intro t ht h
      obtain ⟨q, hq, rfl⟩ := List.mem_map.1 ht
      rcases hasAtom_node.1 h with ⟨hh, h⟩ | ⟨u, hu, h⟩
      · exact Or.inr (.mul hh h)
      · rcases List.mem_or_eq_of_mem_set hu with hu | rfl
        · exact Or.inl (harg u hu h)
        · exact hRq q hq h
    · refine htotal _ ?_ h
      intro t ht h
      obtain ⟨i, hi, hti⟩ := List.mem_iff_getElem.1 ht
      have hlen := hts.length_eq
      have hct := (List.forall₂_iff_get.1 hts).2 i (by omega) hi
      rw [List.get_eq_getElem, List.get_eq_getElem, hti] at hct
      have hq := hRq _ (List.getElem_mem (l := T.nonzero ds) (n := i) (by omega))
      have hinst : ∀ {i params rhs r}, T.IsRule f i params rhs → Instance params rhs args r →
          HasAtom heads r a → HasAtom heads (.node (f :: args)) a ∨ T.Brings heads a := by
        intro i params rhs r hrule hr h
        cases hr with
        | replaced _ hlen =>
          rcases hasAtom_subst _ _ _ h with ⟨h1, h2⟩ | ⟨t, u, h1, h2⟩
          · exact Or.inr (.rule hrule ((pairing_isSome hlen.symm _).1 h1) h2)
          · exact Or.inl (harg u (List.of_mem_zip (Verif.lastAssoc_mem h1)).2 h2)
        | last _ _ hl => exact Or.inl (harg _ (List.mem_of_getLast? hl) h)
      cases hct with
      | one h1 h2 _ => exact hinst h1 h2 h
      | times h1 h2 _ =>
        rcases hasAtom_node.1 h with ⟨hh, h⟩ | ⟨u, hu, h'⟩
        · exact Or.inr (.mul hh h)
        · rcases List.mem_pair.1 hu with rfl | rfl
          · exact hinst h1 h2 h'
          · exact hq h'

/-- **C78, derivatives.** Whatever a program told the differentiator: an atom that occurs in `e.diff(x, n)`,
occurs in `e`, or in the constants and rules of the differentiator; likewise for the atoms in argument
position. -/
theorem C78_diff (T : DiffTable) (p : DiffProps Val) (hm : Made T p) (e x d : Expr) (n : Nat)
    (hd : e.diff x (n : Int) p = .ok d) (heads : Bool) (a : Atom Val) (h : HasAtom heads d a) :
    HasAtom heads e a ∨ T.Brings heads a := by
  induction n generalizing d with
  | zero =>
    rw [(C25_repeated p e x).2.1 _ (by simp)] at hd
    cases hd
    exact Or.inl h
  | succ n ih =>
    push_cast at hd
    rw [(C25_repeated p e x).2.2.2 n (by omega)] at hd
    cases hc : e.diff x (n : Int) p with
    | error err => rw [hc] at hd; cases hd
    | ok c =>
      rw [hc] at hd
      rcases derives_atoms c d ((C52_diff_exact T p hm c x d).1 hd) h with h | h
      · exact ih c hc h
      · exact Or.inr h

theorem simplecas_brings {heads : Bool} {a : Atom Val} (h : simplecasTable.Brings heads a) :
    .atom a ∈ [zero, one, negone] ∨ (heads = true ∧ .atom a ∈ [addH, mulH, powH, sinH, cosH]) := by
  cases h with
  | zero h => rw [show simplecasTable.zero = integer 0 from rfl, integer, hasAtom_atom] at h; subst h; left; decide
  | one h => rw [show simplecasTable.one = integer 1 from rfl, integer, hasAtom_atom] at h; subst h; left; decide
  | add hh h =>
    rw [show simplecasTable.add = function "Add" from rfl, function, hasAtom_atom] at h
    subst h; right; exact ⟨hh, by decide⟩
  | mul hh h =>
    rw [show simplecasTable.mul = function "Mul" from rfl, function, hasAtom_atom] at h
    subst h; right; exact ⟨hh, by decide⟩
  | @rule f i params rhs hr hp h =>
    obtain ⟨later, sym, earlier, ht, -, -⟩ := hr
    have hmem : DiffCommand.rule (.node (f :: params)) sym rhs ∈ simplecasTable.told := by
      rw [ht]; exact List.mem_append_right _ List.mem_cons_self
    simp only [simplecasTable, List.mem_cons, List.not_mem_nil, or_false, reduceCtorEq, false_or,
      DiffCommand.rule.injEq] at hmem
    rcases hmem with ⟨h1, -, rfl⟩ | ⟨h1, -, rfl⟩ | ⟨h1, -, rfl⟩
    all_goals
      simp only [pow, sin, cos, Tree.call, Tree.node.injEq, List.cons.injEq] at h1
      obtain ⟨-, rfl⟩ := h1
      simp only [mul, pow, sin, cos, add, Tree.call, hasAtom_node, List.mem_cons, List.not_mem_nil,
        or_false, exists_eq_or_imp, exists_eq_left, addH, mulH, powH, sinH, cosH, function, wild, negone,
        integer, hasAtom_atom] at h hp ⊢
      simp only [zero, one, integer, Tree.atom.injEq] at *
      grind

/-- **C78, derivatives in simplecas.** Every atom of `e.diff(x, n)` is an atom of `e`, one of the integers
`0`, `1`, `-1`, or one of the functions `Add`, `Mul`, `pow`, `sin`, `cos`; in argument position, every atom of
`e.diff(x, n)` is one of `e` in argument position or one of these integers.  In particular every symbol that
occurs in the derivative occurs in `e`, also in argument position. -/
theorem C78_simplecas (e x d : Expr) (n : Nat) (hd : e.diff x (n : Int) = .ok d) :
    (∀ a, OccursIn (.atom a) d →
      OccursIn (.atom a) e ∨ .atom a ∈ [zero, one, negone, addH, mulH, powH, sinH, cosH]) ∧
    (∀ a, ArgSub d (.atom a) → ArgSub e (.atom a) ∨ .atom a ∈ [zero, one, negone]) ∧
    (∀ s, OccursIn (symbol s) d → OccursIn (symbol s) e) ∧
    (∀ s, ArgSub d (symbol s) → ArgSub e (symbol s)) := by
  have h1 : ∀ a, OccursIn (.atom a) d →
      OccursIn (.atom a) e ∨ .atom a ∈ [zero, one, negone, addH, mulH, powH, sinH, cosH] := by
    intro a ha
    rcases C78_diff _ _ C52_builtin e x d n hd true a ha with h | h
    · exact Or.inl h
    · right
      rcases simplecas_brings h with h | ⟨_, h⟩
      · simp only [List.mem_cons, List.not_mem_nil, or_false] at h ⊢; tauto
      · simp only [List.mem_cons, List.not_mem_nil, or_false] at h ⊢; tauto
  have h2 : ∀ a, ArgSub d (.atom a) → ArgSub e (.atom a) ∨ .atom a ∈ [zero, one, negone] := by
    intro a ha
    rcases C78_diff _ _ C52_builtin e x d n hd false a ha with h | h
    · exact Or.inl h
    · right
      rcases simplecas_brings h with h | ⟨h, _⟩
      · exact h
      · cases h
  refine ⟨h1, h2, fun s hs => (h1 _ hs).resolve_right ?_, fun s hs => (h2 _ hs).resolve_right ?_⟩ <;>
  simp [zero, one, negone, integer, addH, mulH, powH, sinH, cosH, function, Ty.symbol, Ty.integer, Ty.function]

/-- `sin(x*y).diff(x)` is `cos(x*y)*(1*y)`, which has the symbols `x` and `y`. -/
example : (sin (mul x y)).diff x ((1 : Nat) : Int) = .ok (mul (cos (mul x y)) (mul one y)) ∧
    ArgSub (mul (cos (mul x y)) (mul one y)) (symbol "x") ∧ ArgSub (sin (mul x y)) (symbol "x") := by
  refine ⟨by decide +kernel, ?_, ?_⟩
  · exact .down (fun h => h) List.mem_cons_self (.down (fun h => h) List.mem_cons_self
      (.down (fun h => h) List.mem_cons_self (.refl fun h => h)))
  · exact .down (fun h => h) List.mem_cons_self (.down (fun h => h) List.mem_cons_self (.refl fun h => h))

/-! ### bin_expand -/

theorem hasAtom_leftNest {heads : Bool} {h u : Expr} {us : List Expr} {a : Atom Val} :
    HasAtom heads (leftNest h u us) a ↔
      HasAtom heads u a ∨ (∃ c ∈ us, HasAtom heads c a) ∨ (us ≠ [] ∧ heads = true ∧ HasAtom heads h a) := by
  induction us generalizing u with
  | nil => simp [leftNest]
  | cons b bs ih =>
    rw [leftNest, ih, hasAtom_node]
    simp only [List.mem_cons, List.not_mem_nil, or_false, exists_eq_or_imp, exists_eq_left, ne_eq,
      reduceCtorEq, not_false_eq_true, true_and]
    by_cases hb : bs = []
    · subst hb; simp only [not_true_eq_false, false_and, or_false, List.not_mem_nil, exists_false]; grind
    · grind

/-- **C78, bin_expand** keeps every atom, and brings none; an `Add` or `Mul` of one argument is dropped with
its head. -/
theorem C78_bin_expand (e u : Expr) (h : binExpand e = .ok u) (heads : Bool) (a : Atom Val) :
    (HasAtom heads u a → HasAtom heads e a) ∧
    (¬ IsAssocHead (.atom a) → HasAtom heads e a → HasAtom heads u a) := by
  have h' := (C20_bin_expand_nests e u).1 h
  clear h
  refine BinExpands.rec
    (motive_1 := fun e u _ => (HasAtom heads u a → HasAtom heads e a) ∧
      (¬ IsAssocHead (.atom a) → HasAtom heads e a → HasAtom heads u a))
    (motive_2 := fun es us _ => ((∃ c ∈ us, HasAtom heads c a) → ∃ c ∈ es, HasAtom heads c a) ∧
      (¬ IsAssocHead (.atom a) → (∃ c ∈ es, HasAtom heads c a) → ∃ c ∈ us, HasAtom heads c a))
    ?_ ?_ ?_ ?_ ?_ h'
  · exact ⟨fun h => h, fun _ h => h⟩
  · intro f args args' _ _ ih
    simp only [hasAtom_node]
    exact ⟨Or.imp_right ih.1, fun ha => Or.imp_right (ih.2 ha)⟩
  · intro f args b bs hf _ ih
    simp only [hasAtom_node, hasAtom_leftNest]
    simp only [List.mem_cons, exists_eq_or_imp] at ih
    refine ⟨?_, ?_⟩
    · rintro (h | h | ⟨_, h⟩)
      · exact Or.inr (ih.1 (Or.inl h))
      · exact Or.inr (ih.1 (Or.inr h))
      · exact Or.inl h
    · rintro ha (⟨_, h⟩ | h)
      · exfalso
        apply ha
        rcases hf with rfl | rfl
        · obtain rfl := hasAtom_atom.1 h; exact Or.inl rfl
        · obtain rfl := hasAtom_atom.1 h; exact Or.inr rfl
      · rcases ih.2 ha h with h | h
        · exact Or.inl h
        · exact Or.inr (Or.inl h)
  · exact ⟨fun h => h, fun _ h => h⟩
  · intro t ts u us _ _ ih1 ih2
    simp only [List.mem_cons, exists_eq_or_imp]
    exact ⟨Or.imp ih1.1 ih2.1, fun ha => Or.imp (ih1.2 ha) (ih2.2 ha)⟩

/-- `Add(x, y, 2).bin_expand()`, and `Add(x).bin_expand()`, which loses the head. -/
example : binExpand (addH.call [x, y, integer 2]) = .ok (add (add x y) (integer 2)) ∧
    binExpand (addH.call [x]) = .ok x ∧ ¬ IsAssocHead (symbol "y") := by
  refine ⟨by decide +kernel, by decide +kernel, ?_⟩
  rintro (h | h) <;> exact absurd h (by decide)

/-! ### xreplace -/

theorem hasAtom_subst_atoms (σ : Expr → Option Expr) (hσ : ∀ t u, σ t = some u → ∃ b, t = .atom b)
    (a : Atom Val) (e : Expr) :
    OccursIn (.atom a) (subst σ e) ↔
      (OccursIn (.atom a) e ∧ σ (.atom a) = none) ∨
      ∃ t u, OccursIn t e ∧ σ t = some u ∧ OccursIn (.atom a) u := by
  constructor
  · intro h
    rcases occurs_subst σ a e h with ⟨h1, h2⟩ | ⟨t, u, h1, h2, h3⟩
    · exact Or.inl ⟨h2, h1⟩
    · exact Or.inr ⟨t, u, h2, h1, h3⟩
  · intro h
    induction e using Tree.induction with
    | h e ih =>
    cases e with
    | atom b =>
      rcases h with ⟨h1, h2⟩ | ⟨t, u, h1, h2, h3⟩
      · have := occursIn_atom.1 h1
        cases this
        rw [subst_none_atom h2]; exact occursIn_self _
      · obtain rfl := occursIn_atom.1 h1
        rw [subst_some h2]; exact h3
    | node cs =>
      have hs : σ (.node cs) = none := by
        cases hs : σ (.node cs) with
        | none => rfl
        | some u => obtain ⟨b, hb⟩ := hσ _ _ hs; cases hb
      rw [subst_none_node hs]
      have hstep : ∀ t, OccursIn t (.node cs) → (∃ b, t = .atom b) → ∃ c ∈ cs, OccursIn t c := by
        rintro t ht ⟨b, rfl⟩
        cases ht with
        | down _ hc hr =>
          rw [kids_true_eq] at hc
          exact ⟨_, hc, hr⟩
      rcases h with ⟨h1, h2⟩ | ⟨t, u, h1, h2, h3⟩
      · obtain ⟨c, hc, h1⟩ := hstep _ h1 ⟨a, rfl⟩
        exact occursIn_child (c := subst σ c) (List.mem_map_of_mem hc) (ih c hc (Or.inl ⟨h1, h2⟩))
      · obtain ⟨c, hc, h1⟩ := hstep _ h1 (hσ _ _ h2)
        exact occursIn_child (c := subst σ c) (List.mem_map_of_mem hc) (ih c hc (Or.inr ⟨t, u, h1, h2, h3⟩))

/-- **C78, xreplace.** When atoms are replaced (with the proviso of C13): an atom occurs in
`e.xreplace(reps)` exactly if it occurs in `e` and is not replaced, or occurs in what replaces an atom that
occurs in `e`. -/
theorem C78_xreplace (e : Expr) (reps : Dict PyObj PyObj) (hg : GoodReps reps)
    (he : repsMap reps e = none ∨ reps.items.length = 1)
    (hatoms : ∀ k u, repsMap reps k = some u → ∃ b, k = .atom b) :
    ∃ r, xreplace e reps = .ok r ∧ ∀ a, OccursIn (.atom a) r ↔
      (OccursIn (.atom a) e ∧ repsMap reps (.atom a) = none) ∨
      ∃ k u, OccursIn k e ∧ repsMap reps k = some u ∧ OccursIn (.atom a) u := by
  exact ⟨_, C13_xreplace_subst_partial e reps hg he, fun a => hasAtom_subst_atoms _ hatoms a e⟩

/-! ### eval_f64 -/

theorem argSub_self (e : Expr) : ArgSub e e := by exact Reach.refl (fun h => h)

theorem nothingMissing_node {F : Type} [HasNone F] {known : Dict Expr F} {h : Expr} {args : List Expr} :
    NothingMissing known (.node (h :: args)) ↔
      h ∈ [addH, mulH, powH, sinH, cosH] ∧ ∀ c ∈ args, NothingMissing known c := by
  constructor
  · rintro ⟨h1, h2⟩
    exact ⟨h2 h args (argSub_self _), fun c hc => ⟨fun a ha => h1 a (.down (fun h => h) hc ha),
      fun f as ha => h2 f as (.down (fun h => h) hc ha)⟩⟩
  · rintro ⟨h1, h2⟩
    refine ⟨fun a ha => ?_, fun f as ha => ?_⟩
    · cases ha with
      | down _ hc hr => exact (h2 _ hc).1 a hr
    · cases ha with
      | refl _ => exact h1
      | down _ hc hr => exact (h2 _ hc).2 f as hr

theorem nothingMissing_atom {F : Type} [HasNone F] {known : Dict Expr F} {a : Atom Val} :
    NothingMissing known (.atom a) ↔ (a.atomType = Ty.integer ∨
      ∃ v, known.get? (.atom a) = some v ∧ HasNone.isNone v = false) := by
  constructor
  · intro h; exact h.1 a (argSub_self _)
  · intro h
    refine ⟨fun b hb => ?_, fun f as ha => ?_⟩
    · cases hb with
      | refl _ => exact h
      | down _ hc _ => cases hc
    · cases ha with
      | down _ hc _ => cases hc

theorem nothingMissing_diff {F : Type} [HasNone F] {known : Dict Expr F} (e x d : Expr)
    (hd : e.diff x = .ok d) (h : NothingMissing known e) : NothingMissing known d := by
  have hint : ∀ n : Int, NothingMissing known (integer n) := fun n => nothingMissing_atom.2 (Or.inl rfl)
  refine derives_closed (NothingMissing known) (NothingMissing known) (hint 0) (hint 1)
    (fun ts _ hts => nothingMissing_node.2 ⟨by simp, hts⟩) (fun ts _ hts => nothingMissing_node.2 ⟨by simp, hts⟩)
    (fun f args hq => ?_) (fun _ h => h) (fun a hq => ?_) (fun a hq => ?_) (fun a b hq => ?_) e d
    ((C52_diff_exact _ _ C52_builtin e x d).1 hd) h
  · refine ⟨?_, (nothingMissing_node.1 hq).2⟩
    rintro rfl
    exact absurd (nothingMissing_node.1 hq).1 (by decide)
  · have := (nothingMissing_node.1 hq).2
    exact nothingMissing_node.2 ⟨by simp, this⟩
  · have := (nothingMissing_node.1 hq).2
    refine nothingMissing_node.2 ⟨by simp, ?_⟩
    intro c hc
    rcases List.mem_pair.1 hc with rfl | rfl
    · exact hint (-1)
    · exact nothingMissing_node.2 ⟨by simp, this⟩
  · have := (nothingMissing_node.1 hq).2
    have ha := this a (by simp)
    have hb := this b (by simp)
    refine nothingMissing_node.2 ⟨by simp, ?_⟩
    intro c hc
    rcases List.mem_pair.1 hc with rfl | rfl
    · exact hb
    · refine nothingMissing_node.2 ⟨by simp, ?_⟩
      intro c hc
      rcases List.mem_pair.1 hc with rfl | rfl
      · exact ha
      · refine nothingMissing_node.2 ⟨by simp, ?_⟩
        intro c hc
        rcases List.mem_pair.1 hc with rfl | rfl
        · exact hb
        · exact hint (-1)

theorem nothingMissing_of_ok {F : Type} [HasNone F] (A : FloatOps F) (values : Dict Expr F) (e : Expr) (v : F)
    (h : evalTree (meaning (evalF64 A) values.get?) e = .ok v) : NothingMissing values e := by
  refine ⟨fun a ha => ?_, fun f args ha => ?_⟩
  · obtain ⟨w, hw⟩ := evalTree_ok_sub _ ha ⟨v, h⟩
    rw [evalTree_leaf _ (by rfl)] at hw
    by_cases hi : a.atomType = Ty.integer
    · exact Or.inl hi
    right
    have hrule : meaning.rule (evalF64 A) (.atom a) = .error .noEvaluationRule := by
      simp [meaning.rule, evalF64_eq, Dict.get?, Dict.lookup, Ne.symm hi]
    simp only [meaning] at hw
    cases hv : values.get? (.atom a) with
    | none => rw [hv] at hw; simp only [hrule] at hw; cases hw
    | some w' =>
      rw [hv] at hw
      refine ⟨w', rfl, ?_⟩
      cases hn : HasNone.isNone w' with
      | false => rfl
      | true => simp only [hn, if_true, hrule] at hw; cases hw
  · obtain ⟨w, hw⟩ := evalTree_ok_sub _ ha ⟨v, h⟩
    obtain ⟨vs, _, hop⟩ := f64_node_ok hw
    by_contra hne
    simp only [List.mem_cons, List.not_mem_nil, or_false, not_or] at hne
    obtain ⟨h1, h2, h3, h4, h5⟩ := hne
    simp only [f64Op, h1, h2, h3, h4, h5, if_false] at hop
    cases hop

/-- **C78, nothing missing.** If nothing is missing for the evaluation of `e` with some values, then nothing
is missing for the evaluation of `e.diff(x, n)` with the same values. -/
theorem C78_nothing_missing {F : Type} [HasNone F] (values : Dict Expr F) (e x d : Expr) (n : Nat)
    (hd : e.diff x (n : Int) = .ok d) (h : NothingMissing values e) : NothingMissing values d := by
  induction n generalizing d with
  | zero =>
    rw [diff_zero] at hd
    cases hd
    exact h
  | succ n ih =>
    rw [diff_succ] at hd
    cases hc : e.diff x (n : Int) with
    | error err => rw [hc] at hd; cases hd
    | ok c =>
      rw [hc] at hd
      exact nothingMissing_diff c x d hd (ih c hc)

/-- **C78, eval_f64.** In every arithmetic: if `e.eval_f64(values)` gives a number, then `NoEvaluationRule`
is not what `e.diff(x, n).eval_f64(values)` raises: no value and no rule is missing. -/
theorem C78_eval_f64 {F : Type} [HasNone F] (A : FloatOps F) (hA : OwnErrors A) (values : Dict Expr F)
    (hv : values.keys.Nodup) (e x d : Expr) (n : Nat) (hd : e.diff x (n : Int) = .ok d) (v : F)
    (he : e.evalF64 A (some values) = .ok v) :
    d.evalF64 A (some values) ≠ .error .noEvaluationRule := by
  have hm := C78_nothing_missing values e x d n hd
    (nothingMissing_of_ok A values e v ((evalF64_ok_iff A e values hv v).1 he))
  intro herr
  have hget : (Dict.ofPairs values.items).get? = values.get? := by
    funext k; exact Dict.get?_ofPairs_items values hv k
  obtain ⟨t, ht, hcase⟩ := evalForward_error (evalF64 A) d (Dict.ofPairs values.items) _ herr
  rw [hget] at hcase
  rcases hcase with ⟨hl, h⟩ | ⟨hl, vs, _, h⟩
  · cases t with
    | node cs =>
      have : meaning.rule (evalF64 A) (.node cs) = .error .attributeError := rfl
      simp only [meaning] at h
      revert h
      cases hc : values.get? (.node cs) with
      | none => simp only [this]; intro h; cases h
      | some w =>
        dsimp only
        split
        · rw [this]; intro h; cases h
        · intro h; cases h
    | atom a =>
      have hint : a.atomType = Ty.integer →
          meaning.rule (evalF64 A) (.atom a) ≠ .error .noEvaluationRule := by
        intro hi
        have : meaning.rule (evalF64 A) (.atom a) = A.fromVal a.value := by
          simp [meaning.rule, evalF64_eq, Dict.get?, Dict.lookup, hi]
        rw [this]
        cases a.value with
        | int n => exact hA.1 n
        | str s => intro h; cases h
      simp only [meaning] at h
      rcases hm.1 a ht with hi | ⟨w, hw, hn⟩
      · revert h
        cases hc : values.get? (.atom a) with
        | none => exact hint hi
        | some w =>
          dsimp only
          split
          · exact hint hi
          · intro h; cases h
      · rw [hw] at h
        simp only [hn] at h
        cases h
  · cases t with
    | atom a => cases hl
    | node cs =>
      cases cs with
      | nil => cases hl
      | cons f args =>
        have hf := hm.2 f args ht
        rw [f64_op] at h
        replace h : f64Op A f vs = .error .noEvaluationRule := h
        obtain ⟨_, a1, a2, a3, a4, a5⟩ := hA
        have h2 : arity2 A.pow vs ≠ .error .noEvaluationRule := by
          unfold arity2
          split
          · exact a3 _ _
          · intro h; cases h
        have h1 : ∀ g : F → PyM F, (∀ v, g v ≠ .error .noEvaluationRule) →
            arity1 g vs ≠ .error .noEvaluationRule := by
          intro g hg
          unfold arity1
          split
          · exact hg _
          · intro h; cases h
        simp only [List.mem_cons, List.not_mem_nil, or_false] at hf
        unfold f64Op at h
        split_ifs at h with g1 g2 g3 g4 g5
        · exact a1 _ h
        · exact a2 _ h
        · exact h2 h
        · exact h1 _ a4 h
        · exact h1 _ a5 h
        · tauto

/-- An arithmetic, an expression that it evaluates, and its derivative. -/
example : OwnErrors (⟨.ok, fun vs => .ok vs.sum, fun vs => .ok vs.prod, fun a b => .ok (a ^ b.toNat),
      fun a => .ok a, fun a => .ok a⟩ : FloatOps Int) ∧
    (sin (mul x y)).diff x ((1 : Nat) : Int) = .ok (mul (cos (mul x y)) (mul one y)) ∧
    ∃ _ : HasNone Int, (sin (mul x y)).evalF64 (⟨.ok, fun vs => .ok vs.sum, fun vs => .ok vs.prod,
      fun a b => .ok (a ^ b.toNat), fun a => .ok a, fun a => .ok a⟩ : FloatOps Int)
      (some ⟨[(x, 2), (y, 3)]⟩) = .ok 6 := by
  refine ⟨⟨?_, ?_, ?_, ?_, ?_, ?_⟩, by decide +kernel, ⟨fun _ => false⟩, by decide +kernel⟩ <;>
  intros <;> exact fun h => by cases h

/-- The replacement of `x` by `sin(y)`: the hypotheses of C78_xreplace. -/
example : GoodReps ⟨[(.expr x, .expr (sin y))]⟩ ∧
    (⟨[(.expr x, .expr (sin y))]⟩ : Dict PyObj PyObj).items.length = 1 ∧
    ∀ k u, repsMap ⟨[(.expr x, .expr (sin y))]⟩ k = some u → ∃ b, k = .atom b := by
  refine ⟨?_, rfl, ?_⟩
  · intro p hp
    obtain rfl : p = (.expr x, .expr (sin y)) := by simpa using hp
    exact ⟨x, sin y, rfl, rfl⟩
  · intro k u h
    have : x = k := by
      by_contra hk
      simp [repsMap, lastAssoc, expressify, hk] at h
    exact ⟨_, this.symm⟩

end Verif.Props
