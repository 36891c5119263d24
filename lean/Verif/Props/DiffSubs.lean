import Verif.Props.DiffExact
import Verif.Spec.DiffSubs
import Verif.Props.Substitution
import Verif.Lemmas.Size

/-!
# C57: differentiation commutes with substitution for another symbol
-/

namespace Verif.Props
open Spec Expr

/-- Replace `y` by `c`. -/
def single (y c : Expr) : Expr → Option Expr := fun t => if t = y then some c else none

theorem xreplace_single (e y c : Expr) :
    xreplace e (Dict.ofPairs [(.expr y, .expr c)]) = .ok (subst (single y c) e) := by
  have hg : GoodReps (Dict.ofPairs [(.expr y, .expr c)]) := by
    intro p hp
    obtain rfl := List.mem_singleton.1 hp
    exact ⟨y, c, rfl, rfl⟩
  rw [C13_xreplace_subst_partial e _ hg (.inr rfl)]
  congr 2
  funext t
  simp only [repsMap, single]
  change lastAssoc t [(y, c)] = _
  simp [lastAssoc, eq_comm]

theorem subst_single_absent {y c : Expr} (e : Expr) (h : ¬ OccursIn y e) :
    subst (single y c) e = e := by
  induction e using Tree.induction with
  | h e ih =>
    have hne : e ≠ y := by
      rintro rfl
      exact h (occursIn_self e)
    have hσ : single y c e = none := by simp [single, hne]
    cases e with
    | atom a => exact subst_none_atom hσ
    | node cs =>
      rw [subst_none_node hσ]
      congr 1
      have : cs.map (subst (single y c)) = cs.map id :=
        List.map_congr_left fun t ht => ih t ht fun ho => h (occursIn_child ht ho)
      simpa using this

theorem subst_single_node {a : Atom Val} {c : Expr} (cs : List Expr) :
    subst (single (.atom a) c) (.node cs) = .node (cs.map (subst (single (.atom a) c))) := by
  apply subst_none_node
  simp [single]

/-- Substituting in an instance of a rule is substituting in the arguments. -/
theorem subst_instance {a : Atom Val} {c : Expr} {params args : List Expr} (rhs : Expr)
    (hl : args.length = params.length) (h : .atom a ∈ params ∨ ¬ OccursIn (.atom a) rhs) :
    subst (single (.atom a) c) (subst (pairing params args) rhs) =
      subst (pairing params (args.map (subst (single (.atom a) c)))) rhs := by
  have hl' : (args.map (subst (single (.atom a) c))).length = params.length := by simpa using hl
  have hmap : ∀ t, pairing params (args.map (subst (single (.atom a) c))) t =
      (pairing params args t).map (subst (single (.atom a) c)) := by
    intro t
    unfold pairing
    clear hl hl' h
    induction params generalizing args with
    | nil => rfl
    | cons q ps ih =>
      cases args with
      | nil => rfl
      | cons b bs =>
        simp only [List.map_cons, List.zip_cons_cons, lastAssoc, ih]
        cases lastAssoc t (ps.zip bs) with
        | some w => rfl
        | none =>
          simp only [Option.map_none]
          split <;> rfl
  induction rhs using Tree.induction with
  | h t ih =>
    cases hp : pairing params args t with
    | some v =>
      have hp' := hmap t
      rw [hp] at hp'
      rw [subst_some hp, subst_some hp']
    | none =>
      have hp' := hmap t
      rw [hp] at hp'
      cases t with
      | atom b =>
        rw [subst_none_atom hp, subst_none_atom hp']
        rcases h with h | h
        · apply subst_single_absent
          intro ho
          cases ho with
          | refl _ => exact (pairing_isSome hl.symm _).1 hp h
          | down _ hc _ => cases hc
        · exact subst_single_absent _ h
      | node cs =>
        rw [subst_none_node hp, subst_none_node hp', subst_single_node]
        congr 1
        rw [List.map_map]
        exact List.map_congr_left fun t ht => ih t ht (h.imp_right fun h ho => h (occursIn_child ht ho))

section
variable {T : DiffTable} {a : Atom Val} {c x : Expr}

theorem subst_eq_leaf {k : Expr} (hk : k.children = []) (hky : Verif.Tree.atom a ≠ k) {d : Expr}
    (hd : d = .atom a → c ≠ k) : subst (single (.atom a) c) d = k ↔ d = k := by
  have hkk : subst (single (.atom a) c) k = k := by
    apply subst_single_absent
    intro ho
    cases ho with
    | refl _ => exact hky rfl
    | down _ hc _ =>
      rw [kids_true_eq, hk] at hc
      cases hc
  constructor
  · intro h
    by_cases hda : d = .atom a
    · subst hda
      rw [subst_some (u := c) (by simp [single])] at h
      exact absurd h (hd rfl)
    · have hσ : single (.atom a) c d = none := by simp [single, hda]
      cases d with
      | atom b =>
        rw [subst_none_atom hσ] at h
        exact h
      | node cs =>
        rw [subst_none_node hσ] at h
        subst h
        cases cs with
        | nil => rfl
        | cons t ts => cases hk
  · rintro rfl
    exact hkk

theorem total_map (hadd : ¬ OccursIn (.atom a) T.add)
    (hz : T.zero.children = [] ∧ Verif.Tree.atom a ≠ T.zero) (ts : List Expr) :
    subst (single (.atom a) c) (T.total ts) = T.total (ts.map (subst (single (.atom a) c))) := by
  match ts with
  | [] =>
    apply subst_single_absent
    intro ho
    change OccursIn _ T.zero at ho
    cases h : T.zero with
    | atom b =>
      rw [h] at ho
      cases ho with
      | refl _ => exact hz.2 h.symm
      | down _ hc _ => cases hc
    | node cs =>
      have := hz.1
      rw [h] at this ho
      cases this
      cases ho with
      | down _ hc _ => cases hc
  | [t] => rfl
  | t :: t' :: ts =>
    change subst _ (.node (T.add :: t :: t' :: ts)) = _
    rw [subst_single_node, List.map_cons, subst_single_absent _ hadd]
    rfl

theorem nonzero_map {ds : List Expr}
    (h : ∀ d ∈ ds, subst (single (.atom a) c) d = T.zero ↔ d = T.zero) :
    T.nonzero (ds.map (subst (single (.atom a) c))) =
      (T.nonzero ds).map fun q => (subst (single (.atom a) c) q.1, q.2) := by
  unfold DiffTable.nonzero
  rw [List.zipIdx_map, List.filter_map]
  congr 1
  apply List.filter_congr
  rintro ⟨d, i⟩ hq
  have hd : d ∈ ds := List.fst_mem_of_mem_zipIdx hq
  simp [h d hd]

theorem instance_map {params args : List Expr} {rhs r' : Expr} 
    (h : .atom a ∈ params ∨ ¬ OccursIn (.atom a) rhs) :
    Instance params rhs (args.map (subst (single (.atom a) c))) r' ↔
      ∃ r, Instance params rhs args r ∧ r' = subst (single (.atom a) c) r := by
  constructor
  · intro hi
    cases hi with
    | replaced hm hl =>
      have hl' : args.length = params.length := by simpa using hl
      exact ⟨_, .replaced hm hl', (subst_instance rhs hl' h).symm⟩
    | last hm hl hd =>
      rw [List.getLast?_map, Option.map_eq_some_iff] at hd
      obtain ⟨r, hr, rfl⟩ := hd
      exact ⟨r, .last hm (by simpa using hl) hr, rfl⟩
  · rintro ⟨r, hi, rfl⟩
    cases hi with
    | replaced hm hl =>
      rw [subst_instance rhs hl h]
      exact .replaced hm (by simpa using hl)
    | last hm hl hd =>
      exact .last hm (by simpa using hl) (by rw [List.getLast?_map, hd]; rfl)

theorem chainTerm_map (hN : NotMentioned T (.atom a)) {h : Expr} {args : List Expr} {q : Expr × Nat}
    {t' : Expr} (hq : subst (single (.atom a) c) q.1 = T.one ↔ q.1 = T.one) :
    ChainTerm T h (args.map (subst (single (.atom a) c))) (subst (single (.atom a) c) q.1, q.2) t' ↔
      ∃ t, ChainTerm T h args q t ∧ t' = subst (single (.atom a) c) t := by
  have hrhs : ∀ {params rhs}, T.IsRule h q.2 params rhs →
      .atom a ∈ params ∨ ¬ OccursIn (.atom a) rhs := by
    intro params rhs hr
    obtain ⟨later, sym, earlier, h1, _, _⟩ := hr
    exact hN.rules h params sym rhs (by rw [h1]; simp)
  have hmul : ∀ r d, subst (single (.atom a) c) (.node [T.mul, r, d]) =
      .node [T.mul, subst (single (.atom a) c) r, subst (single (.atom a) c) d] := by
    intro r d
    rw [subst_single_node]
    simp only [List.map_cons, List.map_nil, subst_single_absent _ hN.mul]
  constructor
  · intro ht
    cases ht with
    | one hr hi h1 =>
      obtain ⟨r, hi', rfl⟩ := (instance_map (hrhs hr)).1 hi
      exact ⟨r, .one hr hi' (hq.1 h1), rfl⟩
    | times hr hi h1 =>
      obtain ⟨r, hi', rfl⟩ := (instance_map (hrhs hr)).1 hi
      exact ⟨_, .times hr hi' (fun h => h1 (hq.2 h)), (hmul _ _).symm⟩
  · rintro ⟨t, ht, rfl⟩
    cases ht with
    | one hr hi h1 => exact .one hr ((instance_map (hrhs hr)).2 ⟨_, hi, rfl⟩) (hq.2 h1)
    | times hr hi h1 =>
      rw [hmul]
      exact .times (q := (subst (single (.atom a) c) q.1, q.2)) hr
        ((instance_map (hrhs hr)).2 ⟨_, hi, rfl⟩) (fun h => h1 (hq.1 h))

theorem chainTerms_map (hN : NotMentioned T (.atom a)) {h : Expr} {args : List Expr}
    (qs : List (Expr × Nat))
    (hq : ∀ q ∈ qs, subst (single (.atom a) c) q.1 = T.one ↔ q.1 = T.one) (ts' : List Expr) :
    List.Forall₂ (ChainTerm T h (args.map (subst (single (.atom a) c))))
        (qs.map fun q => (subst (single (.atom a) c) q.1, q.2)) ts' ↔
      ∃ ts, List.Forall₂ (ChainTerm T h args) qs ts ∧ ts' = ts.map (subst (single (.atom a) c)) := by
  induction qs generalizing ts' with
  | nil =>
    constructor
    · intro h; cases h; exact ⟨[], .nil, rfl⟩
    · rintro ⟨ts, h, rfl⟩; cases h; exact .nil
  | cons q qs ih =>
    have ih := ih fun q' hq' => hq q' (List.mem_cons_of_mem _ hq')
    have h1 := hq q List.mem_cons_self
    constructor
    · intro hf
      cases hf with
      | cons ht hts =>
        obtain ⟨t, ht', rfl⟩ := (chainTerm_map hN h1).1 ht
        obtain ⟨ts, hts', rfl⟩ := (ih _).1 hts
        exact ⟨t :: ts, .cons ht' hts', rfl⟩
    · rintro ⟨ts, hf, rfl⟩
      cases hf with
      | cons ht hts =>
        exact .cons ((chainTerm_map hN h1).2 ⟨_, ht, rfl⟩) ((ih _).2 ⟨_, hts, rfl⟩)

/-- The derivative of a compound expression. -/
theorem derives_node {h d : Expr} {args : List Expr} :
    Derives T x (.node (h :: args)) d ↔ ∃ ds, DerivesAll T x args ds ∧
      (T.Distributive h ∧ d = .node (h :: ds) ∨
       ¬ T.Distributive h ∧ h = T.add ∧ d = T.total ((T.nonzero ds).map Prod.fst) ∨
       ¬ T.Distributive h ∧ h ≠ T.add ∧ h = T.mul ∧
         d = T.total ((T.nonzero ds).map fun q => .node (T.mul :: args.set q.2 q.1)) ∨
       ¬ T.Distributive h ∧ h ≠ T.add ∧ h ≠ T.mul ∧
         ∃ terms, List.Forall₂ (ChainTerm T h args) (T.nonzero ds) terms ∧ d = T.total terms) := by
  constructor
  · intro hd
    generalize ht : (.node (h :: args) : Expr) = t at hd
    cases hd with
    | self hc => subst ht; cases hc
    | constant hc _ => subst ht; cases hc
    | distributive h1 h2 => cases ht; exact ⟨_, h2, .inl ⟨h1, rfl⟩⟩
    | sum h1 h2 => cases ht; exact ⟨_, h2, .inr (.inl ⟨h1, rfl, rfl⟩)⟩
    | product h1 h3 h2 => cases ht; exact ⟨_, h2, .inr (.inr (.inl ⟨h1, h3, rfl, rfl⟩))⟩
    | chain h1 h3 h4 h2 h5 =>
      cases ht; exact ⟨_, h2, .inr (.inr (.inr ⟨h1, h3, h4, _, h5, rfl⟩))⟩
  · rintro ⟨ds, hds, ⟨h1, rfl⟩ | ⟨h1, rfl, rfl⟩ | ⟨h1, h2, rfl, rfl⟩ | ⟨h1, h2, h3, terms, h4, rfl⟩⟩
    · exact .distributive h1 hds
    · exact .sum h1 hds
    · exact .product h1 h2 hds
    · exact .chain h1 h2 h3 hds h4

theorem derives_leaf {t d : Expr} (ht : t.children = []) :
    Derives T x t d ↔ t = x ∧ d = T.one ∨ t ≠ x ∧ d = T.zero := by
  constructor
  · intro hd
    cases hd with
    | self _ => exact .inl ⟨rfl, rfl⟩
    | constant _ h => exact .inr ⟨h, rfl⟩
    | distributive _ _ => cases ht
    | sum _ _ => cases ht
    | product _ _ _ => cases ht
    | chain _ _ _ _ _ => cases ht
  · rintro (⟨rfl, rfl⟩ | ⟨h, rfl⟩)
    · exact .self ht
    · exact .constant ht h

theorem derives_ne_atom (hN : NotMentioned T (.atom a))
    (hr : T.NoBareRule)
    (e : Expr) {d : Expr} (hd : Derives T x e d) : d ≠ .atom a := by
  have htotal : ∀ ts : List Expr, (∀ t ∈ ts, t ≠ .atom a) → T.total ts ≠ .atom a := by
    intro ts hts
    match ts, hts with
    | [], _ => exact fun h => hN.zero.2 h.symm
    | [t], hts => exact hts t List.mem_cons_self
    | t :: t' :: ts, _ => exact fun h => by cases h
  induction e using Tree.induction generalizing d with
  | h e ih =>
    by_cases hl : e.children = []
    · rcases (derives_leaf hl).1 hd with ⟨_, rfl⟩ | ⟨_, rfl⟩
      · exact fun h => hN.one.2 h.symm
      · exact fun h => hN.zero.2 h.symm
    · obtain ⟨h, args, rfl⟩ : ∃ h args, e = .node (h :: args) := by
        cases e with
        | atom b => exact absurd rfl hl
        | node cs =>
          cases cs with
          | nil => exact absurd rfl hl
          | cons h args => exact ⟨h, args, rfl⟩
      obtain ⟨ds, hds, hcase⟩ := derives_node.1 hd
      have hmem : ∀ d ∈ ds, d ≠ .atom a := by
        intro d hd
        obtain ⟨e, he, hde⟩ : ∃ e ∈ args, Derives T x e d := by
          rw [derivesAll_forall₂] at hds
          obtain ⟨i, hi, hdi⟩ := List.mem_iff_getElem.1 hd
          have hlen := hds.length_eq
          exact ⟨args[i], List.getElem_mem _, by
            have := (List.forall₂_iff_get.1 hds).2 i (by omega) hi
            simpa [hdi] using this⟩
        exact ih e (List.mem_cons_of_mem _ he) hde
      rcases hcase with ⟨_, rfl⟩ | ⟨_, _, rfl⟩ | ⟨_, _, _, rfl⟩ | ⟨_, _, _, terms, hts, rfl⟩
      · exact fun h => by cases h
      · apply htotal
        intro t ht
        obtain ⟨q, hq, rfl⟩ := List.mem_map.1 ht
        exact hmem _ (List.fst_mem_of_mem_zipIdx (List.mem_filter.1 hq).1)
      · apply htotal
        intro t ht
        obtain ⟨q, hq, rfl⟩ := List.mem_map.1 ht
        exact fun h => by cases h
      · apply htotal
        intro t ht
        obtain ⟨i, hi, hti⟩ := List.mem_iff_getElem.1 ht
        have hlen := hts.length_eq
        have hct := (List.forall₂_iff_get.1 hts).2 i (by omega) hi
        rw [List.get_eq_getElem, List.get_eq_getElem, hti] at hct
        cases hct with
        | one hrule hi h1' =>
          rename_i params rhs
          obtain ⟨later, sym, earlier, h1, _, _⟩ := hrule
          have hm : .rule (.node (h :: params)) sym rhs ∈ T.told := by rw [h1]; simp
          cases hi with
          | last hin _ _ => exact absurd hin (hr h params sym rhs hm)
          | replaced hin hl =>
            cases rhs with
            | atom b =>
              rw [subst_none_atom ((pairing_isSome hl.symm _).2 hin)]
              rintro heq
              rcases hN.rules _ _ sym _ hm with h' | h'
              · exact hin (heq ▸ h')
              · exact h' (heq ▸ occursIn_self _)
            | node cs =>
              rw [subst_none_node ((pairing_isSome hl.symm _).2 hin)]
              exact fun h => by cases h
        | times _ _ _ => exact fun h => by cases h

theorem derives_subst {p : DiffProps Val} (hm : Made T p) (hN : NotMentioned T (.atom a))
    (hx : x ≠ .atom a) (hc : Derives T x c T.zero)
    (hok : T.NoBareRule ∨ (c ≠ T.zero ∧ c ≠ T.one))
    (e : Expr) (hh : NotAHead (.atom a) e) (d' : Expr) :
    Derives T x (subst (single (.atom a) c) e) d' ↔
      ∃ d, Derives T x e d ∧ d' = subst (single (.atom a) c) d := by
  have hkey : ∀ {e d}, Derives T x e d → (d = .atom a → c ≠ T.zero ∧ c ≠ T.one) := by
    intro e d hd hda
    rcases hok with h | h
    · exact absurd hda (derives_ne_atom hN h e hd)
    · exact h
  have hzero : subst (single (.atom a) c) T.zero = T.zero :=
    (subst_eq_leaf hN.zero.1 hN.zero.2 fun h => absurd h.symm hN.zero.2).2 rfl
  have hone : subst (single (.atom a) c) T.one = T.one :=
    (subst_eq_leaf hN.one.1 hN.one.2 fun h => absurd h.symm hN.one.2).2 rfl
  have hdet : ∀ t d d', Derives T x t d → Derives T x t d' → d = d' := by
    intro t d d' h1 h2
    have h1 := (C52_diff_exact T p hm t x d).2 h1
    have h2 := (C52_diff_exact T p hm t x d').2 h2
    exact Except.ok.inj (h1.symm.trans h2)
  induction e using Tree.induction generalizing d' with
  | h e ih =>
    by_cases hl : e.children = []
    · by_cases hea : e = .atom a
      · subst hea
        rw [subst_some (u := c) (by simp [single])]
        constructor
        · intro h
          exact ⟨T.zero, .constant rfl fun h => hx h.symm, by rw [hzero]; exact hdet _ _ _ h hc⟩
        · rintro ⟨d, hd, rfl⟩
          rcases (derives_leaf hl).1 hd with ⟨h, _⟩ | ⟨_, rfl⟩
          · exact absurd h.symm hx
          · rw [hzero]; exact hc
      · have he : subst (single (.atom a) c) e = e := by
          have hσ : single (.atom a) c e = none := by simp [single, hea]
          cases e with
          | atom b => exact subst_none_atom hσ
          | node cs => cases hl; exact subst_none_node hσ
        rw [he, derives_leaf hl]
        constructor
        · rintro (⟨h, rfl⟩ | ⟨h, rfl⟩)
          · exact ⟨T.one, (derives_leaf hl).2 (.inl ⟨h, rfl⟩), hone.symm⟩
          · exact ⟨T.zero, (derives_leaf hl).2 (.inr ⟨h, rfl⟩), hzero.symm⟩
        · rintro ⟨d, hd, rfl⟩
          rcases (derives_leaf hl).1 hd with ⟨h, rfl⟩ | ⟨h, rfl⟩
          · exact .inl ⟨h, hone⟩
          · exact .inr ⟨h, hzero⟩
    · obtain ⟨h, args, rfl⟩ : ∃ h args, e = .node (h :: args) := by
        cases e with
        | atom b => exact absurd rfl hl
        | node cs =>
          cases cs with
          | nil => exact absurd rfl hl
          | cons h args => exact ⟨h, args, rfl⟩
      have hhead : subst (single (.atom a) c) h = h :=
        subst_single_absent h (hh h args (argSub_refl _))
      have hall : ∀ ds', DerivesAll T x (args.map (subst (single (.atom a) c))) ds' ↔
          ∃ ds, DerivesAll T x args ds ∧ ds' = ds.map (subst (single (.atom a) c)) := by
        have ih' : ∀ t ∈ args, ∀ d', Derives T x (subst (single (.atom a) c) t) d' ↔
            ∃ d, Derives T x t d ∧ d' = subst (single (.atom a) c) d := fun t ht d' =>
          ih t (List.mem_cons_of_mem _ ht)
            (fun h' args' hs => hh h' args' (argSub_trans (argSub_arg ht) hs)) d'
        clear hh hl ih hc
        induction args with
        | nil =>
          intro ds'
          constructor
          · intro h; cases h; exact ⟨[], .nil, rfl⟩
          · rintro ⟨ds, h, rfl⟩; cases h; exact .nil
        | cons t ts iht =>
          intro ds'
          have h1 := ih' t List.mem_cons_self
          have h2 := iht fun t ht => ih' t (List.mem_cons_of_mem _ ht)
          constructor
          · intro hd
            cases hd with
            | cons ha hb =>
              obtain ⟨d, ha', rfl⟩ := (h1 _).1 ha
              obtain ⟨ds, hb', rfl⟩ := (h2 _).1 hb
              exact ⟨d :: ds, .cons ha' hb', rfl⟩
          · rintro ⟨ds, hd, rfl⟩
            cases hd with
            | cons ha hb => exact .cons ((h1 _).2 ⟨_, ha, rfl⟩) ((h2 _).2 ⟨_, hb, rfl⟩)
      rw [subst_single_node, List.map_cons, hhead]
      -- the derivatives of the arguments
      have hds : ∀ ds, DerivesAll T x args ds → ∀ d ∈ ds, d = .atom a → c ≠ T.zero ∧ c ≠ T.one := by
        intro ds hds d hd
        rw [derivesAll_forall₂] at hds
        obtain ⟨i, hi, hdi⟩ := List.mem_iff_getElem.1 hd
        have hlen := hds.length_eq
        have := (List.forall₂_iff_get.1 hds).2 i (by omega) hi
        rw [List.get_eq_getElem, List.get_eq_getElem, hdi] at this
        exact hkey this
      have hnz : ∀ ds, DerivesAll T x args ds → T.nonzero (ds.map (subst (single (.atom a) c))) =
          (T.nonzero ds).map fun q => (subst (single (.atom a) c) q.1, q.2) := fun ds hd =>
        nonzero_map fun d hdm => subst_eq_leaf hN.zero.1 hN.zero.2 fun h => (hds ds hd d hdm h).1
      have hno : ∀ ds, DerivesAll T x args ds → ∀ q ∈ T.nonzero ds,
          (subst (single (.atom a) c) q.1 = T.one ↔ q.1 = T.one) := fun ds hd q hq =>
        subst_eq_leaf hN.one.1 hN.one.2 fun h =>
          (hds ds hd q.1 (List.fst_mem_of_mem_zipIdx (List.mem_filter.1 hq).1) h).2
      have hsum : ∀ ds, DerivesAll T x args ds →
          T.total ((T.nonzero (ds.map (subst (single (.atom a) c)))).map Prod.fst) =
            subst (single (.atom a) c) (T.total ((T.nonzero ds).map Prod.fst)) := by
        intro ds hd
        rw [hnz ds hd, total_map hN.add hN.zero, List.map_map, List.map_map]
        rfl
      have hprod : ∀ ds, DerivesAll T x args ds →
          T.total ((T.nonzero (ds.map (subst (single (.atom a) c)))).map fun q =>
              .node (T.mul :: (args.map (subst (single (.atom a) c))).set q.2 q.1)) =
            subst (single (.atom a) c) (T.total ((T.nonzero ds).map fun q =>
              .node (T.mul :: args.set q.2 q.1))) := by
        intro ds hd
        rw [hnz ds hd, total_map hN.add hN.zero, List.map_map, List.map_map]
        congr 1
        apply List.map_congr_left
        intro q _
        simp only [Function.comp]
        rw [subst_single_node, List.map_cons, subst_single_absent _ hN.mul, List.map_set]
      constructor
      · intro hd
        obtain ⟨ds', hds', hcase⟩ := derives_node.1 hd
        obtain ⟨ds, hda, rfl⟩ := (hall ds').1 hds'
        rcases hcase with ⟨h1, rfl⟩ | ⟨h1, h2, rfl⟩ | ⟨h1, h2, h3, rfl⟩ | ⟨h1, h2, h3, ts, hts, rfl⟩
        · refine ⟨_, derives_node.2 ⟨ds, hda, .inl ⟨h1, rfl⟩⟩, ?_⟩
          rw [subst_single_node, List.map_cons, hhead]
        · exact ⟨_, derives_node.2 ⟨ds, hda, .inr (.inl ⟨h1, h2, rfl⟩)⟩, hsum ds hda⟩
        · exact ⟨_, derives_node.2 ⟨ds, hda, .inr (.inr (.inl ⟨h1, h2, h3, rfl⟩))⟩, hprod ds hda⟩
        · rw [hnz ds hda] at hts
          obtain ⟨ts0, hts0, rfl⟩ := (chainTerms_map hN _ (hno ds hda) _).1 hts
          exact ⟨_, derives_node.2 ⟨ds, hda, .inr (.inr (.inr ⟨h1, h2, h3, ts0, hts0, rfl⟩))⟩,
            (total_map hN.add hN.zero ts0).symm⟩
      · rintro ⟨d, hd, rfl⟩
        obtain ⟨ds, hda, hcase⟩ := derives_node.1 hd
        have hds' := (hall _).2 ⟨ds, hda, rfl⟩
        refine derives_node.2 ⟨_, hds', ?_⟩
        rcases hcase with ⟨h1, rfl⟩ | ⟨h1, h2, rfl⟩ | ⟨h1, h2, h3, rfl⟩ | ⟨h1, h2, h3, ts, hts, rfl⟩
        · refine .inl ⟨h1, ?_⟩
          rw [subst_single_node, List.map_cons, hhead]
        · exact .inr (.inl ⟨h1, h2, (hsum ds hda).symm⟩)
        · exact .inr (.inr (.inl ⟨h1, h2, h3, (hprod ds hda).symm⟩))
        · refine .inr (.inr (.inr ⟨h1, h2, h3, ts.map (subst (single (.atom a) c)), ?_,
            total_map hN.add hN.zero ts⟩))
          rw [hnz ds hda]
          exact (chainTerms_map hN _ (hno ds hda) _).2 ⟨ts, hts, rfl⟩

end

/-- **C57.** Let `y` be an atom that the differentiator does not mention and that `e` uses as a
value, `x` another expression, and `c` an expression with derivative 0 with respect to `x`.  Then
replacing `y` by `c` and differentiating with respect to `x` gives the same as differentiating and
then replacing: the same expression, or an exception in both cases. -/
theorem C57_diff_xreplace (T : DiffTable) (p : DiffProps Val) (hm : Made T p) (a : Atom Val)
    (c x e : Expr) (hN : NotMentioned T (.atom a)) (hx : x ≠ .atom a)
    (hc : c.diff x 1 p = .ok T.zero) (hok : T.NoBareRule ∨ (c ≠ T.zero ∧ c ≠ T.one))
    (hh : NotAHead (.atom a) e) (r : Expr) :
    ((xreplace e (Dict.ofPairs [(.expr (.atom a), .expr c)])).bind fun e' => e'.diff x 1 p) = .ok r ↔
      ((e.diff x 1 p).bind fun d => xreplace d (Dict.ofPairs [(.expr (.atom a), .expr c)])) =
        .ok r := by
  have hc' := (C52_diff_exact T p hm c x _).1 hc
  have key := derives_subst hm hN hx hc' hok e hh r
  rw [xreplace_single]
  change Expr.diff (subst (single (.atom a) c) e) x 1 p = .ok r ↔ _
  rw [C52_diff_exact T p hm, key]
  constructor
  · rintro ⟨d, hd, rfl⟩
    rw [(C52_diff_exact T p hm e x d).2 hd]
    change xreplace d _ = _
    rw [xreplace_single]
  · intro h
    cases hd : e.diff x 1 p with
    | error err => rw [hd] at h; cases h
    | ok d =>
      rw [hd] at h
      change xreplace d _ = _ at h
      rw [xreplace_single] at h
      exact ⟨d, (C52_diff_exact T p hm e x d).1 hd, (Except.ok.inj h).symm⟩

theorem occursIn_atom {t : Expr} {b : Atom Val} : OccursIn t (.atom b) ↔ t = .atom b := by
  constructor
  · intro ho
    cases ho with
    | refl _ => rfl
    | down _ hc _ => cases hc
  · rintro rfl; exact occursIn_self _

theorem occursIn_node {b : Atom Val} {cs : List Expr} :
    OccursIn (.atom b) (.node cs) ↔ ∃ t ∈ cs, OccursIn (.atom b) t := by
  constructor
  · intro ho
    cases ho with
    | down _ hc h => exact ⟨_, by rw [kids_true_eq] at hc; exact hc, h⟩
  · rintro ⟨t, ht, h⟩
    exact occursIn_child ht h

theorem simplecas_notMentioned (s : String) : NotMentioned simplecasTable (symbol s) := by
  have hfun : ∀ n, ¬ OccursIn (symbol s) (function n) := fun n h => by
    have := occursIn_atom.1 h; cases this
  refine ⟨hfun _, hfun _, ⟨rfl, fun h => by cases h⟩, ⟨rfl, fun h => by cases h⟩, ?_⟩
  intro h params sym rhs hm
  right
  simp only [simplecasTable, List.mem_cons, List.not_mem_nil, or_false, reduceCtorEq, false_or,
    DiffCommand.rule.injEq] at hm
  rcases hm with ⟨_, _, rfl⟩ | ⟨_, _, rfl⟩ | ⟨_, _, rfl⟩
  all_goals
    simp [Expr.mul, Expr.pow, Expr.add, Expr.sin, Expr.cos, Tree.call, symbol, occursIn_node,
      mulH, powH, addH, cosH, sinH, function, wild, negone, integer, occursIn_atom, Ty.symbol,
      Ty.integer, Ty.wild, Ty.function]

theorem simplecas_noBareRule : simplecasTable.NoBareRule := by
  intro h params sym rhs hm
  simp only [simplecasTable, List.mem_cons, List.not_mem_nil, or_false, reduceCtorEq, false_or,
    DiffCommand.rule.injEq] at hm
  rcases hm with ⟨hp, _, rfl⟩ | ⟨hp, _, rfl⟩ | ⟨hp, _, rfl⟩
  all_goals
    obtain ⟨_, rfl⟩ := List.cons.inj (Tree.node.inj hp)
    decide

/-- **C57, simplecas.** For a symbol `y` other than `x` and an expression `c` with derivative 0
with respect to `x`: `e.xreplace({y: c}).diff(x)` and `e.diff(x).xreplace({y: c})` are the same
expression, or both raise. -/
theorem C57_builtin (s : String) (c x e : Expr) (hx : x ≠ symbol s) (hc : c.diff x = .ok zero)
    (hh : NotAHead (symbol s) e) (r : Expr) :
    ((xreplace e (Dict.ofPairs [(.expr (symbol s), .expr c)])).bind fun e' => e'.diff x) = .ok r ↔
      ((e.diff x).bind fun d => xreplace d (Dict.ofPairs [(.expr (symbol s), .expr c)])) =
        .ok r := by
  exact C57_diff_xreplace simplecasTable builtinDiff C52_builtin _ c x e (simplecas_notMentioned s)
    hx hc (.inl simplecas_noBareRule) hh r

/-- `x*sin(y*x)` with `y` replaced by `cos(z) + 1`. -/
example : ((xreplace (mul x (sin (mul y x)))
      (Dict.ofPairs [(.expr y, .expr (add (cos (symbol "z")) one))])).bind
        fun e' => Expr.diff e' x) =
    ((Expr.diff (mul x (sin (mul y x))) x).bind fun d => xreplace d
      (Dict.ofPairs [(.expr y, .expr (add (cos (symbol "z")) one))])) := by
  decide +kernel

example : Expr.diff (add (cos (symbol "z")) one) x = .ok zero := by decide +kernel

example : NotAHead y (mul x (sin (mul y x))) := by
  have key : ∀ t ∈ topologicalSort false [] (mul x (sin (mul y x))),
      t.children.head? = none ∨ t.children.head? = some mulH ∨ t.children.head? = some sinH := by
    decide +kernel
  intro h args hs ho
  rcases key _ (((C05_topological_sort false _).1 _).2 hs) with h' | h' | h'
  · cases h'
  all_goals
    obtain rfl : h = _ := Option.some.inj h'
    have := occursIn_atom.1 ho
    cases this

/-- Without the condition on `c` it is false: the derivative of `y**2` with respect to `x` is 0,
but not that of `x**2`. -/
theorem C57_dependent_false : ¬ ∀ (s : String) (c x e : Expr), x ≠ symbol s → NotAHead (symbol s) e →
    ∀ r, ((xreplace e (Dict.ofPairs [(.expr (symbol s), .expr c)])).bind fun e' => e'.diff x) =
        .ok r →
      ((e.diff x).bind fun d => xreplace d (Dict.ofPairs [(.expr (symbol s), .expr c)])) = .ok r := by
  intro h
  have := h "y" x x y (by decide) (fun h args hs => by
    cases hs with
    | down _ hc _ => cases hc) one (by decide +kernel)
  revert this
  decide +kernel

/-- The rule `diff[f(a, b), a] = b`. -/
def bareTable : DiffTable :=
  ⟨addH, mulH, zero, one, [.rule (.node [Expr.f, wild "a", wild "b"]) (wild "a") (wild "b")]⟩

/-- Its differentiator. -/
def bareDiff : DiffProps Val :=
  match SymDifferentiator.setItem (SymDifferentiator.new addH mulH zero one)
    (.node [Expr.f, wild "a", wild "b"]) (wild "a") (wild "b") with
  | .ok p => p
  | .error _ => SymDifferentiator.new addH mulH zero one

theorem bare_made : Made bareTable bareDiff := by
  obtain ⟨g, _, h⟩ := setItem_accepts (SymDifferentiator.new addH mulH zero one) Expr.f
    (wild "a") (wild "b") [wild "a", wild "b"] (by decide)
  have hb : SymDifferentiator.setItem (SymDifferentiator.new addH mulH zero one)
    (.node [Expr.f, wild "a", wild "b"]) (wild "a") (wild "b") = .ok bareDiff := by
    unfold bareDiff
    rw [h]
  exact Made.rule Made.new hb

/-- **C57, the boundary.** With a rule whose right-hand side is an argument of its pattern and `c`
one of the constants the property fails: with `diff[f(a, b), a] = b` replacing `y` by 0 in
`f(x, y) + x` and differentiating gives `1`, but differentiating and replacing `0 + 1`. -/
theorem C57_bare_false : ¬ ∀ (T : DiffTable) (p : DiffProps Val), Made T p → ∀ (a : Atom Val)
    (c x e : Expr), NotMentioned T (.atom a) → x ≠ .atom a → c.diff x 1 p = .ok T.zero →
    NotAHead (.atom a) e → ∀ r,
    ((xreplace e (Dict.ofPairs [(.expr (.atom a), .expr c)])).bind fun e' => e'.diff x 1 p) =
        .ok r →
      ((e.diff x 1 p).bind fun d => xreplace d (Dict.ofPairs [(.expr (.atom a), .expr c)])) =
        .ok r := by
  intro h
  have hn : NotMentioned bareTable y := by
    refine ⟨?_, ?_, ⟨rfl, by decide⟩, ⟨rfl, by decide⟩, ?_⟩
    · intro ho
      have := occursIn_atom.1 ho
      cases this
    · intro ho
      have := occursIn_atom.1 ho
      cases this
    · intro h params sym rhs hm
      obtain ⟨_, _, rfl⟩ := DiffCommand.rule.inj (List.mem_singleton.1 hm)
      right
      intro ho
      have := occursIn_atom.1 ho
      cases this
  have key : ∀ t ∈ topologicalSort false [] (add (.node [Expr.f, x, y]) x),
      t.children.head? = none ∨ t.children.head? = some addH ∨ t.children.head? = some Expr.f := by
    decide +kernel
  have := h bareTable bareDiff bare_made ⟨Ty.symbol, .str "y"⟩ zero x
    (add (.node [Expr.f, x, y]) x) hn (by decide) (by decide +kernel)
    (fun h args hs ho => by
      rcases key _ (((C05_topological_sort false _).1 _).2 hs) with h' | h' | h'
      · cases h'
      all_goals
        obtain rfl : h = _ := Option.some.inj h'
        have := occursIn_atom.1 ho
        cases this)
    one (by decide +kernel)
  revert this
  decide +kernel

end Verif.Props
