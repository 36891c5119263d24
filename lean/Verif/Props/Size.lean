import Verif.Lemmas.Size
import Verif.Props.DiffExact
import Verif.Props.Substitution
import Verif.Props.Arith
import Verif.Props.Matrix
import Verif.Model.LLVM

/-!
# C56: no blow-up
-/

namespace Verif.Props
open Spec Expr

theorem countOpsGraph_eq (e : Expr) : countOpsGraph e = nodes e := by
  unfold countOpsGraph nodes
  rw [distinct_eq]

theorem nodes_pos (e : Expr) : 1 ≤ nodes e := by
  have : e ∈ distinct e := mem_distinct.2 (argSub_refl e)
  exact List.length_pos_of_mem this

theorem sum_le_mul {l : List Expr} {c : Expr → Nat} {k : Nat} (h : ∀ t ∈ l, c t ≤ k) :
    (l.map c).sum ≤ k * l.length := by
  induction l with
  | nil => simp
  | cons t l ih =>
    have h1 := h t List.mem_cons_self
    have h2 := ih fun t ht => h t (List.mem_cons_of_mem _ ht)
    simp only [List.map_cons, List.sum_cons, List.length_cons, Nat.mul_succ]
    omega

theorem edges_le {e : Expr} {k : Nat} (h : ArgsAtMost k e) : edges e ≤ k * nodes e :=
  sum_le_mul fun t ht => h t (mem_distinct.1 ht)

theorem sum_affine (l : List Expr) (n : Expr → Nat) (r : Nat) :
    (l.map fun t => 1 + r * n t).sum = l.length + r * (l.map n).sum := by
  induction l with
  | nil => simp
  | cons t l ih =>
    simp only [List.map_cons, List.sum_cons, List.length_cons, ih, Nat.mul_add]
    omega

/-! ### Differentiation -/

theorem argSub_total {T : DiffTable} {ts : List Expr} {u : Expr} (h : ArgSub (T.total ts) u) :
    ArgSub T.zero u ∨ u = .node (T.add :: ts) ∨ ∃ t ∈ ts, ArgSub t u := by
  match ts, h with
  | [], h => exact .inl h
  | [t], h => exact .inr (.inr ⟨t, List.mem_cons_self, h⟩)
  | t :: t' :: ts, h => exact .inr (argSub_node.1 h)

theorem derivesAll_mem {T : DiffTable} {x : Expr} {args ds : List Expr}
    (h : DerivesAll T x args ds) {d : Expr} (hd : d ∈ ds) : ∃ a ∈ args, Derives T x a d := by
  induction ds generalizing args with
  | nil => cases hd
  | cons d' ds ih =>
    cases h with
    | cons h1 h2 =>
      rcases List.mem_cons.1 hd with rfl | hd
      · exact ⟨_, List.mem_cons_self, h1⟩
      · obtain ⟨a, ha, hda⟩ := ih h2 hd
        exact ⟨a, List.mem_cons_of_mem _ ha, hda⟩

theorem derivesAll_length {T : DiffTable} {x : Expr} {args ds : List Expr}
    (h : DerivesAll T x args ds) : ds.length = args.length := by
  induction ds generalizing args with
  | nil => cases h; rfl
  | cons d ds ih =>
    cases h with
    | cons h1 h2 => simp [ih h2]

theorem nonzero_length (T : DiffTable) (ds : List Expr) : (T.nonzero ds).length ≤ ds.length := by
  unfold DiffTable.nonzero
  refine Nat.le_trans (List.length_filter_le _ _) ?_
  simp

theorem nonzero_mem {T : DiffTable} {ds : List Expr} {q : Expr × Nat} (h : q ∈ T.nonzero ds) :
    q.1 ∈ ds := by
  unfold DiffTable.nonzero at h
  obtain ⟨d, i⟩ := q
  have := List.fst_mem_of_mem_zipIdx (List.mem_filter.1 h).1
  exact this

theorem isRule_told {T : DiffTable} {h : Expr} {i : Nat} {params : List Expr} {rhs : Expr}
    (hr : T.IsRule h i params rhs) : ∃ sym, .rule (.node (h :: params)) sym rhs ∈ T.told := by
  obtain ⟨later, sym, earlier, h1, _, _⟩ := hr
  exact ⟨sym, by rw [h1]; simp⟩

/-- The new subexpressions of one term of the chain rule. -/
theorem chainTerm_new {T : DiffTable} {h : Expr} {args : List Expr} {q : Expr × Nat} {term : Expr}
    (hc : ChainTerm T h args q term) {R k : Nat} (hk : 2 ≤ k)
    (hR : ∀ h params sym rhs, .rule (.node (h :: params)) sym rhs ∈ T.told →
      ownNodes params rhs ≤ R ∧ ArgsAtMost k rhs) :
    ∃ L : List Expr, L.length ≤ R + 1 ∧ (∀ u ∈ L, (kids false u).length ≤ k) ∧
      ∀ u, ArgSub term u → u ∈ L ∨ (∃ a ∈ args, ArgSub a u) ∨ ArgSub q.1 u := by
  have inst : ∀ {params rhs r}, T.IsRule h q.2 params rhs → Instance params rhs args r →
      ∃ L : List Expr, L.length ≤ R ∧ (∀ u ∈ L, (kids false u).length ≤ k) ∧
        ∀ u, ArgSub r u → u ∈ L ∨ ∃ a ∈ args, ArgSub a u := by
    intro params rhs r hr hi
    obtain ⟨sym, hs⟩ := isRule_told hr
    obtain ⟨h1, h2⟩ := hR h params sym rhs hs
    cases hi with
    | last hm hl hd =>
      exact ⟨[], by simp, by simp, fun u hu => .inr ⟨r, List.mem_of_getLast? hd, hu⟩⟩
    | replaced hm hl =>
      have hnone := pairing_isSome hl.symm
      refine ⟨((distinct rhs).filter (· ∉ params)).map (subst (pairing params args)), ?_, ?_, ?_⟩
      · rw [List.length_map]; exact h1
      · intro u hu
        obtain ⟨t, ht, rfl⟩ := List.mem_map.1 hu
        obtain ⟨ht1, ht2⟩ := List.mem_filter.1 ht
        rw [kids_subst ((hnone t).2 (by simpa using ht2))]
        exact h2 t (mem_distinct.1 ht1)
      · intro u hu
        rcases argSub_subst rhs hu with ⟨t, ht, hn, rfl⟩ | ⟨p, v, _, hp, hv⟩
        · refine .inl (List.mem_map.2 ⟨t, List.mem_filter.2 ⟨mem_distinct.2 ht, ?_⟩, rfl⟩)
          simpa using (hnone t).1 hn
        · refine .inr ⟨v, ?_, hv⟩
          have : (p, v) ∈ params.zip args := lastAssoc_mem hp
          exact (List.of_mem_zip this).2
  cases hc with
  | one hr hi _ =>
    obtain ⟨L, l1, l2, l3⟩ := inst hr hi
    refine ⟨L, by omega, l2, fun u hu => ?_⟩
    rcases l3 u hu with h | h
    · exact .inl h
    · exact .inr (.inl h)
  | times hr hi hne =>
    rename_i params rhs r
    obtain ⟨L, l1, l2, l3⟩ := inst hr hi
    refine ⟨.node [T.mul, r, q.1] :: L, by simp; omega, ?_, fun u hu => ?_⟩
    · intro u hu
      rcases List.mem_cons.1 hu with rfl | hu
      · exact hk
      · exact l2 u hu
    · rcases argSub_node.1 hu with rfl | ⟨a, ha, hu'⟩
      · exact .inl List.mem_cons_self
      · simp only [List.mem_cons, List.not_mem_nil, or_false] at ha
        rcases ha with rfl | rfl
        · rcases l3 u hu' with h | h
          · exact .inl (List.mem_cons_of_mem _ h)
          · exact .inr (.inl h)
        · exact .inr (.inr hu')

theorem chainTerms_new {T : DiffTable} {h : Expr} {args : List Expr} {qs : List (Expr × Nat)}
    {terms : List Expr} (hc : List.Forall₂ (ChainTerm T h args) qs terms) {R k : Nat} (hk : 2 ≤ k)
    (hR : ∀ h params sym rhs, .rule (.node (h :: params)) sym rhs ∈ T.told →
      ownNodes params rhs ≤ R ∧ ArgsAtMost k rhs) :
    ∃ L : List Expr, L.length ≤ (R + 1) * qs.length ∧ (∀ u ∈ L, (kids false u).length ≤ k) ∧
      ∀ t ∈ terms, ∀ u, ArgSub t u →
        u ∈ L ∨ (∃ a ∈ args, ArgSub a u) ∨ ∃ q ∈ qs, ArgSub q.1 u := by
  induction hc with
  | nil => exact ⟨[], by simp, by simp, by simp⟩
  | cons h1 _ ih =>
    obtain ⟨L1, a1, a2, a3⟩ := chainTerm_new h1 hk hR
    obtain ⟨L2, b1, b2, b3⟩ := ih
    refine ⟨L1 ++ L2, ?_, ?_, ?_⟩
    · rw [List.length_append, List.length_cons, Nat.mul_succ]; omega
    · intro u hu
      rcases List.mem_append.1 hu with hu | hu
      · exact a2 u hu
      · exact b2 u hu
    · intro t ht u hu
      rcases List.mem_cons.1 ht with rfl | ht
      · rcases a3 u hu with h | h | h
        · exact .inl (List.mem_append_left _ h)
        · exact .inr (.inl h)
        · exact .inr (.inr ⟨_, List.mem_cons_self, h⟩)
      · rcases b3 t ht u hu with h | h | ⟨q, hq, h⟩
        · exact .inl (List.mem_append_right _ h)
        · exact .inr (.inl h)
        · exact .inr (.inr ⟨q, List.mem_cons_of_mem _ hq, h⟩)

theorem derives_size {T : DiffTable} {p : DiffProps Val} (hm : Made T p) {R k : Nat}
    (hR : ∀ h params sym rhs, .rule (.node (h :: params)) sym rhs ∈ T.told →
      ownNodes params rhs ≤ R)
    (hk : ∀ h params sym rhs, .rule (.node (h :: params)) sym rhs ∈ T.told → ArgsAtMost k rhs)
    (h2 : 2 ≤ k) {e x d : Expr} (he : ArgsAtMost k e) (hd : Derives T x e d) :
    nodes d ≤ nodes T.zero + nodes T.one + 2 * nodes e + (R + 1) * edges e ∧
    (ArgsAtMost k T.zero → ArgsAtMost k T.one → ArgsAtMost k d) := by
  have hdet : ∀ t d d', Derives T x t d → Derives T x t d' → d = d' := by
    intro t d d' h1 h2
    have h1 := (C52_diff_exact T p hm t x d).2 h1
    have h2 := (C52_diff_exact T p hm t x d').2 h2
    exact Except.ok.inj (h1.symm.trans h2)
  have hcov := cover e (Derives T x) hdet
    (distinct T.zero ++ distinct T.one ++ distinct e)
    (fun t => 1 + (R + 1) * (kids false t).length) (fun u => (kids false u).length ≤ k) ?_ hd
  · obtain ⟨h3, h4⟩ := hcov
    constructor
    · rw [sum_affine, List.length_append, List.length_append] at h3
      change nodes d ≤ nodes T.zero + nodes T.one + nodes e + (nodes e + (R + 1) * edges e) at h3
      omega
    · intro hz ho u hu
      rcases h4 u hu with h | h
      · rcases List.mem_append.1 h with h | h
        · rcases List.mem_append.1 h with h | h
          · exact hz u (mem_distinct.1 h)
          · exact ho u (mem_distinct.1 h)
        · exact he u (mem_distinct.1 h)
      · exact h
  · intro t ht d hd
    have hzero : ∀ u, ArgSub T.zero u →
        u ∈ distinct T.zero ++ distinct T.one ++ distinct e := fun u hu =>
      List.mem_append_left _ (List.mem_append_left _ (mem_distinct.2 hu))
    have hsub : ∀ {h args a u}, t = .node (h :: args) → a ∈ args → ArgSub a u →
        u ∈ distinct T.zero ++ distinct T.one ++ distinct e := by
      rintro h args a u rfl ha hu
      exact List.mem_append_right _ (mem_distinct.2
        (argSub_trans ht (argSub_trans (argSub_arg ha) hu)))
    cases hd with
    | self _ =>
      exact ⟨[], by simp, by simp, fun u hu => .inr (.inl
        (List.mem_append_left _ (List.mem_append_right _ (mem_distinct.2 hu))))⟩
    | constant _ _ => exact ⟨[], by simp, by simp, fun u hu => .inr (.inl (hzero u hu))⟩
    | distributive _n1 hds =>
      rename_i h args ds
      refine ⟨[.node (h :: ds)], by simp, ?_, fun u hu => ?_⟩
      · intro u hu
        obtain rfl := List.mem_singleton.1 hu
        change ds.length ≤ k
        rw [derivesAll_length hds]
        exact he _ ht
      · rcases argSub_node.1 hu with rfl | ⟨d, hd, hu⟩
        · exact .inl List.mem_cons_self
        · obtain ⟨a, ha, hda⟩ := derivesAll_mem hds hd
          exact .inr (.inr ⟨a, ha, d, hda, hu⟩)
    | sum _n1 hds =>
      rename_i args ds
      have hlen := derivesAll_length hds
      have hlen2 := nonzero_length T ds
      refine ⟨[.node (T.add :: (T.nonzero ds).map Prod.fst)], by simp, ?_, fun u hu => ?_⟩
      · intro u hu
        obtain rfl := List.mem_singleton.1 hu
        have := he _ ht
        simp only [kids, Bool.false_eq_true, if_false, List.length_map] at this ⊢
        omega
      · rcases argSub_total hu with h | rfl | ⟨d, hd, hu⟩
        · exact .inr (.inl (hzero u h))
        · exact .inl List.mem_cons_self
        · obtain ⟨q, hq, rfl⟩ := List.mem_map.1 hd
          obtain ⟨a, ha, hda⟩ := derivesAll_mem hds (nonzero_mem hq)
          exact .inr (.inr ⟨a, ha, q.1, hda, hu⟩)
    | product _n1 _n2 hds =>
      rename_i args ds
      have hlen := derivesAll_length hds
      have hlen2 := nonzero_length T ds
      have hargs := he _ ht
      simp only [kids, Bool.false_eq_true, if_false] at hargs
      refine ⟨.node (T.add :: (T.nonzero ds).map fun q => .node (T.mul :: args.set q.2 q.1)) ::
        (T.nonzero ds).map fun q => .node (T.mul :: args.set q.2 q.1), ?_, ?_, fun u hu => ?_⟩
      · simp only [List.length_cons, List.length_map, kids, Bool.false_eq_true, if_false]
        have : (R + 1) * args.length ≥ 1 * args.length := Nat.mul_le_mul_right _ (by omega)
        omega
      · intro u hu
        rcases List.mem_cons.1 hu with rfl | hu
        · simp only [kids, Bool.false_eq_true, if_false, List.length_map]
          omega
        · obtain ⟨q, hq, rfl⟩ := List.mem_map.1 hu
          simp only [kids, Bool.false_eq_true, if_false, List.length_set]
          omega
      · rcases argSub_total hu with h | rfl | ⟨t', ht', hu⟩
        · exact .inr (.inl (hzero u h))
        · exact .inl List.mem_cons_self
        · obtain ⟨q, hq, rfl⟩ := List.mem_map.1 ht'
          rcases argSub_node.1 hu with rfl | ⟨a, ha, hu⟩
          · exact .inl (List.mem_cons_of_mem _ (List.mem_map.2 ⟨q, hq, rfl⟩))
          · rcases List.mem_or_eq_of_mem_set ha with ha | rfl
            · exact .inr (.inl (hsub rfl ha hu))
            · obtain ⟨a, ha, hda⟩ := derivesAll_mem hds (nonzero_mem hq)
              exact .inr (.inr ⟨a, ha, q.1, hda, hu⟩)
    | chain _n1 _n2 _n3 hds hts =>
      rename_i h args ds terms
      have hlen := derivesAll_length hds
      have hlen2 := nonzero_length T ds
      have hargs := he _ ht
      simp only [kids, Bool.false_eq_true, if_false] at hargs
      obtain ⟨L, l1, l2, l3⟩ := chainTerms_new hts h2
        (fun h params sym rhs hr => ⟨hR h params sym rhs hr, hk h params sym rhs hr⟩)
      have hlt := hts.length_eq
      refine ⟨.node (T.add :: terms) :: L, ?_, ?_, fun u hu => ?_⟩
      · simp only [List.length_cons, kids, Bool.false_eq_true, if_false]
        have : (R + 1) * (T.nonzero ds).length ≤ (R + 1) * args.length :=
          Nat.mul_le_mul_left _ (by omega)
        omega
      · intro u hu
        rcases List.mem_cons.1 hu with rfl | hu
        · simp only [kids, Bool.false_eq_true, if_false]
          omega
        · exact l2 u hu
      · rcases argSub_total hu with h | rfl | ⟨t', ht', hu⟩
        · exact .inr (.inl (hzero u h))
        · exact .inl List.mem_cons_self
        · rcases l3 t' ht' u hu with h | ⟨a, ha, h⟩ | ⟨q, hq, h⟩
          · exact .inl (List.mem_cons_of_mem _ h)
          · exact .inr (.inl (hsub rfl ha h))
          · obtain ⟨a, ha, hda⟩ := derivesAll_mem hds (nonzero_mem hq)
            exact .inr (.inr ⟨a, ha, q.1, hda, h⟩)

theorem argsAtMost_mono {k k' : Nat} (h : k ≤ k') {e : Expr} (he : ArgsAtMost k e) :
    ArgsAtMost k' e := fun t ht => Nat.le_trans (he t ht) h

theorem exists_argsAtMost (e : Expr) : ∃ k, ArgsAtMost k e := by
  have : ∀ l : List Expr, ∃ k, ∀ t ∈ l, (kids false t).length ≤ k := by
    intro l
    induction l with
    | nil => exact ⟨0, by simp⟩
    | cons t l ih =>
      obtain ⟨k, hk⟩ := ih
      refine ⟨max k (kids false t).length, fun u hu => ?_⟩
      rcases List.mem_cons.1 hu with rfl | hu
      · exact Nat.le_max_right _ _
      · exact Nat.le_trans (hk u hu) (Nat.le_max_left _ _)
  obtain ⟨k, hk⟩ := this (distinct e)
  exact ⟨k, fun t ht => hk t (mem_distinct.2 ht)⟩

theorem exists_argsAtMost_told (l : List DiffCommand) :
    ∃ k, ∀ pattern sym rhs, .rule pattern sym rhs ∈ l → ArgsAtMost k rhs := by
  induction l with
  | nil => exact ⟨0, by simp⟩
  | cons c l ih =>
    obtain ⟨k, hk⟩ := ih
    cases c with
    | distributive h =>
      refine ⟨k, fun pattern sym rhs hm => ?_⟩
      rcases List.mem_cons.1 hm with h | h
      · cases h
      · exact hk _ _ _ h
    | rule p0 s0 r0 =>
      obtain ⟨k', hk'⟩ := exists_argsAtMost r0
      refine ⟨max k k', fun pattern sym rhs hm => ?_⟩
      rcases List.mem_cons.1 hm with h | h
      · cases h
        exact argsAtMost_mono (Nat.le_max_right _ _) hk'
      · exact argsAtMost_mono (Nat.le_max_left _ _) (hk _ _ _ h)

/-- **C56, differentiation.** The number of distinct subexpressions of the derivative is at most
linear in the number of nodes and edges of the graph of the expression; `R` is the size of the
largest right-hand side of a rule. -/
theorem C56_diff (T : DiffTable) (p : DiffProps Val) (hm : Made T p) (R : Nat)
    (hR : ∀ h params sym rhs, .rule (.node (h :: params)) sym rhs ∈ T.told →
      ownNodes params rhs ≤ R) (e x d : Expr) (hd : e.diff x 1 p = .ok d) :
    countOpsGraph d ≤ countOpsGraph T.zero + countOpsGraph T.one + 2 * countOpsGraph e +
      (R + 1) * edges e := by
  simp only [countOpsGraph_eq]
  obtain ⟨k1, h1⟩ := exists_argsAtMost_told T.told
  obtain ⟨k2, h2⟩ := exists_argsAtMost e
  exact (derives_size hm (k := max k1 (max k2 2)) hR
    (fun _ _ _ _ hr => argsAtMost_mono (Nat.le_max_left _ _) (h1 _ _ _ hr))
    (Nat.le_trans (Nat.le_max_right _ _) (Nat.le_max_right _ _))
    (argsAtMost_mono (Nat.le_trans (Nat.le_max_left _ _) (Nat.le_max_right _ _)) h2)
    ((C52_diff_exact T p hm e x d).1 hd)).1

theorem simplecas_rhs {h : Expr} {params : List Expr} {sym rhs : Expr}
    (hr : .rule (.node (h :: params)) sym rhs ∈ simplecasTable.told) :
    ownNodes params rhs ≤ 4 ∧ ArgsAtMost 2 rhs := by
  have hmem : (params, rhs) ∈ ([([wild "a", wild "b"],
      mul (wild "b") (pow (wild "a") (add (wild "b") negone))),
      ([wild "a"], mul negone (sin (wild "a"))), ([wild "a"], cos (wild "a"))] :
      List (List Expr × Expr)) := by
    simp only [simplecasTable, List.mem_cons, List.not_mem_nil, or_false, reduceCtorEq,
      false_or] at hr
    rcases hr with hr | hr | hr <;> cases hr <;> simp
  have hall : ∀ q ∈ ([([wild "a", wild "b"],
      mul (wild "b") (pow (wild "a") (add (wild "b") negone))),
      ([wild "a"], mul negone (sin (wild "a"))), ([wild "a"], cos (wild "a"))] :
      List (List Expr × Expr)),
      ownNodes q.1 q.2 ≤ 4 ∧ ∀ t ∈ distinct q.2, (kids false t).length ≤ 2 := by
    decide +kernel
  obtain ⟨h1, h2⟩ := hall _ hmem
  exact ⟨h1, fun t ht => h2 t (mem_distinct.2 ht)⟩

/-- **C56, simplecas.** `e.diff(x)` has at most `2 + 2N + 5E` distinct subexpressions, where `N`
and `E` are the numbers of distinct subexpressions of `e` and of their arguments. -/
theorem C56_diff_builtin (e x d : Expr) (hd : e.diff x = .ok d) :
    countOpsGraph d ≤ 2 + 2 * countOpsGraph e + 5 * edges e := by
  have := C56_diff simplecasTable builtinDiff C52_builtin 4
    (fun h params sym rhs hr => (simplecas_rhs hr).1) e x d hd
  have hz : countOpsGraph simplecasTable.zero = 1 := by decide +kernel
  have ho : countOpsGraph simplecasTable.one = 1 := by decide +kernel
  omega

theorem iter_size {k : Nat} (hk : 2 ≤ k) (x : Expr) (n : Nat) (e d : Expr) (he : ArgsAtMost k e)
    (hd : iterPy (fun deriv => SymDifferentiator.call builtinDiff deriv x 1) n e = .ok d) :
    nodes d ≤ (5 * k + 4) ^ n * nodes e ∧ ArgsAtMost k d := by
  induction n generalizing e with
  | zero =>
    obtain rfl := Except.ok.inj hd
    exact ⟨by simp, he⟩
  | succ n ih =>
    rw [iterPy] at hd
    cases h1 : SymDifferentiator.call builtinDiff e x 1 with
    | error err => rw [h1] at hd; cases hd
    | ok d1 =>
      rw [h1] at hd
      have hd1 : e.diff x = .ok d1 := by
        unfold Expr.diff
        change iterPy _ 1 e = _
        rw [iterPy, h1]
        rfl
      obtain ⟨g1, g2⟩ := derives_size C52_builtin (R := 4) (k := k)
        (fun h params sym rhs hr => (simplecas_rhs hr).1)
        (fun h params sym rhs hr => argsAtMost_mono hk (simplecas_rhs hr).2) hk he
        ((C52_diff_exact _ _ C52_builtin e x d1).1 hd1)
      have hleaf : ∀ n, ArgsAtMost k (integer n) := by
        intro n t ht
        rw [argSub_leaf rfl ht]
        exact Nat.zero_le _
      have hd1' := g2 (hleaf 0) (hleaf 1)
      obtain ⟨a1, a2⟩ := ih d1 hd1' hd
      refine ⟨?_, a2⟩
      have hz : nodes simplecasTable.zero = 1 := by decide +kernel
      have ho : nodes simplecasTable.one = 1 := by decide +kernel
      have he2 := edges_le he
      have hp := nodes_pos e
      have : nodes d1 ≤ (5 * k + 4) * nodes e := by
        have h5 : (4 + 1) * edges e ≤ (4 + 1) * (k * nodes e) := Nat.mul_le_mul_left _ he2
        have h6 : (5 * k + 4) * nodes e = 5 * (k * nodes e) + 4 * nodes e := by
          rw [Nat.add_mul, Nat.mul_assoc]
        omega
      refine Nat.le_trans a1 ?_
      rw [Nat.pow_succ, Nat.mul_assoc]
      exact Nat.mul_le_mul_left _ this

/-- **C56, repeated differentiation.** The order of the derivative, not the size of the tree form,
determines the growth; and the arguments do not become more (beyond two). -/
theorem C56_diff_repeated (k : Nat) (hk : 2 ≤ k) (e x d : Expr) (n : Nat) (he : ArgsAtMost k e)
    (hd : e.diff x n = .ok d) :
    countOpsGraph d ≤ (5 * k + 4) ^ n * countOpsGraph e ∧ ArgsAtMost k d := by
  simp only [countOpsGraph_eq]
  unfold Expr.diff at hd
  rw [Int.toNat_natCast] at hd
  exact iter_size hk x n e d he hd

/-- The expression has 10 distinct subexpressions, its derivative 26 (203 in the tree form). -/
example : ((Expr.diff (squareFamily x 4) x).map fun d => (countOpsGraph d, countOpsTree d)) =
    .ok (26, .ok 203) ∧ countOpsGraph (squareFamily x 4) = 10 ∧ edges (squareFamily x 4) = 16 := by
  have h : Expr.diff (squareFamily x 4) x =
      .ok (match Expr.diff (squareFamily x 4) x with | .ok d => d | .error _ => x) := by
    decide +kernel
  rw [h]
  simp only [Except.map, Except.ok.injEq, Prod.mk.injEq]
  decide +kernel

/-- Second derivative of `(x**2 + x)**2 + (x**2 + x)`. -/
example : ArgsAtMost 2 (squareFamily x 2) ∧
    (∃ d, Expr.diff (squareFamily x 2) x (2 : Nat) = .ok d ∧ countOpsGraph d = 24) ∧
    countOpsGraph (squareFamily x 2) = 6 := by
  refine ⟨fun t ht => ?_, ?_, by decide +kernel⟩
  · have : ∀ t ∈ distinct (squareFamily x 2), (kids false t).length ≤ 2 := by decide +kernel
    exact this t (mem_distinct.2 ht)
  · have h : Expr.diff (squareFamily x 2) x (2 : Nat) =
        .ok (match Expr.diff (squareFamily x 2) x (2 : Nat) with | .ok d => d | .error _ => x) := by
      decide +kernel
    exact ⟨_, h, by decide +kernel⟩

/-- A program's own rule `diff[f(a), a] = sin(a)*f(a)` (3 own subexpressions): `f(f(x))` has 3
distinct subexpressions, its derivative 8. -/
example : ownNodes [wild "a"] (mul (sin (wild "a")) (f.call [wild "a"])) = 3 ∧
    ((SymDifferentiator.setItem (SymDifferentiator.new addH mulH zero one)
      (f.call [wild "a"]) (wild "a") (mul (sin (wild "a")) (f.call [wild "a"]))).bind fun p =>
        (Expr.diff (f.call [f.call [x]]) x 1 p).map countOpsGraph) = .ok 8 := by
  decide +kernel

/-! ### Substitution -/

section
variable {V : Type} [DecidableEq V]

theorem nodes_subst (σ : Tree V → Option (Tree V)) (e : Tree V) (vals : List (Tree V))
    (h : ∀ k v, σ k = some v → v ∈ vals) :
    nodes (subst σ e) ≤ nodes e + (vals.map nodes).sum := by
  have hc : ∀ u, ArgSub (subst σ e) u →
      u ∈ (distinct e).map (subst σ) ++ vals.flatMap distinct := by
    intro u hu
    rcases argSub_subst e hu with ⟨t, ht, _, rfl⟩ | ⟨k, v, _, hv, hu⟩
    · exact List.mem_append_left _ (List.mem_map.2 ⟨t, mem_distinct.2 ht, rfl⟩)
    · exact List.mem_append_right _ (List.mem_flatMap.2 ⟨v, h k v hv, mem_distinct.2 hu⟩)
  refine Nat.le_trans (nodes_le_of_cover hc) ?_
  rw [List.length_append, List.length_map, List.length_flatMap]
  exact Nat.le_refl _

theorem le_sum_of_mem {vals : List (Tree V)} {v : Tree V} (h : v ∈ vals) :
    nodes v ≤ (vals.map nodes).sum := by
  induction vals with
  | nil => cases h
  | cons w vals ih =>
    rw [List.map_cons, List.sum_cons]
    rcases List.mem_cons.1 h with rfl | h
    · omega
    · have := ih h; omega

/-- **C56, substitution.** The distinct subexpressions of the result are at most those of the
expression plus those of the values. -/
theorem C56_subs (e : Tree V) (params values : List (Tree V)) (f : SubsFunc V) (r : Tree V)
    (hf : SubsFunc.new e params = .ok f) (hr : f.call values = .ok r) :
    nodes r ≤ nodes e + (values.map nodes).sum := by
  have hlen : values.length = params.length := by
    obtain ⟨f', h1, h2, _⟩ := C12_subs_total e params
    obtain rfl := Except.ok.inj (hf.symm.trans h1)
    refine Decidable.byContradiction fun hne => ?_
    rw [h2 values hne] at hr
    cases hr
  by_cases he : e ∈ params
  · obtain ⟨f', h1, h2⟩ := C11_whole_expression e params he
    obtain rfl := Except.ok.inj (hf.symm.trans h1)
    rw [h2 values hlen] at hr
    have hm : r ∈ values := by
      unfold pyLast at hr
      split at hr
      · rename_i h; obtain rfl := Except.ok.inj hr; exact List.mem_of_getLast? h
      · cases hr
    have := le_sum_of_mem hm
    omega
  · obtain ⟨f', h1, h2⟩ := C11_subs_simultaneous_partial e params (.inl he)
    obtain rfl := Except.ok.inj (hf.symm.trans h1)
    rw [h2 values hlen] at hr
    obtain rfl := Except.ok.inj hr
    refine nodes_subst _ e values fun k v hv => ?_
    have : (k, v) ∈ params.zip values := lastAssoc_mem hv
    exact (List.of_mem_zip this).2

end

/-- **C56, `xreplace`.** -/
theorem C56_xreplace (e r : Expr) (reps : Dict PyObj PyObj) (vals : List Expr)
    (hv : reps.vals.mapM expressify = .ok vals) (hr : xreplace e reps = .ok r) :
    countOpsGraph r ≤ countOpsGraph e + (vals.map countOpsGraph).sum := by
  have : (vals.map countOpsGraph) = vals.map nodes := List.map_congr_left fun t _ => countOpsGraph_eq t
  rw [this, countOpsGraph_eq, countOpsGraph_eq]
  unfold xreplace asFunction exprFunctionNew exprFunctionCall at hr
  simp only [expressify, bind, Except.bind] at hr
  cases hk : reps.keys.mapM expressify with
  | error err => rw [hk] at hr; cases hr
  | ok ks =>
    rw [hk] at hr
    simp only at hr
    cases hf : SubsFunc.new e ks with
    | error err => rw [hf] at hr; cases hr
    | ok f =>
      rw [hf, hv] at hr
      exact C56_subs e ks vals f r hf hr

/-- `sin(x) + x` with `x` replaced by `y*y` has 4 distinct subexpressions: at most 3 + 2. -/
example : ((xreplace (add (sin x) x) (Dict.ofPairs [(.expr x, .expr (mul y y))])).map countOpsGraph)
      = .ok 4 ∧ countOpsGraph (add (sin x) x) = 3 ∧ countOpsGraph (mul y y) = 2 := by
  decide +kernel

/-! ### `bin_expand` and generated code -/

theorem argSub_leftNest (h : Expr) : ∀ (as : List Expr) (a : Expr),
    ∃ L : List Expr, L.length ≤ as.length ∧
      ∀ u, ArgSub (leftNest h a as) u → u ∈ L ∨ ArgSub a u ∨ ∃ b ∈ as, ArgSub b u := by
  intro as
  induction as with
  | nil => exact fun a => ⟨[], by simp, fun u hu => .inr (.inl hu)⟩
  | cons b bs ih =>
    intro a
    obtain ⟨L, l1, l2⟩ := ih (.node [h, a, b])
    refine ⟨.node [h, a, b] :: L, by simp only [List.length_cons]; omega, fun u hu => ?_⟩
    rcases l2 u hu with h' | h' | ⟨c, hc, h'⟩
    · exact .inl (List.mem_cons_of_mem _ h')
    · rcases argSub_node.1 h' with rfl | ⟨c, hc, h''⟩
      · exact .inl List.mem_cons_self
      · simp only [List.mem_cons, List.not_mem_nil, or_false] at hc
        rcases hc with rfl | rfl
        · exact .inr (.inl h'')
        · exact .inr (.inr ⟨_, List.mem_cons_self, h''⟩)
    · exact .inr (.inr ⟨c, List.mem_cons_of_mem _ hc, h'⟩)

theorem binExpandsAll_member {args args' : List Expr} (h : BinExpandsAll args args') {d : Expr}
    (hd : d ∈ args') : ∃ a ∈ args, BinExpands a d := by
  induction args' generalizing args with
  | nil => cases hd
  | cons d' ds ih =>
    cases h with
    | cons h1 h2 =>
      rcases List.mem_cons.1 hd with rfl | hd
      · exact ⟨_, List.mem_cons_self, h1⟩
      · obtain ⟨a, ha, hda⟩ := ih h2 hd
        exact ⟨a, List.mem_cons_of_mem _ ha, hda⟩

theorem binExpandsAll_len {args args' : List Expr} (h : BinExpandsAll args args') :
    args'.length = args.length := by
  induction args' generalizing args with
  | nil => cases h; rfl
  | cons d ds ih =>
    cases h with
    | cons h1 h2 => simp [ih h2]

/-- **C56, `bin_expand`.** -/
theorem C56_bin_expand (e u : Expr) (h : binExpand e = .ok u) :
    countOpsGraph u ≤ countOpsGraph e + edges e := by
  rw [countOpsGraph_eq, countOpsGraph_eq]
  have hdet : ∀ t d d', BinExpands t d → BinExpands t d' → d = d' := by
    intro t d d' h1 h2
    have h1 := (C20_bin_expand_nests t d).2 h1
    have h2 := (C20_bin_expand_nests t d').2 h2
    exact Except.ok.inj (h1.symm.trans h2)
  have hcov := (cover e BinExpands hdet [] (fun t => 1 + 1 * (kids false t).length) (fun _ => True)
    ?_ ((C20_bin_expand_nests e u).1 h)).1
  · rw [sum_affine, Nat.one_mul] at hcov
    simpa [nodes, edges] using hcov
  · intro t _ht d hd
    cases hd with
    | atom =>
      rename_i a
      refine ⟨[.atom a], by simp, by simp, fun u hu => .inl ?_⟩
      rw [argSub_leaf rfl hu]
      exact List.mem_cons_self
    | other _h1 h2 =>
      rename_i h args args'
      refine ⟨[.node (h :: args')], by simp, by simp, fun u hu => ?_⟩
      rcases argSub_node.1 hu with rfl | ⟨d, hd, hu⟩
      · exact .inl List.mem_cons_self
      · obtain ⟨a, ha, hda⟩ := binExpandsAll_member h2 hd
        exact .inr (.inr ⟨a, ha, d, hda, hu⟩)
    | nest _h1 h2 =>
      rename_i h args a as
      obtain ⟨L, l1, l2⟩ := argSub_leftNest h as a
      have hlen := binExpandsAll_len h2
      refine ⟨L, ?_, by simp, fun u hu => ?_⟩
      · simp only [kids, Bool.false_eq_true, if_false]
        simp only [List.length_cons] at hlen
        omega
      · rcases l2 u hu with h' | h' | ⟨b, hb, h'⟩
        · exact .inl h'
        · obtain ⟨c, hc, hda⟩ := binExpandsAll_member h2 (List.mem_cons_self (a := a))
          exact .inr (.inr ⟨c, hc, a, hda, h'⟩)
        · obtain ⟨c, hc, hda⟩ := binExpandsAll_member h2 (List.mem_cons_of_mem a hb)
          exact .inr (.inr ⟨c, hc, b, hda, h'⟩)

theorem opsLoop_length (ops : List (Expr × List Nat)) (ids : List String) (instrs : List Instr)
    (r : List String × List Instr) (h : llvmOpsLoop ids instrs ops = .ok r) :
    r.2.length = instrs.length + ops.length := by
  induction ops generalizing ids instrs with
  | nil =>
    rw [llvmOpsLoop] at h
    obtain rfl := Except.ok.inj h
    rfl
  | cons o ops ih =>
    obtain ⟨func, indices⟩ := o
    rw [llvmOpsLoop] at h
    simp only [bind, Except.bind] at h
    split at h
    · cases h
    · split at h
      · cases h
      · have := ih _ _ h
        simp only [List.length_append, List.length_cons, List.length_nil] at this ⊢
        omega

theorem operations_length {e : Expr} {g : ForwardGraph Val} (h : forwardGraph e = .ok g) :
    g.operations.length ≤ countOpsGraph e := by
  rw [forwardGraph_eq] at h
  obtain rfl := Except.ok.inj h
  simp only [List.length_map]
  exact List.length_filter_le _ _

/-- **C56, generated code.** The number of instructions is at most linear in the graph. -/
theorem C56_code (symargs : List Expr) (e : Expr) (fn : IRFunction)
    (h : toLlvm symargs e = .ok fn) :
    fn.body.length ≤ countOpsGraph e + edges e + 1 := by
  unfold toLlvm at h
  simp only [bind, Except.bind] at h
  split at h
  · cases h
  · rename_i u hu
    have hu := C56_bin_expand e u hu
    split at h
    · cases h
    · rename_i g hg
      have hg := operations_length hg
      repeat' (split at h <;> try cases h)
      rename_i _ _ _ _ _ hl _ _ _
      simp only [List.length_append, List.length_cons, List.length_nil]
      have := opsLoop_length _ _ _ _ hl
      simp only [List.length_nil] at this
      omega

/-- `x + y + x + 1` in one sum: 4 distinct subexpressions and 4 arguments; 6 when binary, three
additions and a return when compiled. -/
example : let e : Expr := .node [addH, x, y, x, one]
    ((binExpand e).map countOpsGraph) = .ok 6 ∧ countOpsGraph e = 4 ∧ edges e = 4 ∧
    ((toLlvm [x, y] e).map fun fn => fn.body.length) = .ok 4 := by
  decide +kernel

theorem storeLoop_length (ncols : Nat) (ids : List String) (indices : List Nat)
    (entries : List ((Nat × Nat) × Nat)) (c : Nat) (instrs r : List Instr)
    (h : llvmStoreLoop ncols ids indices c instrs entries = .ok r) :
    r.length = instrs.length + 2 * entries.length := by
  induction entries generalizing c instrs with
  | nil =>
    rw [llvmStoreLoop] at h
    obtain rfl := Except.ok.inj h
    rfl
  | cons p entries ih =>
    obtain ⟨⟨i, j⟩, n⟩ := p
    rw [llvmStoreLoop] at h
    simp only [bind, Except.bind] at h
    split at h
    · cases h
    · split at h
      · cases h
      · have := ih _ _ h
        simp only [List.length_append, List.length_cons, List.length_nil] at this ⊢
        omega

/-- **C56, generated code of a matrix.** Subexpressions shared between entries are computed
once; two instructions store an entry. -/
theorem C56_code_matrix (symargs : List Expr) (m : Mat) (fn : IRFunction)
    (h : toLlvmMatrix symargs m = .ok fn) :
    fn.body.length ≤ countOpsGraph m.elementsGraph + edges m.elementsGraph +
      2 * m.entrymap.items.length + 1 := by
  unfold toLlvmMatrix at h
  simp only [bind, Except.bind] at h
  split at h
  · cases h
  · rename_i u hu
    have hu := C56_bin_expand _ u hu
    split at h
    · cases h
    · rename_i g hg
      have hg := operations_length hg
      repeat' (split at h <;> try cases h)
      rename_i _ _ _ _ _ hl _ _ _ _ _ hs
      simp only [List.length_append, List.length_cons, List.length_nil]
      have h1 := opsLoop_length _ _ _ _ hl
      have h2 := storeLoop_length _ _ _ _ _ _ _ hs
      simp only [List.length_nil, List.length_dropLast, List.length_mergeSort] at h1 h2
      omega

/-- `Matrix([[x*y, x*y + 1]])`: the product is computed once; three instructions with the addition
and the return, four for storing.  Its derivative by `x`. -/
example : ∃ m, Mat.new (.list [.list [.expr (mul x y), .expr (add (mul x y) one)]]) = .ok m ∧
    ((toLlvmMatrix [x, y] m).map fun fn => fn.body.length) = .ok 7 ∧
    countOpsGraph m.elementsGraph = 6 ∧ edges m.elementsGraph = 6 ∧
    ((m.diff (.expr x)).map fun m' => countOpsGraph m'.elementsGraph) = .ok 4 := by
  refine ⟨Mat.mk' 1 2 [mul x y, add (mul x y) one] ⟨[((0, 0), 0), ((0, 1), 1)]⟩, by decide +kernel,
    ?_, by decide +kernel, by decide +kernel, by decide +kernel⟩
  have h : ([((0, 0), 0), ((0, 1), 1)] : List ((Nat × Nat) × Nat)).mergeSort entryLe =
      [((0, 0), 0), ((0, 1), 1)] := List.mergeSort_of_pairwise (by decide)
  simp only [toLlvmMatrix, Mat.mk', h]
  decide +kernel

theorem derives_distributive {T : DiffTable} {x h d : Expr} {args : List Expr}
    (hh : T.Distributive h) (hd : Derives T x (.node (h :: args)) d) :
    ∃ ds, d = .node (h :: ds) := by
  generalize ht : (.node (h :: args) : Expr) = t at hd
  cases hd with
  | self hc => subst ht; cases hc
  | constant hc _ => subst ht; cases hc
  | distributive _ _ => cases ht; exact ⟨_, rfl⟩
  | sum hn _ => cases ht; exact absurd hh hn
  | product hn _ _ => cases ht; exact absurd hh hn
  | chain hn _ _ _ _ => cases ht; exact absurd hh hn

/-- **C56, derivative of a matrix.** -/
theorem C56_matrix_diff (m m' : Mat) (hm : MatHistory m) (x : PyObj) (h : m.diff x = .ok m') :
    countOpsGraph m'.elementsGraph ≤
      2 + 2 * countOpsGraph m.elementsGraph + 5 * edges m.elementsGraph := by
  have hw := history_wf hm
  unfold Mat.diff at h
  cases x with
  | expr x =>
    simp only [bind, Except.bind] at h
    split at h
    · cases h
    · rename_i d hd
      have hb := C56_diff_builtin _ x d hd
      obtain rfl := Except.ok.inj h
      have hder := (C52_diff_exact _ _ C52_builtin _ x d).1 hd
      rw [hw.graph] at hder
      have hdist : simplecasTable.Distributive listH := by
        simp [DiffTable.Distributive, simplecasTable]
      obtain ⟨ds, rfl⟩ := derives_distributive hdist hder
      exact hb
  | _ => cases h

end Verif.Props
