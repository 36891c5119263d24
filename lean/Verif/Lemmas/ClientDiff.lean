import Verif.Lemmas.ClientTree

/-!
# The programs of `Model/ClientTree.lean` on values: substitution and differentiation
-/

set_option linter.unusedSectionVars false

namespace Verif.Store
open List (Forall₂)
variable {V K α β A B : Type} [DecidableEq K] [PyVal V K] {vals vals' : List (Ex K)}

/-! ### `SubsFunc` -/

theorem SubsAt.mono {f : Prog.SubsH} {F : SubsFunc K} (h : SubsAt vals f F) (hp : vals <+: vals') :
    SubsAt vals' f F := ⟨h.nargs, h.atoms.mono hp, h.operations⟩

/-- The variables of the two loops. -/
structure SubsStateAt (vals : List (Ex K)) (s : Prog.SubsStateH) (S : SubsState K) : Prop where
  atoms : Ats vals s.atoms S.atoms
  nodes : Ats vals s.nodes S.nodes
  hasArgs : Ats vals s.hasArgs S.hasArgs
  nodeChildren : Ats vals s.nodeChildren S.nodeChildren

theorem SubsStateAt.mono {s : Prog.SubsStateH} {S : SubsState K} (h : SubsStateAt vals s S)
    (hp : vals <+: vals') : SubsStateAt vals' s S :=
  ⟨h.atoms.mono hp, h.nodes.mono hp, h.hasArgs.mono hp, h.nodeChildren.mono hp⟩

theorem computes_subsLoop : ∀ (hs : List Nat) (ts : List (Tree K)) (s : Prog.SubsStateH)
    (S : SubsState K) (vals : List (Ex K)), Ats vals hs ts → SubsStateAt vals s S →
    Computes vals (Prog.subsLoop s hs : Prog V K Prog.SubsStateH) SubsStateAt
      (.ok (ts.foldl subsStep S)) := by
  intro hs
  induction hs with
  | nil => intro ts s S vals ha h; cases ha; exact .ret h
  | cons n hs ih =>
    intro ts s S vals ha h
    cases ha with
    | @cons _ t _ ts h1 h2 =>
      refine Computes.bindOk (computes_children h1) ?_
      intro v cs hp hcs
      have hm := h.mono hp
      rw [List.foldl_cons]
      unfold subsStep
      by_cases hc : t.children = []
      · have : cs = [] := by rw [hc] at hcs; cases hcs; rfl
        simp only [hc, this, if_true, ne_eq, not_true_eq_false, if_false]
        exact ih ts _ _ v (Ats.mono h2 hp)
          ⟨hm.atoms.append (.one (h1.mono hp)), hm.nodes, hm.hasArgs, hm.nodeChildren⟩
      · have : cs ≠ [] := by
          rintro rfl
          apply hc
          have := hcs.length
          simp at this
          exact List.length_eq_zero_iff.1 this.symm
        simp only [hc, this, if_false, ne_eq, not_false_eq_true, if_true]
        refine Computes.bindOk (computes_anyOf (vals := v) (F := fun c => decide (c ∈ S.hasArgs))
          (fun v' a b hp' hab => computes_mem hab (hm.hasArgs.mono hp')) v cs t.children
          (List.prefix_refl _) hcs) ?_
        rintro v' _ hp' rfl
        have hm' := hm.mono hp'
        have hq := hp.trans hp'
        split
        · exact ih ts _ _ v' (Ats.mono h2 hq)
            ⟨hm'.atoms, hm'.nodes.append (.one (h1.mono hq)), .cons (h1.mono hq) hm'.hasArgs,
              (Ats.mono hcs hp').append hm'.nodeChildren⟩
        · exact ih ts _ _ v' (Ats.mono h2 hq)
            ⟨hm'.atoms.append (.one (h1.mono hq)), hm'.nodes, hm'.hasArgs, hm'.nodeChildren⟩

theorem computes_subsOpsLoop : ∀ (hs : List Nat) (ts : List (Tree K)) (index : Nat)
    (d : List (Nat × Nat)) (D : Dict (Tree K) Nat) (ops : List (List Nat)) (vals : List (Ex K)),
    Ats vals hs ts → DictAt vals d D →
    Computes vals (Prog.subsOpsLoop index d ops hs : Prog V K (List (List Nat))) (fun _ a b => a = b)
      (Verif.subsOpsLoop index D ops ts) := by
  intro hs
  induction hs with
  | nil => intro ts index d D ops vals ha hd; cases ha; exact .ret rfl
  | cons n hs ih =>
    intro ts index d D ops vals ha hd
    cases ha with
    | @cons _ t _ ts h1 h2 =>
      refine Computes.bindOk (computes_children h1) ?_
      intro v cs hp hcs
      unfold Verif.subsOpsLoop
      have hd' := (hd.mono hp).set (h1.mono hp) index
      refine Computes.bind (computes_indices hd' hcs) ?_
      rintro v2 is _ hp2 rfl
      exact ih ts _ _ _ _ v2 (Ats.mono h2 (hp.trans hp2)) (hd'.mono hp2)

theorem ats_nil_iff {hs : List Nat} {ts : List (Tree K)} (h : Ats vals hs ts) : hs = [] ↔ ts = [] := by
  rw [← List.length_eq_zero_iff, ← List.length_eq_zero_iff, h.length]

theorem computes_subsNew {e : Nat} {t : Tree K} {args : List Nat} {Args : List (Tree K)}
    (he : At vals e t) (ha : Ats vals args Args) :
    Computes vals (Prog.subsNew e args : Prog V K Prog.SubsH) SubsAt (SubsFunc.new t Args) := by
  unfold SubsFunc.new
  refine Computes.bindOk (computes_sort true ha he) ?_
  intro v subs hp hsubs
  refine Computes.bindOk (computes_subsLoop subs _ _ ⟨[], [], Args, []⟩ v hsubs
    ⟨.nil, .nil, ha.mono hp, .nil⟩) ?_
  intro v1 s hp1 hs
  have hq1 := hp.trans hp1
  simp only
  generalize List.foldl subsStep ⟨[], [], Args, []⟩ (topologicalSort true Args t) = S at hs ⊢
  have hatoms : Computes v1 (Prog.subsAtoms e s : Prog V K (List Nat)) Ats
      (.ok (if S.atoms ≠ [] ∧ S.nodes = [] then [t]
        else S.atoms.filter (fun a => decide (a ∈ S.nodeChildren)))) := by
    have hc : (s.atoms ≠ [] ∧ s.nodes = []) ↔ (S.atoms ≠ [] ∧ S.nodes = []) := by
      rw [ne_eq, ne_eq, ats_nil_iff hs.atoms, ats_nil_iff hs.nodes]
    unfold Prog.subsAtoms
    by_cases h : S.atoms ≠ [] ∧ S.nodes = []
    · rw [if_pos h, if_pos (hc.2 h)]
      exact .ret (.one (he.mono hq1))
    · rw [if_neg h, if_neg (fun h' => h (hc.1 h'))]
      exact computes_keep (vals := v1) (fun v a b hv hab => computes_mem hab (hs.nodeChildren.mono hv))
        v1 _ _ (List.prefix_refl _) hs.atoms
  refine Computes.bindOk hatoms ?_
  intro v2 atoms hp2 hat
  have hq2 := hq1.trans hp2
  simp only [ha.length, hat.length]
  refine Computes.bind (computes_subsOpsLoop _ _ _ _ _ _ v2 (hs.nodes.mono hp2) ?_) ?_
  · have h1 := (DictAt.empty (vals := v2) (W := Nat)).indexed 0 (ha.mono hq2)
    have h2 := h1.indexed Args.length hat
    simpa [Dict.ofPairs, List.range_eq_range'] using h2
  · rintro v3 ops _ hp3 rfl
    exact .pure ⟨rfl, hat.mono hp3, rfl⟩

theorem computes_gets {stack is : List Nat} {Stack : List (Tree K)} (hs : Ats vals stack Stack) :
    Computes vals (Prog.each (fun i => Prog.ofPy (pyGet stack i)) is : Prog V K (List Nat)) Ats
      (is.mapM (fun i => pyGet Stack i)) := by
  refine computes_each (vals := vals) (relI := fun _ a b => a = b) (relO := At) (fun h _ => h)
    (fun h hp => h.mono hp) ?_ vals is is (List.prefix_refl _) ?_
  · rintro v a _ hp rfl
    exact Computes.ofPy (pyGet_rel (hs.mono hp) a)
  · exact List.forall₂_refl is

theorem computes_subsCallLoop : ∀ (ops : List (List Nat)) (stack : List Nat) (Stack : List (Tree K))
    (vals : List (Ex K)), Ats vals stack Stack →
    Computes vals (Prog.subsCallLoop stack ops : Prog V K (List Nat)) Ats
      (Verif.subsCallLoop Stack ops) := by
  intro ops
  induction ops with
  | nil => intro stack Stack vals h; exact .ret h
  | cons is ops ih =>
    intro stack Stack vals h
    unfold Prog.subsCallLoop Verif.subsCallLoop
    refine Computes.bind (computes_gets h) ?_
    intro v cs Cs hp hcs
    refine Computes.bindOk (computes_tree hcs) ?_
    intro v1 n hp1 hn
    exact ih _ _ v1 ((h.mono (hp.trans hp1)).append (.one hn))

theorem computes_subsCall {f : Prog.SubsH} {F : SubsFunc K} {args : List Nat} {Args : List (Tree K)}
    (hf : SubsAt vals f F) (ha : Ats vals args Args) :
    Computes vals (Prog.subsCall f args : Prog V K Nat) At (F.call Args) := by
  unfold Prog.subsCall SubsFunc.call
  rw [ha.length, hf.nargs, hf.operations]
  split
  · exact .raise
  · refine Computes.bind (computes_subsCallLoop _ _ _ vals (ha.append hf.atoms)) ?_
    intro v stack Stack hp hs
    exact Computes.ofPy (pyLast_rel hs)

/-! ### `diff_forward` -/

theorem RulesAt.mono {d : List (Nat × Nat × Prog.SubsH)} {D : Dict (Tree K × Nat) (SubsFunc K)}
    (h : RulesAt vals d D) (hp : vals <+: vals') : RulesAt vals' d D := by
  obtain ⟨l, h1, h2⟩ := h
  exact ⟨l, h1.imp (fun _ _ h => ⟨h.1.mono hp, h.2.1, h.2.2.mono hp⟩), h2⟩

theorem DiffAt.mono {p : Prog.DiffH} {P : DiffProps K} (h : DiffAt vals p P) (hp : vals <+: vals') :
    DiffAt vals' p P :=
  ⟨h.zero.mono hp, h.one.mono hp, h.add.mono hp, h.mul.mono hp, h.distributive.mono hp,
    h.diffRules.mono hp⟩

theorem computes_getRule {func n : Nat} {Func : Tree K} (hf : At vals func Func)
    {d : List (Nat × Nat × Prog.SubsH)} {D : Dict (Tree K × Nat) (SubsFunc K)}
    (h : RulesAt vals d D) :
    Computes vals (Prog.getRule func n d : Prog V K Prog.SubsH) SubsAt
      (D.getItem (Func, n)) := by
  obtain ⟨l, h, hl⟩ := h
  have heq : D.getItem (Func, n) = Dict.getItem ⟨l⟩ (Func, n) := by
    unfold Dict.getItem
    rw [← hl]; rfl
  rw [heq]
  clear hl heq
  induction h with
  | nil => exact .raise
  | @cons r R d D hr _ ih =>
    obtain ⟨h0, m, f⟩ := r
    obtain ⟨⟨H0, m'⟩, F⟩ := R
    obtain ⟨g1, g2, g3⟩ := hr
    simp only at g1 g2 g3
    subst g2
    unfold Prog.getRule
    refine computes_same g1 hf ?_
    unfold Dict.getItem Dict.get?
    simp only [Dict.lookup]
    by_cases hk : H0 = Func ∧ m = n
    · obtain ⟨rfl, rfl⟩ := hk
      simp only [decide_true, Bool.true_and, beq_self_eq_true, if_true]
      exact .ret g3
    · have h1 : ¬ ((decide (H0 = Func) && m == n) = true) := by
        simpa using hk
      have h2 : ¬ ((H0, m) = (Func, n)) := by simpa using hk
      rw [if_neg h1, if_neg h2]
      exact ih

theorem computes_productLoop {args : List Nat} {Args : List (Tree K)} {z mul : Nat} {Z Mul : Tree K} :
    ∀ (ds : List Nat) (Ds : List (Tree K)) (n : Nat) (terms : List Nat) (Terms : List (Tree K))
    (vals : List (Ex K)), Ats vals args Args → At vals z Z → At vals mul Mul → Ats vals ds Ds →
    Ats vals terms Terms →
    Computes vals (Prog.productLoop args z mul n terms ds : Prog V K (List Nat)) Ats
      (.ok (productRuleLoop Args Z Mul n Terms Ds)) := by
  intro ds
  induction ds with
  | nil => intro Ds n terms Terms vals ha hz hm hd ht; cases hd; exact .ret ht
  | cons d ds ih =>
    intro Ds n terms Terms vals ha hz hm hd ht
    cases hd with
    | @cons _ D _ Ds h1 h2 =>
      unfold Prog.productLoop productRuleLoop
      refine Computes.bindOk (computes_eq h1 hz) ?_
      rintro v _ hp rfl
      by_cases hD : D = Z
      · simp only [hD, decide_true, if_true, ne_eq, not_true_eq_false, if_false]
        exact ih Ds _ _ _ v (ha.mono hp) (hz.mono hp) (hm.mono hp) (Ats.mono h2 hp) (ht.mono hp)
      · simp only [hD, decide_false, Bool.false_eq_true, if_false, ne_eq, not_false_eq_true, if_true]
        have hfs : Ats v (args.take n ++ [d] ++ args.drop (n + 1))
            (Args.take n ++ [D] ++ Args.drop (n + 1)) :=
          (Ats.append (List.forall₂_take n (ha.mono hp)) (.one (h1.mono hp))).append
            (List.forall₂_drop (n + 1) (ha.mono hp))
        refine Computes.bindOk (computes_call (hm.mono hp) hfs) ?_
        intro v1 t hp1 ht1
        have hq := hp.trans hp1
        exact ih Ds _ _ _ v1 (ha.mono hq) (hz.mono hq) (hm.mono hq) (Ats.mono h2 hq)
          ((ht.mono hq).append (.one ht1))

theorem computes_chainLoop {p : Prog.DiffH} {P : DiffProps K} {func : Nat} {Func : Tree K}
    {args : List Nat} {Args : List (Tree K)} :
    ∀ (ds : List Nat) (Ds : List (Tree K)) (n : Nat) (terms : List Nat) (Terms : List (Tree K))
    (vals : List (Ex K)), DiffAt vals p P → At vals func Func → Ats vals args Args → Ats vals ds Ds →
    Ats vals terms Terms →
    Computes vals (Prog.chainLoop p func args n terms ds : Prog V K (List Nat)) Ats
      (chainRuleLoop Func Args P.zero P.one P.mul P.diffRules n Terms Ds) := by
  intro ds
  induction ds with
  | nil => intro Ds n terms Terms vals hP hf ha hd ht; cases hd; exact .ret ht
  | cons d ds ih =>
    intro Ds n terms Terms vals hP hf ha hd ht
    cases hd with
    | @cons _ D _ Ds h1 h2 =>
      unfold Prog.chainLoop chainRuleLoop
      refine Computes.bindOk (computes_eq h1 hP.zero) ?_
      rintro v _ hp rfl
      by_cases hD : D = P.zero
      · simp only [hD, decide_true, if_true, ne_eq, not_true_eq_false, if_false]
        exact ih Ds _ _ _ v (hP.mono hp) (hf.mono hp) (ha.mono hp) (Ats.mono h2 hp) (ht.mono hp)
      · simp only [hD, decide_false, Bool.false_eq_true, if_false, ne_eq, not_false_eq_true, if_true]
        refine Computes.bind (computes_getRule (hf.mono hp) (hP.mono hp).diffRules) ?_
        intro v1 f F hp1 hfF
        have hq1 := hp.trans hp1
        refine Computes.bind (computes_subsCall hfF (ha.mono hq1)) ?_
        intro v2 t T hp2 htT
        have hq2 := hq1.trans hp2
        refine Computes.bindOk (computes_eq (h1.mono hq2) (hP.mono hq2).one) ?_
        rintro v3 _ hp3 rfl
        have hq3 := hq2.trans hp3
        by_cases hO : D = P.one
        · simp only [hO, decide_true, if_true, not_true_eq_false, if_false]
          exact ih Ds _ _ _ v3 (hP.mono hq3) (hf.mono hq3) (ha.mono hq3) (Ats.mono h2 hq3)
            ((ht.mono hq3).append (.one (htT.mono hp3)))
        · simp only [hO, decide_false, Bool.false_eq_true, if_false, not_false_eq_true, if_true]
          refine Computes.bindOk (computes_call (hP.mono hq3).mul
            (.cons (htT.mono hp3) (.one (h1.mono hq3)))) ?_
          intro v4 u hp4 hu
          have hq4 := hq3.trans hp4
          exact ih Ds _ _ _ v4 (hP.mono hq4) (hf.mono hq4) (ha.mono hq4) (Ats.mono h2 hq4)
            ((ht.mono hq4).append (.one hu))

theorem computes_neq {h h' : Nat} {t t' : Tree K} (h1 : At vals h t) (h2 : At vals h' t') :
    Computes vals (do return !(← Prog.eq h h') : Prog V K Bool) (fun _ b c => b = c)
      (.ok (!decide (t = t'))) := by
  refine Computes.bindOk (computes_eq h1 h2) ?_
  rintro v _ hp rfl
  exact .pure rfl

theorem computes_isZeroSet {z : Nat} {Z : Tree K} {ds : List Nat} {Ds : List (Tree K)}
    (hz : At vals z Z) (hd : Ats vals ds Ds) :
    Computes vals (Prog.isZeroSet z ds : Prog V K Bool) (fun _ b c => b = c)
      (.ok (Verif.isZeroSet Z Ds)) := by
  refine Computes.bindOk (computes_anyOf (vals := vals) (F := fun d => !decide (d = Z))
    (fun v a b hv hab => computes_neq hab (hz.mono hv)) vals ds Ds (List.prefix_refl _) hd) ?_
  rintro v _ hp rfl
  refine .pure ?_
  have h1 : ds.isEmpty = Ds.isEmpty := by
    cases hd <;> rfl
  rw [h1, Verif.isZeroSet, List.all_eq_not_any_not]

theorem computes_diffTerms {p : Prog.DiffH} {P : DiffProps K} {func : Nat} {Func : Tree K}
    {args ds : List Nat} {Args Ds : List (Tree K)} (hP : DiffAt vals p P) (hf : At vals func Func)
    (ha : Ats vals args Args) (hd : Ats vals ds Ds) :
    Computes vals (Prog.diffTerms p func args ds : Prog V K (List Nat)) Ats
      (if Func ∈ P.distributive then pure [Func.call Ds]
        else if Verif.isZeroSet P.zero Ds then pure []
        else if Func = P.add then pure (Ds.filter (fun da => da ≠ P.zero))
        else if Func = P.mul then pure (productRuleForward Args Ds P.zero P.mul)
        else chainRuleForward Func Args Ds P.zero P.one P.mul P.diffRules) := by
  unfold Prog.diffTerms
  refine Computes.bindOk (computes_mem hf hP.distributive) ?_
  rintro v _ hp rfl
  by_cases h1 : Func ∈ P.distributive
  · simp only [h1, decide_true, if_true]
    refine Computes.bindOk (computes_call (hf.mono hp) (hd.mono hp)) ?_
    intro v1 t hp1 ht
    exact .pure (.one ht)
  simp only [h1, decide_false, Bool.false_eq_true, if_false]
  refine Computes.bindOk (computes_isZeroSet (hP.mono hp).zero (hd.mono hp)) ?_
  rintro v1 _ hp1 rfl
  have hq1 := hp.trans hp1
  by_cases h2 : Verif.isZeroSet P.zero Ds = true
  · simp only [h2, if_true]; exact .pure .nil
  simp only [h2]
  refine Computes.bindOk (computes_eq (hf.mono hq1) (hP.mono hq1).add) ?_
  rintro v2 _ hp2 rfl
  have hq2 := hq1.trans hp2
  by_cases h3 : Func = P.add
  · simp only [h3, decide_true, if_true]
    have := computes_keep (V := V) (vals := v2) (f := fun da => do return !(← Prog.eq da p.zero))
      (F := fun da => !decide (da = P.zero))
      (fun v a b hv hab => computes_neq hab ((hP.mono hq2).zero.mono hv)) v2 ds Ds
      (List.prefix_refl _) (hd.mono hq2)
    have he : (fun da => decide (da ≠ P.zero)) = (fun da => !decide (da = P.zero)) := by
      funext da; simp
    rw [he]
    exact this
  simp only [h3, decide_false, Bool.false_eq_true, if_false]
  refine Computes.bindOk (computes_eq (hf.mono hq2) (hP.mono hq2).mul) ?_
  rintro v3 _ hp3 rfl
  have hq3 := hq2.trans hp3
  by_cases h4 : Func = P.mul
  · simp only [h4, decide_true, if_true]
    exact computes_productLoop ds Ds 0 [] [] v3 (ha.mono hq3) (hP.mono hq3).zero (hP.mono hq3).mul
      (hd.mono hq3) .nil
  simp only [h4, decide_false, Bool.false_eq_true, if_false]
  exact computes_chainLoop ds Ds 0 [] [] v3 (hP.mono hq3) (hf.mono hq3) (ha.mono hq3) (hd.mono hq3) .nil

theorem computes_diffStep {p : Prog.DiffH} {P : DiffProps K} {func : Nat} {Func : Tree K}
    {args ds : List Nat} {Args Ds : List (Tree K)} (hP : DiffAt vals p P) (hf : At vals func Func)
    (ha : Ats vals args Args) (hd : Ats vals ds Ds) :
    Computes vals (Prog.diffStep p func args ds : Prog V K Nat) At
      (Verif.diffStep P Func Args Ds) := by
  have heq : Verif.diffStep P Func Args Ds =
      ((if Func ∈ P.distributive then pure [Func.call Ds]
        else if Verif.isZeroSet P.zero Ds then pure []
        else if Func = P.add then pure (Ds.filter (fun da => da ≠ P.zero))
        else if Func = P.mul then pure (productRuleForward Args Ds P.zero P.mul)
        else chainRuleForward Func Args Ds P.zero P.one P.mul P.diffRules : PyM (List (Tree K))) >>=
      fun diffTerms => match diffTerms with
        | [] => pure P.zero
        | [t] => pure t
        | ts => pure (P.add.call ts)) := by
    unfold Verif.diffStep
    simp only
    by_cases h1 : Func ∈ P.distributive
    · simp only [h1, if_true]; rfl
    by_cases h2 : Verif.isZeroSet P.zero Ds = true
    · simp only [h1, h2, if_true, if_false]; rfl
    by_cases h3 : Func = P.add
    · simp only [h1, h2, if_false]; simp only [h3, if_true]; rfl
    by_cases h4 : Func = P.mul
    · simp only [h1, h2, h3, if_false]; simp only [h4, if_true]; rfl
    · simp only [h1, h2, h3, h4, if_false]; rfl
  rw [heq]
  unfold Prog.diffStep
  refine Computes.bind (computes_diffTerms (V := V) hP hf ha hd) ?_
  intro v ts Ts hp hts
  cases hts with
  | nil => exact .pure (hP.mono hp).zero
  | cons h1 h2 =>
    cases h2 with
    | nil => exact .pure h1
    | cons h3 h4 => exact computes_call (hP.mono hp).add (.cons h1 (.cons h3 h4))

theorem computes_diffLoop {p : Prog.DiffH} {P : DiffProps K} :
    ∀ (ops : List (Nat × List Nat)) (Ops : List (Tree K × List Nat)) (stack dstack : List Nat)
    (Stack Dstack : List (Tree K)) (vals : List (Ex K)), DiffAt vals p P → OpsAt vals ops Ops →
    Ats vals stack Stack → Ats vals dstack Dstack →
    Computes vals (Prog.diffLoop p stack dstack ops : Prog V K (List Nat)) Ats
      (Verif.diffLoop P Stack Dstack Ops) := by
  intro ops
  induction ops with
  | nil => intro Ops stack dstack Stack Dstack vals hP ho hs hd; cases ho; exact .ret hd
  | cons op ops ih =>
    intro Ops stack dstack Stack Dstack vals hP ho hs hd
    cases ho with
    | @cons _ Op _ Ops h1 h2 =>
      obtain ⟨func, is⟩ := op
      obtain ⟨Func, is'⟩ := Op
      obtain ⟨g1, g2⟩ := h1
      simp only at g1 g2
      subst g2
      unfold Prog.diffLoop Verif.diffLoop
      refine Computes.bind (computes_gets hs) ?_
      intro v1 args Args hp1 ha
      refine Computes.bind (computes_gets (hd.mono hp1)) ?_
      intro v2 ds Ds hp2 hds
      have hq2 := hp1.trans hp2
      refine Computes.bindOk (computes_call (g1.mono hq2) (ha.mono hp2)) ?_
      intro v3 e hp3 he
      have hq3 := hq2.trans hp3
      refine Computes.bind (computes_diffStep (hP.mono hq3) (g1.mono hq3)
        (ha.mono (hp2.trans hp3)) (hds.mono hp3)) ?_
      intro v4 d D hp4 hdD
      have hq4 := hq3.trans hp4
      exact ih Ops _ _ _ _ v4 (hP.mono hq4) (OpsAt.mono h2 hq4) ((hs.mono hq4).append (.one (he.mono hp4)))
        ((hd.mono hq4).append (.one hdD))

theorem mapM_ok {α β : Type} (f : α → β) (l : List α) : l.mapM (fun a => (.ok (f a) : PyM β)) = .ok (l.map f) := by
  induction l with
  | nil => rfl
  | cons a l ih => rw [List.mapM_cons, ih]; rfl

theorem computes_seeds {p : Prog.DiffH} {P : DiffProps K} {sym : Nat} {Sym : Tree K}
    {es : List Nat} {Es : List (Tree K)} (hP : DiffAt vals p P) (hs : At vals sym Sym)
    (he : Ats vals es Es) :
    Computes vals (Prog.seeds p sym es : Prog V K (List Nat)) Ats
      (.ok (Es.map (fun e => if e = Sym then P.one else P.zero))) := by
  rw [← mapM_ok]
  refine computes_each (vals := vals) (relI := At) (relO := At) (fun h hp => h.mono hp)
    (fun h hp => h.mono hp) ?_ vals es Es (List.prefix_refl _) he
  intro v e E hp hE
  refine Computes.bindOk (computes_eq hE (hs.mono hp)) ?_
  rintro v1 _ hp1 rfl
  have hq := hp.trans hp1
  refine .pure ?_
  by_cases h : E = Sym
  · simp only [h, decide_true, if_true]; exact (hP.mono hq).one
  · simp only [h, decide_false, Bool.false_eq_true, if_false]; exact (hP.mono hq).zero

theorem computes_diff {p : Prog.DiffH} {P : DiffProps K} {e sym : Nat} {E Sym : Tree K}
    (hP : DiffAt vals p P) (he : At vals e E) (hs : At vals sym Sym) :
    Computes vals (Prog.diff p e sym : Prog V K Nat) At (diffForward E Sym P) := by
  unfold diffForward
  refine Computes.bind (computes_graph he) ?_
  intro v g G hp hg
  refine Computes.bindOk (computes_seeds (hP.mono hp) (hs.mono hp) hg.atoms) ?_
  intro v1 ds hp1 hds
  have hq1 := hp.trans hp1
  refine Computes.bind (computes_diffLoop _ _ _ _ _ _ v1 (hP.mono hq1) (hg.operations.mono hp1)
    (hg.atoms.mono hp1) hds) ?_
  intro v2 st St hp2 hst
  exact Computes.ofPy (pyLast_rel hst)

theorem computes_diffTimes {p : Prog.DiffH} {P : DiffProps K} {sym : Nat} {Sym : Tree K} :
    ∀ (n e : Nat) (E : Tree K) (vals : List (Ex K)), DiffAt vals p P → At vals e E → At vals sym Sym →
    Computes vals (Prog.diffTimes p sym n e : Prog V K Nat) At
      (iterPy (fun d => diffForward d Sym P) n E) := by
  intro n
  induction n with
  | zero => intro e E vals hP he hs; exact .ret he
  | succ n ih =>
    intro e E vals hP he hs
    unfold Prog.diffTimes iterPy
    refine Computes.bind (computes_diff hP he hs) ?_
    intro v d D hp hd
    exact ih d D v (hP.mono hp) hd (hs.mono hp)

end Verif.Store
