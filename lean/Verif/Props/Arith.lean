import Verif.Props.Eval
import Verif.Lemmas.Rules
import Verif.Spec.Arith

/-!
# C20 `bin_expand`, C21 operation counts, C40 operators, C41 `expressify`
-/

set_option linter.unusedSectionVars false

namespace Verif.Props
open Spec Expr

/-! ### C20 -/

theorem binExpandTransformer_eq :
    binExpandTransformer =
      { atoms := ⟨[]⟩,
        operations := ⟨[(addH, .seq (pyReduce Expr.add)), (mulH, .seq (pyReduce Expr.mul))]⟩,
        genericOperationFunc := fun h as => .ok (h.call as),
        genericAtomFunc := fun a => .ok a } := by
  rfl

theorem foldl_leftNest (h : Expr) (fn : Expr → Expr → Expr) (hf : ∀ a b, fn a b = .node [h, a, b])
    (a : Expr) (as : List Expr) : as.foldl fn a = leftNest h a as := by
  induction as generalizing a with
  | nil => rfl
  | cons b bs ih => rw [List.foldl_cons, ih, hf]; rfl

theorem binOp_add (σ : Expr → Option Expr) (a : Expr) (as : List Expr) :
    (meaning binExpandTransformer σ).op addH (a :: as) = .ok (leftNest addH a as) := by
  show pyReduce Expr.add (a :: as) = _
  rw [pyReduce, foldl_leftNest addH Expr.add (fun _ _ => rfl)]

theorem binOp_mul (σ : Expr → Option Expr) (a : Expr) (as : List Expr) :
    (meaning binExpandTransformer σ).op mulH (a :: as) = .ok (leftNest mulH a as) := by
  show pyReduce Expr.mul (a :: as) = _
  rw [pyReduce, foldl_leftNest mulH Expr.mul (fun _ _ => rfl)]

theorem binOp_assoc (σ : Expr → Option Expr) (h : Expr) (hh : IsAssocHead h) (a : Expr)
    (as : List Expr) :
    (meaning binExpandTransformer σ).op h (a :: as) = .ok (leftNest h a as) := by
  rcases hh with rfl | rfl
  · exact binOp_add σ a as
  · exact binOp_mul σ a as

theorem binOp_nil (σ : Expr → Option Expr) (h : Expr) (hh : IsAssocHead h) :
    (meaning binExpandTransformer σ).op h [] = .error .typeError := by
  rcases hh with rfl | rfl <;> rfl

theorem binOp_other (σ : Expr → Option Expr) (h : Expr) (hh : ¬ IsAssocHead h) (as : List Expr) :
    (meaning binExpandTransformer σ).op h as = .ok (.node (h :: as)) := by
  rw [binExpandTransformer_eq]
  have h1 : addH ≠ h := fun e => hh (Or.inl e.symm)
  have h2 : mulH ≠ h := fun e => hh (Or.inr e.symm)
  simp [meaning, Dict.get?, Dict.lookup, h1, h2, Tree.call]

theorem binLeaf (a : Atom Val) :
    (meaning binExpandTransformer (fun _ => none)).leaf (.atom a) = .ok (.atom a) := rfl

mutual
theorem binExpands_evaluates {e u : Expr} : BinExpands e u →
    Evaluates (meaning binExpandTransformer (fun _ => none)) e u
  | .atom => .leaf rfl rfl
  | .other h1 h2 => .op (binExpandsAll_evaluates h2) (binOp_other _ _ h1 _)
  | .nest h1 h2 => .op (binExpandsAll_evaluates h2) (binOp_assoc _ _ h1 _ _)
theorem binExpandsAll_evaluates {es us : List Expr} : BinExpandsAll es us →
    EvaluatesAll (meaning binExpandTransformer (fun _ => none)) es us
  | .nil => .nil
  | .cons h1 h2 => .cons (binExpands_evaluates h1) (binExpandsAll_evaluates h2)
end

mutual
theorem evaluates_binExpands {e u : Expr} :
    Evaluates (meaning binExpandTransformer (fun _ => none)) e u → BinExpands e u
  | @Evaluates.leaf _ _ _ t _ h1 h2 => by
    cases t with
    | atom a => cases h2; exact .atom
    | node cs => simp only [Tree.children] at h1; subst h1; cases h2
  | @Evaluates.op _ _ _ hd args vs _ h1 h2 => by
    have h1' := evaluatesAll_binExpands h1
    by_cases hh : IsAssocHead hd
    · cases vs with
      | nil => rw [binOp_nil _ _ hh] at h2; cases h2
      | cons a as =>
        rw [binOp_assoc _ _ hh] at h2; cases h2
        exact .nest hh h1'
    · rw [binOp_other _ _ hh] at h2; cases h2
      exact .other hh h1'
theorem evaluatesAll_binExpands {es us : List Expr} :
    EvaluatesAll (meaning binExpandTransformer (fun _ => none)) es us → BinExpandsAll es us
  | .nil => .nil
  | .cons h1 h2 => .cons (evaluates_binExpands h1) (evaluatesAll_binExpands h2)
end

/-- **C20, what it returns.** `e.bin_expand()` returns `u` exactly when `u` is `e` with its
sums and products nested to the left. -/
theorem C20_bin_expand_nests (e u : Expr) : binExpand e = .ok u ↔ BinExpands e u := by
  unfold binExpand
  rw [C14_no_values]
  exact ⟨evaluates_binExpands, binExpands_evaluates⟩

/-- `Add(x, Mul(x, y, 2), sin(Add(x)))` becomes `(x + (x*y)*2) + sin(x)`. -/
example : binExpand (addH.call [x, mulH.call [x, y, integer 2], sin (addH.call [x])]) =
    .ok (add (add x (mul (mul x y) (integer 2))) (sin x)) := by decide +kernel

theorem total_of_no_empty (e : Expr) :
    (∀ h, ArgSub e (.node [h]) → ¬ IsAssocHead h) → ¬ ArgSub e (.node []) →
    ∃ u, evalTree (meaning binExpandTransformer (fun _ => none)) e = .ok u := by
  induction e using Tree.induction with
  | _ e ih =>
  intro hno hdeg
  cases hl : isLeaf e with
  | true =>
    cases e with
    | atom a => exact ⟨_, rfl⟩
    | node cs =>
      simp only [isLeaf, Tree.children, List.isEmpty_iff] at hl
      subst hl
      exact absurd (Reach.refl (by simp)) hdeg
  | false =>
    rw [evalTree_node _ hl]
    cases e with
    | atom a => cases hl
    | node cs =>
      cases cs with
      | nil => cases hl
      | cons hd args =>
        show ∃ u, (args.mapM (evalTree _) >>= _) = _
        obtain ⟨vs, hvs⟩ := mapM_ok_of_forall (evalTree (meaning binExpandTransformer (fun _ => none)))
          args (fun c hc => by
            refine ih c (by simp [Tree.children, hc]) ?_ ?_
            · intro h hs
              exact hno h (Reach.down (by simp) (by simpa [kids] using hc) hs)
            · intro hs
              exact hdeg (Reach.down (by simp) (by simpa [kids] using hc) hs))
        rw [hvs]
        show ∃ u, (meaning binExpandTransformer (fun _ => none)).op hd vs = .ok u
        by_cases hh : IsAssocHead hd
        · cases vs with
          | nil =>
            have := mapM_length _ _ _ hvs
            have ha : args = [] := List.eq_nil_of_length_eq_zero this
            subst ha
            exact absurd hh (hno hd (Reach.refl (by simp)))
          | cons a as => exact ⟨_, binOp_assoc _ _ hh _ _⟩
        · exact ⟨_, binOp_other _ _ hh _⟩

/-- **C20, when it raises.** Only an empty `Add()` or `Mul()` in argument position makes
`bin_expand` raise, and then it raises `TypeError`.  (`Tree()` is not an expression.) -/
theorem C20_bin_expand_raises (e : Expr) (hdeg : ¬ ArgSub e (.node [])) :
    ((∃ u, binExpand e = .ok u) ↔ ∀ h, ArgSub e (.node [h]) → ¬ IsAssocHead h) ∧
    (∀ err, binExpand e = .error err → err = .typeError) := by
  constructor
  · constructor
    · rintro ⟨u, hu⟩ h hs hh
      have hu' := (evalForward_ok_iff binExpandTransformer e Dict.empty u).1 hu
      obtain ⟨w, hw⟩ := evalTree_ok_sub _ hs ⟨u, hu'⟩
      rw [evalTree_node _ (by rfl)] at hw
      have : (meaning binExpandTransformer Dict.empty.get?).op h [] = .ok w := hw
      rw [binOp_nil _ _ hh] at this
      cases this
    · intro h
      obtain ⟨u, hu⟩ := total_of_no_empty e h hdeg
      exact ⟨u, (evalForward_ok_iff binExpandTransformer e Dict.empty u).2 hu⟩
  · intro err herr
    obtain ⟨t, hs, ⟨h1, h2⟩ | ⟨h1, vs, h2, h3⟩⟩ :=
      evalForward_error binExpandTransformer e Dict.empty err herr
    · cases t with
      | atom a => cases h2
      | node cs =>
        simp only [isLeaf, Tree.children, List.isEmpty_iff] at h1
        subst h1
        exact absurd hs hdeg
    · by_cases hh : IsAssocHead (headOf t)
      · cases vs with
        | nil => rw [binOp_nil _ _ hh] at h3; cases h3; rfl
        | cons a as => rw [binOp_assoc _ _ hh] at h3; cases h3
      · rw [binOp_other _ _ hh] at h3; cases h3

example : binExpand (sin (addH.call [])) = .error .typeError ∧
    ¬ ArgSub (sin (addH.call [])) (.node []) := by
  refine ⟨by decide +kernel, ?_⟩
  rw [← reach_topo]; decide +kernel

theorem argSub_node {h : Expr} {args : List Expr} {t : Expr} :
    ArgSub (.node (h :: args)) t ↔ t = .node (h :: args) ∨ ∃ c ∈ args, ArgSub c t := by
  constructor
  · intro hs
    cases hs with
    | refl => exact Or.inl rfl
    | down _ hc hr => exact Or.inr ⟨_, by simpa [kids] using hc, hr⟩
  · rintro (rfl | ⟨c, hc, hr⟩)
    · exact Reach.refl (by simp)
    · exact Reach.down (by simp) (by simpa [kids] using hc) hr

theorem allBinary_leftNest {h : Expr} (as : List Expr) :
    ∀ a, AllBinary a → (∀ b ∈ as, AllBinary b) → AllBinary (leftNest h a as) := by
  induction as with
  | nil => intro a ha _; exact ha
  | cons b bs ih =>
    intro a ha hbs
    refine ih _ ?_ (fun c hc => hbs c (by simp [hc]))
    intro h' args' hs hh'
    rcases argSub_node.1 hs with heq | ⟨c, hc, hr⟩
    · cases heq; rfl
    · simp only [List.mem_cons, List.not_mem_nil, or_false] at hc
      rcases hc with rfl | rfl
      · exact ha h' args' hr hh'
      · exact hbs c (by simp) h' args' hr hh'

mutual
theorem binExpands_binary {e u : Expr} : BinExpands e u → AllBinary u
  | .atom => by intro h args hs; cases hs with | down _ hc _ => cases hc
  | @BinExpands.other hd args args' h1 h2 => by
    intro h as hs hh
    rcases argSub_node.1 hs with heq | ⟨c, hc, hr⟩
    · cases heq; exact absurd hh h1
    · exact binExpandsAll_binary h2 c hc h as hr hh
  | .nest _ h2 => allBinary_leftNest _ _ (binExpandsAll_binary h2 _ (by simp))
      (fun b hb => binExpandsAll_binary h2 b (by simp [hb]))
theorem binExpandsAll_binary {es us : List Expr} : BinExpandsAll es us → ∀ u ∈ us, AllBinary u
  | .nil => by intro u hu; cases hu
  | .cons h1 h2 => by
    intro u hu
    rcases List.mem_cons.1 hu with rfl | hu
    · exact binExpands_binary h1
    · exact binExpandsAll_binary h2 u hu
end

/-- **C20, binary.** No sum or product with other than two arguments is left. -/
theorem C20_bin_expand_binary (e u : Expr) (h : binExpand e = .ok u) : AllBinary u :=
  binExpands_binary ((C20_bin_expand_nests e u).1 h)

theorem binExpands_self_of_binary (u : Expr) : AllBinary u → ¬ ArgSub u (.node []) →
    BinExpands u u := by
  induction u using Tree.induction with
  | _ u ih =>
  intro hb hdeg
  cases u with
  | atom a => exact .atom
  | node cs =>
    cases cs with
    | nil => exact absurd (Reach.refl (by simp)) hdeg
    | cons hd args =>
      have hall : ∀ as : List Expr, (∀ c ∈ as, c ∈ args) → BinExpandsAll as as := by
        intro as
        induction as with
        | nil => intro _; exact .nil
        | cons c cs ihc =>
          intro hsub
          refine .cons (ih c (by simp [Tree.children, hsub c (by simp)]) ?_ ?_)
            (ihc (fun d hd => hsub d (by simp [hd])))
          · intro h as hs
            exact hb h as (argSub_node.2 (Or.inr ⟨c, hsub c (by simp), hs⟩))
          · intro hs
            exact hdeg (argSub_node.2 (Or.inr ⟨c, hsub c (by simp), hs⟩))
      by_cases hh : IsAssocHead hd
      · have hlen := hb hd args (Reach.refl (by simp)) hh
        obtain ⟨a, b, rfl⟩ : ∃ a b, args = [a, b] := by
          match args, hlen with
          | [a, b], _ => exact ⟨a, b, rfl⟩
        exact .nest hh (hall [a, b] (fun _ h => h))
      · exact .other hh (hall args (fun _ h => h))

mutual
theorem binExpands_nodeg {e u : Expr} : BinExpands e u → ¬ ArgSub u (.node [])
  | .atom => by intro hs; cases hs with | down _ hc _ => cases hc
  | .other _ h2 => by
    intro hs
    rcases argSub_node.1 hs with heq | ⟨c, hc, hr⟩
    · cases heq
    · exact binExpandsAll_nodeg h2 c hc hr
  | @BinExpands.nest h _ a as _ h2 => by
    have hall := binExpandsAll_nodeg h2
    have key : ∀ (as : List Expr) (a : Expr), ¬ ArgSub a (.node []) →
        (∀ b ∈ as, ¬ ArgSub b (.node [])) → ¬ ArgSub (leftNest h a as) (.node []) := by
      intro as
      induction as with
      | nil => intro a ha _; exact ha
      | cons b bs ih =>
        intro a ha hbs
        refine ih _ ?_ (fun c hc => hbs c (by simp [hc]))
        intro hs
        rcases argSub_node.1 hs with heq | ⟨c, hc, hr⟩
        · cases heq
        · simp only [List.mem_cons, List.not_mem_nil, or_false] at hc
          rcases hc with rfl | rfl
          · exact ha hr
          · exact hbs c (by simp) hr
    exact key as a (hall a (by simp)) (fun b hb => hall b (by simp [hb]))
theorem binExpandsAll_nodeg {es us : List Expr} : BinExpandsAll es us →
    ∀ u ∈ us, ¬ ArgSub u (.node [])
  | .nil => by intro u hu; cases hu
  | .cons h1 h2 => by
    intro u hu
    rcases List.mem_cons.1 hu with rfl | hu
    · exact binExpands_nodeg h1
    · exact binExpandsAll_nodeg h2 u hu
end

/-- **C20, idempotent**; and it leaves alone what is already binary. -/
theorem C20_bin_expand_idempotent (e u : Expr) (h : binExpand e = .ok u) :
    binExpand u = .ok u ∧ (AllBinary e → u = e) := by
  have h' := (C20_bin_expand_nests e u).1 h
  refine ⟨(C20_bin_expand_nests u u).2
    (binExpands_self_of_binary u (binExpands_binary h') (binExpands_nodeg h')), ?_⟩
  intro hb
  have hdeg : ¬ ArgSub e (.node []) := by
    intro hs
    have hu' := (evalForward_ok_iff binExpandTransformer e Dict.empty u).1 h
    obtain ⟨w, hw⟩ := evalTree_ok_sub _ hs ⟨u, hu'⟩
    cases hw
  have h2 := (C20_bin_expand_nests e e).2 (binExpands_self_of_binary e hb hdeg)
  rw [h] at h2; cases h2; rfl

theorem leftAssoc_pair {T : Type} {op : List T → PyM T} (ho : LeftAssoc op) (v w : T)
    (vs : List T) (r : T) (h : op (v :: w :: vs) = .ok r) :
    ∃ s, op [v, w] = .ok s ∧ op (s :: vs) = .ok r := by
  -- induction on the end of the list
  induction hn : vs.length generalizing vs r with
  | zero =>
    have : vs = [] := List.eq_nil_of_length_eq_zero hn
    subst this
    exact ⟨r, h, ho.one r⟩
  | succ n ih =>
    have hne : vs ≠ [] := by intro h0; rw [h0] at hn; cases hn
    obtain ⟨us, z, rfl⟩ : ∃ us z, vs = us ++ [z] := ⟨_, _, (List.dropLast_concat_getLast hne).symm⟩
    have e1 := ho.snoc v (w :: us) z
    rw [List.cons_append, List.cons_append] at e1
    rw [e1] at h
    cases hp : op (v :: w :: us) with
    | error err => rw [hp] at h; cases h
    | ok s1 =>
      rw [hp] at h
      obtain ⟨s, hs1, hs2⟩ := ih us s1 hp (by simpa using hn)
      refine ⟨s, hs1, ?_⟩
      have e2 := ho.snoc s us z
      rw [List.cons_append] at e2
      rw [e2, hs2]
      exact h

theorem evaluates_leftNest {T : Type} {M : Meaning Val T} {h : Expr} (ho : LeftAssoc (M.op h))
    (as : List Expr) : ∀ (a : Expr) (v : T) (vs : List T) (r : T), Evaluates M a v →
    EvaluatesAll M as vs → M.op h (v :: vs) = .ok r → Evaluates M (leftNest h a as) r := by
  induction as with
  | nil =>
    intro a v vs r ha has hr
    cases has
    rw [ho.one] at hr; cases hr; exact ha
  | cons b bs ih =>
    intro a v vs r ha has hr
    cases has with
    | @cons _ _ w ws hb hbs =>
      obtain ⟨s, hs1, hs2⟩ := leftAssoc_pair ho v w ws r hr
      exact ih (.node [h, a, b]) s ws r (.op (.cons ha (.cons hb .nil)) hs1) hbs hs2

mutual
theorem binExpands_value {T : Type} {M : Meaning Val T} (ha : LeftAssoc (M.op addH))
    (hm : LeftAssoc (M.op mulH)) {e u : Expr} : BinExpands e u → ∀ {v : T},
    Evaluates M e v → Evaluates M u v
  | .atom => fun h => h
  | .other _ h2 => by
    intro h
    cases h with
    | leaf hc _ => cases hc
    | op hv ho => exact .op (binExpandsAll_value ha hm h2 hv) ho
  | @BinExpands.nest hd args a as h1 h2 => by
    intro h
    cases h with
    | leaf hc _ => cases hc
    | @op _ _ vs v hv ho =>
      have hv' := binExpandsAll_value ha hm h2 hv
      cases hv' with
      | @cons _ _ w ws hw hws =>
        have hassoc : LeftAssoc (M.op hd) := by
          rcases h1 with rfl | rfl
          · exact ha
          · exact hm
        exact evaluates_leftNest hassoc as a w ws _ hw hws ho
theorem binExpandsAll_value {T : Type} {M : Meaning Val T} (ha : LeftAssoc (M.op addH))
    (hm : LeftAssoc (M.op mulH)) {es us : List Expr} : BinExpandsAll es us → ∀ {vs : List T},
    EvaluatesAll M es vs → EvaluatesAll M us vs
  | .nil => fun h => h
  | .cons h1 h2 => by
    intro h
    cases h with
    | cons hv hvs => exact .cons (binExpands_value ha hm h1 hv) (binExpandsAll_value ha hm h2 hvs)
end

/-- **C20, value.** Under every interpretation of the functions and atoms in which `Add` and
`Mul` are iterated binary operations (exact arithmetic in any number system, or
left-to-right rounded arithmetic), the expanded expression has the value of the original. -/
theorem C20_bin_expand_value {T : Type} (M : Meaning Val T) (hadd : LeftAssoc (M.op addH))
    (hmul : LeftAssoc (M.op mulH)) (e u : Expr) (h : binExpand e = .ok u) (v : T)
    (hv : Evaluates M e v) : Evaluates M u v :=
  binExpands_value hadd hmul ((C20_bin_expand_nests e u).1 h) hv

/-- Sums and products of integers are iterated binary operations. -/
theorem leftAssoc_int :
    LeftAssoc (fun vs : List Int => (.ok vs.sum : PyM Int)) ∧
    LeftAssoc (fun vs : List Int => (.ok (vs.foldl (· * ·) 1) : PyM Int)) := by
  refine ⟨⟨fun v => by simp, fun v vs w => ?_⟩, ⟨fun v => by simp, fun v vs w => ?_⟩⟩
  · show _ = Except.ok _
    simp [List.sum_append, Int.add_assoc]
  · show _ = Except.ok _
    rw [List.foldl_append]; simp

/-! ### C21 -/

theorem countOps_tree (e : Expr) : ¬ ArgSub e (.node []) →
    evalTree (meaning (evaluatorOf countOpsRules) (fun _ => none)) e = .ok (occurrences e) := by
  induction e using Tree.induction with
  | _ e ih =>
  intro hdeg
  cases e with
  | atom a => rfl
  | node cs =>
    cases cs with
    | nil => exact absurd (Reach.refl (by simp)) hdeg
    | cons hd args =>
      rw [evalTree_node _ (by rfl)]
      show (args.mapM (evalTree _) >>= _) = _
      have hm : ∀ as : List Expr, (∀ c ∈ as, c ∈ args) →
          as.mapM (evalTree (meaning (evaluatorOf countOpsRules) (fun _ => none))) =
            .ok (as.map occurrences) := by
        intro as
        induction as with
        | nil => intro _; rfl
        | cons c cs ihc =>
          intro hsub
          rw [List.mapM_cons, ih c (by simp [Tree.children, hsub c (by simp)])
            (fun hs => hdeg (argSub_node.2 (Or.inr ⟨c, hsub c (by simp), hs⟩))),
            ihc (fun d hd => hsub d (by simp [hd]))]
          rfl
      rw [hm args (fun _ h => h)]
      show Except.ok (1 + (args.map occurrences).sum) = _
      simp only [occurrences, postorder, Bool.false_eq_true, if_false, List.nil_append,
        List.length_append, List.length_cons, List.length_nil, postorderList_eq,
        List.length_flatMap]
      rw [Nat.add_comm]; rfl

/-- **C21, meaning.** `count_ops_tree()` is the number of occurrences of subexpressions in
the tree form (arguments only), `count_ops_graph()` the number of distinct ones, and the
latter is never larger. -/
theorem C21_counts (e : Expr) (hdeg : ¬ ArgSub e (.node [])) :
    countOpsTree e = .ok (occurrences e) ∧
    (∃ l : List Expr, l.Nodup ∧ (∀ t, t ∈ l ↔ ArgSub e t) ∧ countOpsGraph e = l.length) ∧
    countOpsGraph e ≤ occurrences e := by
  refine ⟨?_, ⟨topologicalSort false [] e, nodup_topologicalSort _ _ _, fun t => reach_topo, rfl⟩, ?_⟩
  · exact (evalForward_ok_iff _ e Dict.empty _).2 (countOps_tree e hdeg)
  · unfold countOpsGraph occurrences
    rw [topologicalSort_eq]
    have key : ∀ (l acc : List Expr), (l.foldl (fun acc a => if a ∈ acc then acc else acc ++ [a])
        acc).length ≤ acc.length + l.length := by
      intro l
      induction l with
      | nil => intro acc; simp
      | cons a l ih =>
        intro acc
        rw [List.foldl_cons]
        refine Nat.le_trans (ih _) ?_
        split <;> simp <;> omega
    have := key (postorder false (fun _ => false) e) []
    simpa [keepFirst] using this

/-- The counts differ for a shared subexpression: `sin(x) + sin(x)` has 3 distinct
subexpressions and 5 occurrences. -/
example : ¬ ArgSub (add (sin x) (sin x)) (.node []) ∧
    countOpsGraph (add (sin x) (sin x)) = 3 ∧ countOpsTree (add (sin x) (sin x)) = .ok 5 := by
  refine ⟨?_, by decide +kernel, by decide +kernel⟩
  rw [← reach_topo]; decide +kernel

theorem squareFamily_nodeg (a : Atom Val) (n : Nat) :
    ¬ ArgSub (squareFamily (.atom a) n) (.node []) := by
  induction n with
  | zero => intro h; cases h with | down _ hc _ => cases hc
  | succ n ih =>
    intro h
    rcases argSub_node.1 h with h | ⟨c, hc, h⟩
    · cases h
    · simp only [List.mem_cons, List.not_mem_nil, or_false] at hc
      rcases hc with rfl | rfl
      · rcases argSub_node.1 h with h | ⟨c, hc, h⟩
        · cases h
        · simp only [List.mem_cons, List.not_mem_nil, or_false] at hc
          rcases hc with rfl | rfl
          · exact ih h
          · cases h with | down _ hc _ => cases hc
      · exact ih h

theorem occurrences_node (h : Expr) (args : List Expr) :
    occurrences (.node (h :: args)) = (args.map occurrences).sum + 1 := by
  simp only [occurrences, postorder, Bool.false_eq_true, if_false, List.nil_append,
    List.length_append, List.length_cons, List.length_nil, postorderList_eq, List.length_flatMap]
  rfl

theorem occurrences_family (a : Atom Val) (n : Nat) :
    occurrences (squareFamily (.atom a) n) + 3 = 2 ^ (n + 2) := by
  induction n with
  | zero => rfl
  | succ n ih =>
    have h1 : occurrences (squareFamily (.atom a) (n + 1)) =
        2 * occurrences (squareFamily (.atom a) n) + 3 := by
      simp only [squareFamily, add, pow, Tree.call, occurrences_node, List.map_cons, List.map_nil,
        List.sum_cons, List.sum_nil]
      have : occurrences (integer 2) = 1 := rfl
      omega
    rw [h1, show n + 1 + 2 = (n + 2) + 1 from rfl, Nat.pow_succ]
    omega

theorem size_family (a : Atom Val) (n m : Nat) (h : n < m) :
    (squareFamily (.atom a) n).size < (squareFamily (.atom a) m).size := by
  induction m with
  | zero => omega
  | succ m ih =>
    have h1 : (squareFamily (.atom a) m).size < (squareFamily (.atom a) (m + 1)).size := by
      simp only [squareFamily, add, Tree.call, Tree.size, Tree.sizeList]
      omega
    by_cases hm : n = m
    · subst hm; exact h1
    · exact Nat.lt_trans (ih (by omega)) h1

/-- The distinct subexpressions of the `n`-th member, `n ≥ 1`. -/
def familySubs (a : Atom Val) : Nat → List Expr
  | 0 => [.atom a, integer 2]
  | n + 1 => familySubs a n ++
      [pow (squareFamily (.atom a) n) (integer 2), squareFamily (.atom a) (n + 1)]

theorem mem_familySubs (a : Atom Val) (n : Nat) (t : Expr) :
    t ∈ familySubs a n ↔ ArgSub (squareFamily (.atom a) n) t ∨ t = integer 2 := by
  induction n with
  | zero =>
    constructor
    · intro h
      simp only [familySubs, List.mem_cons, List.not_mem_nil, or_false] at h
      rcases h with rfl | h
      · exact Or.inl (Reach.refl (by simp))
      · exact Or.inr h
    · rintro (h | rfl)
      · cases h with
        | refl => simp [familySubs, squareFamily]
        | down _ hc _ => cases hc
      · simp [familySubs]
  | succ n ih =>
    simp only [familySubs, List.mem_append, ih, List.mem_cons, List.not_mem_nil, or_false]
    show _ ↔ ArgSub (.node [addH, pow (squareFamily (.atom a) n) (integer 2),
      squareFamily (.atom a) n]) t ∨ _
    rw [argSub_node]
    have hp : ArgSub (pow (squareFamily (.atom a) n) (integer 2)) t ↔
        t = pow (squareFamily (.atom a) n) (integer 2) ∨
        ArgSub (squareFamily (.atom a) n) t ∨ t = integer 2 := by
      show ArgSub (.node [powH, squareFamily (.atom a) n, integer 2]) t ↔ _
      rw [argSub_node]
      have h2 : ArgSub (integer 2) t ↔ t = integer 2 := by
        constructor
        · intro h; cases h with
          | refl => rfl
          | down _ hc _ => cases hc
        · rintro rfl; exact Reach.refl (by simp)
      simp only [List.mem_cons, List.not_mem_nil, or_false, exists_eq_or_imp, exists_eq_left, h2]
      rfl
    simp only [List.mem_cons, List.not_mem_nil, or_false, exists_eq_or_imp, exists_eq_left, hp]
    show _ ∨ _ ∨ t = Tree.node [addH, pow (squareFamily (.atom a) n) (integer 2),
      squareFamily (.atom a) n] ↔ _
    constructor
    · rintro ((h | h) | h | h)
      · exact Or.inl (Or.inr (Or.inr h))
      · exact Or.inr h
      · exact Or.inl (Or.inr (Or.inl (Or.inl h)))
      · exact Or.inl (Or.inl h)
    · rintro ((h | (h | h | h) | h) | h)
      · exact Or.inr (Or.inr h)
      · exact Or.inr (Or.inl h)
      · exact Or.inl (Or.inl h)
      · exact Or.inl (Or.inr h)
      · exact Or.inl (Or.inl h)
      · exact Or.inl (Or.inr h)

theorem size_familySubs (a : Atom Val) (n : Nat) : ∀ t ∈ familySubs a n,
    t.size ≤ (squareFamily (.atom a) n).size := by
  intro t ht
  rcases (mem_familySubs a n t).1 ht with h | rfl
  · exact h.size_le
  · have : (integer 2).size = 1 := rfl
    rw [this]; exact size_pos _

theorem nodup_familySubs (a : Atom Val) (ha : Tree.atom a ≠ integer 2) (n : Nat) :
    (familySubs a n).Nodup := by
  induction n with
  | zero => simp [familySubs, ha]
  | succ n ih =>
    simp only [familySubs]
    rw [List.nodup_append]
    refine ⟨ih, ?_, ?_⟩
    · simp only [List.nodup_cons, List.mem_cons, List.not_mem_nil, or_false, not_false_eq_true,
        List.nodup_nil, and_true]
      intro h
      have h' := congrArg (fun t => t.children.head?) h
      revert h'
      show some powH = some addH → False
      decide
    · intro t ht u hu
      have h1 := size_familySubs a n t ht
      have h2 : (squareFamily (.atom a) n).size < u.size := by
        simp only [List.mem_cons, List.not_mem_nil, or_false] at hu
        rcases hu with rfl | rfl
        · simp only [pow, Tree.call, Tree.size, Tree.sizeList]; omega
        · exact size_family a n (n + 1) (by omega)
      intro he; subst he; omega

theorem length_familySubs (a : Atom Val) (n : Nat) : (familySubs a n).length = 2 * n + 2 := by
  induction n with
  | zero => rfl
  | succ n ih => simp [familySubs, ih]; omega

theorem nodup_length_eq {α : Type} [DecidableEq α] {l₁ l₂ : List α} (h1 : l₁.Nodup)
    (h2 : l₂.Nodup) (h : ∀ a, a ∈ l₁ ↔ a ∈ l₂) : l₁.length = l₂.length := by
  induction l₁ generalizing l₂ with
  | nil =>
    cases l₂ with
    | nil => rfl
    | cons b l₂ => exact absurd ((h b).2 (by simp)) (by simp)
  | cons a l₁ ih =>
    have ha : a ∈ l₂ := (h a).1 (by simp)
    have h3 := ih (l₂ := l₂.erase a) (List.nodup_cons.1 h1).2 (h2.erase a) (by
      intro b
      rw [List.Nodup.mem_erase_iff h2, ← h b]
      constructor
      · intro hb
        refine ⟨?_, by simp [hb]⟩
        intro he; subst he; exact (List.nodup_cons.1 h1).1 hb
      · rintro ⟨hne, hb⟩
        rcases List.mem_cons.1 hb with hb | hb
        · exact absurd hb hne
        · exact hb)
    rw [List.length_erase_of_mem ha] at h3
    have := List.length_pos_of_mem ha
    simp; omega

/-- **C21, the documented family.** For `e₀ = x`, `eₙ₊₁ = eₙ**2 + eₙ` (any atom `x` other
than the integer 2): `count_ops_tree` is `2^(n+2) - 3` for every `n` and `count_ops_graph` is
`2n + 2` for every `n ≥ 1` (and 1 for `n = 0`). -/
theorem C21_documented_growth (a : Atom Val) (ha : Tree.atom a ≠ integer 2) (n : Nat) :
    countOpsTree (squareFamily (.atom a) n) = .ok (2 ^ (n + 2) - 3) ∧
    countOpsGraph (squareFamily (.atom a) n) = if n = 0 then 1 else 2 * n + 2 := by
  constructor
  · rw [(C21_counts _ (squareFamily_nodeg a n)).1]
    have := occurrences_family a n
    congr 1; omega
  · cases n with
    | zero =>
      unfold countOpsGraph
      rw [topologicalSort_eq]
      rfl
    | succ n =>
      rw [if_neg (by omega), ← length_familySubs a (n + 1)]
      refine nodup_length_eq (nodup_topologicalSort _ _ _) (nodup_familySubs a ha _) ?_
      intro t
      rw [reach_topo, mem_familySubs]
      constructor
      · exact Or.inl
      · rintro (h | rfl)
        · exact h
        · show ArgSub (.node [addH, .node [powH, squareFamily (.atom a) n, integer 2],
            squareFamily (.atom a) n]) (integer 2)
          rw [argSub_node]
          refine Or.inr ⟨_, List.mem_cons_self, argSub_node.2 (Or.inr ⟨integer 2, by simp, ?_⟩)⟩
          exact Reach.refl (by simp)

/-- The docstring's numbers (simplecas/expr.py:399-406) at `n = 50`. -/
example : countOpsTree (squareFamily x 50) = .ok 4503599627370493 ∧
    countOpsGraph (squareFamily x 50) = 102 :=
  C21_documented_growth ⟨Ty.symbol, .str "x"⟩ (by decide) 50

end Verif.Props
