import Verif.Props.Subs
import Verif.Lemmas.Diff
import Verif.Spec.DiffHistory

/-!
# C23–C28: differentiation (structure; correctness over the reals is in `Props/RealDiff.lean`)
-/

set_option linter.unusedSectionVars false

namespace Verif.Props
open Spec Expr

theorem setItem_ok {p p' : DiffProps Val} {expr sym rhs : Expr}
    (h : SymDifferentiator.setItem p expr sym rhs = .ok p') :
    ∃ hd params f, expr = .node (hd :: params) ∧ params.count sym = 1 ∧
      SubsFunc.new rhs params = .ok f ∧ p' = p.addDiffRule hd (params.idxOf sym) f := by
  unfold SymDifferentiator.setItem at h
  cases expr with
  | atom a => cases h
  | node cs =>
    cases cs with
    | nil => cases h
    | cons hd params =>
      simp only [Tree.children, pyGet, List.getElem?_cons_zero, bind, Except.bind,
        List.drop_succ_cons, List.drop_zero] at h
      split at h
      · cases h
      · rename_i hc
        cases hf : SubsFunc.new rhs params with
        | error err => rw [hf] at h; cases h
        | ok f =>
          rw [hf] at h
          cases h
          exact ⟨hd, params, f, rfl, by simpa using hc, hf, rfl⟩

/-- Every rule of a built differentiator is a `SubsFunc`. -/
theorem _root_.Verif.Spec.DiffHistory.rules {p : DiffProps Val} (h : DiffHistory p) :
    ∀ k f, p.diffRules.get? k = some f → ∃ rhs params, SubsFunc.new rhs params = .ok f := by
  induction h with
  | new => intro k f hk; cases hk
  | rule _ hs ih =>
    intro k f hk
    obtain ⟨hd, params, f', _, _, hf, rfl⟩ := setItem_ok hs
    simp only [DiffProps.addDiffRule, Dict.get?_set] at hk
    split at hk
    · cases hk; exact ⟨_, _, hf⟩
    · exact ih k f hk
  | distributive _ ih => exact ih

theorem setItem_accepts (p : DiffProps Val) (hd sym rhs : Expr) (params : List Expr)
    (hc : params.count sym = 1) :
    ∃ f, SubsFunc.new rhs params = .ok f ∧
      SymDifferentiator.setItem p (.node (hd :: params)) sym rhs =
        .ok (p.addDiffRule hd (params.idxOf sym) f) := by
  obtain ⟨f, hf, _⟩ := C12_subs_total rhs params
  refine ⟨f, hf, ?_⟩
  unfold SymDifferentiator.setItem
  simp only [Tree.children, pyGet, List.getElem?_cons_zero, bind, Except.bind,
    List.drop_succ_cons, List.drop_zero]
  rw [if_neg (by simp [hc]), hf]
  rfl

/-- The built-in differentiator. -/
theorem builtinDiff_eq : ∃ fs fc fp,
    SubsFunc.new (cos (wild "a")) [wild "a"] = .ok fs ∧
    SubsFunc.new (mul negone (sin (wild "a"))) [wild "a"] = .ok fc ∧
    SubsFunc.new (mul (wild "b") (pow (wild "a") (add (wild "b") negone))) [wild "a", wild "b"]
      = .ok fp ∧
    DiffHistory builtinDiff ∧
    builtinDiff = ⟨zero, one, addH, mulH, [listH],
      ⟨[((sinH, 0), fs), ((cosH, 0), fc), ((powH, 0), fp)]⟩⟩ := by
  obtain ⟨fs, hs1, hs2⟩ := setItem_accepts (SymDifferentiator.new addH mulH zero one) sinH
    (wild "a") (cos (wild "a")) [wild "a"] (by decide)
  obtain ⟨fc, hc1, hc2⟩ := setItem_accepts
    ((SymDifferentiator.new addH mulH zero one).addDiffRule sinH 0 fs) cosH
    (wild "a") (pyNeg (sin (wild "a"))) [wild "a"] (by decide)
  obtain ⟨fp, hp1, hp2⟩ := setItem_accepts
    (((SymDifferentiator.new addH mulH zero one).addDiffRule sinH 0 fs).addDiffRule cosH 0 fc) powH
    (wild "a") (mul (wild "b") (pow (wild "a") (add (wild "b") negone))) [wild "a", wild "b"]
    (by decide)
  have hb : builtinDiffM = .ok (((((SymDifferentiator.new addH mulH zero one).addDiffRule sinH 0
      fs).addDiffRule cosH 0 fc).addDiffRule powH 0 fp).addDistributive listH) := by
    unfold builtinDiffM
    simp only
    rw [show sin (wild "a") = .node [sinH, wild "a"] from rfl, hs2]
    simp only [bind, Except.bind]
    rw [show ([wild "a"] : List Expr).idxOf (wild "a") = 0 from rfl]
    rw [show (Tree.node [sinH, wild "a"] : Expr) = sin (wild "a") from rfl]
    rw [show cos (wild "a") = .node [cosH, wild "a"] from rfl, hc2]
    simp only
    rw [show ([wild "a"] : List Expr).idxOf (wild "a") = 0 from rfl]
    rw [show pow (wild "a") (wild "b") = .node [powH, wild "a", wild "b"] from rfl, hp2]
    rfl
  have hb' : builtinDiff = (((((SymDifferentiator.new addH mulH zero one).addDiffRule sinH 0
      fs).addDiffRule cosH 0 fc).addDiffRule powH 0 fp).addDistributive listH) := by
    unfold builtinDiff; rw [hb]
  refine ⟨fs, fc, fp, hs1, hc1, hp1, ?_, ?_⟩
  · rw [hb']
    exact .distributive (.rule (.rule (.rule .new hs2) hc2) hp2)
  · rw [hb']; rfl

theorem iterPy_one {α : Type} (f : α → PyM α) (a : α) : iterPy f 1 a = f a := by
  simp only [iterPy]
  cases f a <;> rfl

theorem diff_one (e x : Expr) (p : DiffProps Val) : e.diff x 1 p = diffForward e x p := by
  show iterPy _ 1 e = _
  rw [iterPy_one]
  show iterPy _ 1 e = _
  rw [iterPy_one]

theorem diff_ok_iff (e x : Expr) (p : DiffProps Val) (d : Expr) :
    e.diff x 1 p = .ok d ↔ deriv p x e = .ok d := by
  rw [diff_one]; exact diffForward_ok_iff e x p d

/-! ### C23 and C26 -/

theorem deriv_zero (p : DiffProps Val) (x e : Expr)
    (hx : x.children = [] → ¬ ArgSub e x)
    (hd : ∀ h args, ArgSub e (.node (h :: args)) → h ∉ p.distributive) :
    deriv p x e = .ok p.zero := by
  induction e using Tree.induction with
  | _ e ih =>
  cases hl : isLeaf e with
  | true =>
    rw [deriv_leaf p x hl, if_neg]
    rintro rfl
    exact hx (by simpa [isLeaf] using hl) (Reach.refl (by simp))
  | false =>
    cases e with
    | atom a => cases hl
    | node cs =>
      cases cs with
      | nil => cases hl
      | cons h args =>
        rw [deriv_node]
        have hm : ∀ as : List Expr, (∀ c ∈ as, c ∈ args) →
            as.mapM (deriv p x) = .ok (as.map (fun _ => p.zero)) := by
          intro as
          induction as with
          | nil => intro _; rfl
          | cons c cs ihc =>
            intro hsub
            have hc := hsub c (by simp)
            rw [List.mapM_cons, ih c (by simp [Tree.children, hc])
              (fun h1 h2 => hx h1 (Reach.down (by simp) (by simpa [kids] using hc) h2))
              (fun h' as' h2 => hd h' as' (Reach.down (by simp) (by simpa [kids] using hc) h2)),
              ihc (fun d hd => hsub d (by simp [hd]))]
            rfl
        rw [hm args (fun _ h => h)]
        show derivStep p h args _ = _
        have hv : varying p (args.map (fun _ => p.zero)) = [] := by
          have : (varying p (args.map (fun _ => p.zero))).map Prod.fst = [] := by
            rw [varying_fst, List.filter_eq_nil_iff]
            intro d hd
            rw [List.mem_map] at hd
            obtain ⟨_, _, rfl⟩ := hd
            simp
          simpa using this
        unfold derivStep
        rw [if_neg (hd h args (Reach.refl (by simp))), hv]
        simp only [List.map_nil, List.mapM_nil]
        split
        · rfl
        · split <;> rfl

/-- **C23, sufficient.** If the variable does not occur in argument position and no
distributive head (`List`) does, the derivative is exactly the integer 0, whatever functions
occur, and for every differentiator. -/
theorem C23_constant_derivative_zero (p : DiffProps Val) (e x : Expr)
    (hx : ¬ ArgSub e x)
    (hd : ∀ h args, ArgSub e (.node (h :: args)) → h ∉ p.distributive) :
    e.diff x 1 p = .ok p.zero :=
  (diff_ok_iff e x p _).2 (deriv_zero p x e (fun _ => hx) hd)

/-- With the built-in differentiator: `f(y)**x_is_absent`, unknown functions included. -/
example : ¬ ArgSub (pow (f.call [y]) (sin y)) x ∧
    (pow (f.call [y]) (sin y)).diff x = .ok zero := by
  refine ⟨?_, by decide +kernel⟩
  rw [← reach_topo]; decide +kernel

/-- **C26.** Differentiating with respect to a compound expression gives 0 even if that
expression occurs (distributive heads excepted, which are kept). -/
theorem C26_compound_variable (p : DiffProps Val) (e x : Expr) (hx : x.children ≠ [])
    (hd : ∀ h args, ArgSub e (.node (h :: args)) → h ∉ p.distributive) :
    e.diff x 1 p = .ok p.zero :=
  (diff_ok_iff e x p _).2 (deriv_zero p x e (fun h => absurd h hx) hd)

example : (sin (sin x)).diff (sin x) = .ok zero := by decide +kernel

theorem varying_of_mem (p : DiffProps Val) (ds : List Expr) (i : Nat) (d : Expr)
    (h : ds[i]? = some d) (hd : d ≠ p.zero) : (d, i) ∈ varying p ds := by
  unfold varying
  rw [List.mem_filter]
  refine ⟨?_, by simpa using hd⟩
  rw [List.mem_zipIdx_iff_getElem?]
  exact h

theorem mem_varying {p : DiffProps Val} {ds : List Expr} {d : Expr} {i : Nat} :
    (d, i) ∈ varying p ds ↔ ds[i]? = some d ∧ d ≠ p.zero := by
  constructor
  · intro h
    unfold varying at h
    rw [List.mem_filter, List.mem_zipIdx_iff_getElem?] at h
    exact ⟨h.1, by simpa using h.2⟩
  · rintro ⟨h1, h2⟩; exact varying_of_mem p ds i d h1 h2

theorem sumOf_ne_zero (p : DiffProps Val) (hz : p.zero.children = []) (ts : List Expr)
    (hne : ts ≠ []) (h : ∀ t ∈ ts, t ≠ p.zero) : sumOf p ts ≠ p.zero := by
  match ts, hne with
  | [t], _ => exact h t (by simp)
  | a :: b :: ts, _ =>
    intro he
    simp only [sumOf] at he
    rw [← he] at hz
    cases hz

theorem mapM_getElem? {α β : Type} (g : α → PyM β) (l : List α) (vs : List β)
    (h : l.mapM g = .ok vs) (i : Nat) (a : α) (ha : l[i]? = some a) :
    ∃ b, vs[i]? = some b ∧ g a = .ok b := by
  induction l generalizing vs i with
  | nil => cases ha
  | cons c l ih =>
    rw [List.mapM_cons] at h
    cases hc : g c with
    | error err => rw [hc] at h; cases h
    | ok b =>
      cases hl : l.mapM g with
      | error err => rw [hc, hl] at h; cases h
      | ok bs =>
        rw [hc, hl] at h
        cases h
        cases i with
        | zero => simp only [List.getElem?_cons_zero, Option.some.injEq] at ha
                  subst ha; exact ⟨b, rfl, hc⟩
        | succ i => exact ih bs hl i (by simpa using ha)

theorem mapM_mem_ok {α β : Type} (g : α → PyM β) (l : List α) (vs : List β)
    (h : l.mapM g = .ok vs) : ∀ v ∈ vs, ∃ a ∈ l, g a = .ok v := by
  induction l generalizing vs with
  | nil => cases h; intro v hv; cases hv
  | cons c l ih =>
    rw [List.mapM_cons] at h
    cases hc : g c with
    | error err => rw [hc] at h; cases h
    | ok b =>
      cases hl : l.mapM g with
      | error err => rw [hc, hl] at h; cases h
      | ok bs =>
        rw [hc, hl] at h
        cases h
        intro v hv
        rcases List.mem_cons.1 hv with rfl | hv
        · exact ⟨c, by simp, hc⟩
        · obtain ⟨a, ha, hg⟩ := ih bs hl v hv
          exact ⟨a, by simp [ha], hg⟩

theorem deriv_nonzero (p : DiffProps Val) (x : Expr) (hx : x.children = [])
    (hz : p.zero.children = []) (h1 : p.one ≠ p.zero) (hr : RuleNonzero p) (e d : Expr)
    (hs : ArgSub e x) (hd : deriv p x e = .ok d) : d ≠ p.zero := by
  unfold ArgSub at hs
  induction hs generalizing d with
  | @refl e _ =>
    rw [deriv_leaf p e (by simp [isLeaf, hx]), if_pos rfl] at hd
    cases hd; exact h1
  | @down e c t _ hc hs ih =>
    have ih := ih hx
    cases e with
    | atom a => cases hc
    | node cs =>
      cases cs with
      | nil => cases hc
      | cons h args =>
        simp only [kids, Bool.false_eq_true, if_false] at hc
        rw [deriv_node] at hd
        cases hm : args.mapM (deriv p t) with
        | error err => rw [hm] at hd; cases hd
        | ok ds =>
          rw [hm] at hd
          have hd : derivStep p h args ds = .ok d := hd
          obtain ⟨i, hi⟩ := List.getElem?_of_mem hc
          obtain ⟨dc, hdc1, hdc2⟩ := mapM_getElem? _ _ _ hm i c hi
          have hv := varying_of_mem p ds i dc hdc1 (ih dc hdc2)
          have hnode : ∀ cs : List Expr, cs ≠ [] → (Tree.node cs : Expr) ≠ p.zero := by
            intro cs hne he; rw [← he] at hz; exact hne hz
          unfold derivStep at hd
          split at hd
          · cases hd; exact hnode _ (by simp)
          · split at hd
            · cases hd
              refine sumOf_ne_zero p hz _ (fun h0 => ?_) ?_
              · have := List.map_eq_nil_iff.1 h0; rw [this] at hv; cases hv
              · intro t ht
                rw [List.mem_map] at ht
                obtain ⟨q, hq, rfl⟩ := ht
                exact (mem_varying.1 hq).2
            · split at hd
              · cases hd
                refine sumOf_ne_zero p hz _ (fun h0 => ?_) ?_
                · have := List.map_eq_nil_iff.1 h0; rw [this] at hv; cases hv
                · intro t ht
                  rw [List.mem_map] at ht
                  obtain ⟨q, hq, rfl⟩ := ht
                  exact hnode _ (by simp)
              · cases hts : (varying p ds).mapM (chainTerm p h args) with
                | error err => rw [hts] at hd; cases hd
                | ok ts =>
                  rw [hts] at hd
                  cases hd
                  refine sumOf_ne_zero p hz _ (fun h0 => ?_) ?_
                  · have := mapM_length _ _ _ hts
                    rw [h0] at this
                    rw [List.eq_nil_of_length_eq_zero this] at hv; cases hv
                  · intro t ht
                    obtain ⟨q, hq, hqt⟩ := mapM_mem_ok _ _ _ hts t ht
                    unfold chainTerm at hqt
                    split at hqt
                    · cases hqt
                    · rename_i rule hrule
                      split at hqt
                      · cases hqt
                      · rename_i r hcall
                        cases hqt
                        split
                        · exact hr _ _ hrule _ _ hcall
                        · exact hnode _ (by simp)

/-- Substitution in a compound right-hand side that is not a parameter gives a compound
expression. -/
theorem ruleCall_node {rhs : Expr} {params args : List Expr} {fn : SubsFunc Val} {r : Expr}
    (hf : SubsFunc.new rhs params = .ok fn) (hn : rhs ∉ params) (hc : rhs.children ≠ [])
    (h : fn.call args = .ok r) : r.children ≠ [] ∧ args.length = params.length ∧
      r = subst (pairing params args) rhs := by
  obtain ⟨fn', h1, h2, h3⟩ := subsFunc_main rhs params hn
  rw [hf] at h1; cases h1
  by_cases hlen : args.length = params.length
  · rw [h3 args hlen] at h
    cases h
    refine ⟨?_, hlen, rfl⟩
    have hσ : pairing params args rhs = none := (pairing_isSome hlen.symm rhs).2 hn
    cases rhs with
    | atom a => exact absurd rfl hc
    | node cs =>
      rw [subst_none_node hσ]
      simpa [Tree.children] using hc
  · obtain ⟨fn', h1, h2, _⟩ := C12_subs_total rhs params
    rw [hf] at h1; cases h1
    rw [h2 args hlen] at h; cases h

theorem builtin_ruleNonzero : RuleNonzero builtinDiff := by
  obtain ⟨fs, fc, fp, hs, hc, hp, _, hb⟩ := builtinDiff_eq
  intro k fn hk args r hr
  have hz : builtinDiff.zero = zero := by rw [hb]
  rw [hz]
  have hne : r.children ≠ [] := by
    rw [hb] at hk
    simp only [Dict.get?, Dict.lookup] at hk
    split at hk
    · cases hk; exact (ruleCall_node hs (by decide) (by decide) hr).1
    · split at hk
      · cases hk; exact (ruleCall_node hc (by decide) (by decide) hr).1
      · split at hk
        · cases hk; exact (ruleCall_node hp (by decide) (by decide) hr).1
        · cases hk
  intro h0; rw [h0] at hne; exact hne rfl

/-- **C23, necessary.** With the built-in rules a derivative (with respect to an atom) that
is the integer 0 means that the variable does not occur in argument position.  The same holds
for every differentiator whose rules never produce `0`. -/
theorem C23_zero_only_if_constant (p : DiffProps Val) (hp : p = builtinDiff ∨
      (p.zero.children = [] ∧ p.one ≠ p.zero ∧ RuleNonzero p))
    (e x : Expr) (hx : x.children = []) (h : e.diff x 1 p = .ok p.zero) : ¬ ArgSub e x := by
  have hp' : p.zero.children = [] ∧ p.one ≠ p.zero ∧ RuleNonzero p := by
    rcases hp with rfl | hp
    · obtain ⟨fs, fc, fp, _, _, _, _, hb⟩ := builtinDiff_eq
      refine ⟨by rw [hb]; rfl, by rw [hb]; show one ≠ zero; decide, builtin_ruleNonzero⟩
    · exact hp
  intro hs
  exact deriv_nonzero p x hx hp'.1 hp'.2.1 hp'.2.2 e _ hs ((diff_ok_iff e x p _).1 h) rfl

/-- The hypotheses are met (a function of `y` only), and a vanishing real derivative need not
be the integer 0: `x**0`. -/
example : (sin y).diff x = .ok zero ∧ (pow x zero).diff x ≠ .ok zero := by decide +kernel

end Verif.Props
