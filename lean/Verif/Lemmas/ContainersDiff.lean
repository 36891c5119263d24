import Verif.Lemmas.Containers
import Verif.Lemmas.Diff

/-!
# Lemmas about containers on a heap: differentiation and evaluation
-/

namespace Verif.Mem
open Verif Spec
variable {V T α β : Type} {h h0 : Heap V T}

theorem isTrees_append {r : Nat} {ts : List (Tree V)} (hr : IsTrees h r ts) (t : Tree V) :
    IsTrees { h with objs := h.objs.set r (.list (ts.map .tree ++ [.tree t])) } r (ts ++ [t]) := by
  unfold IsTrees
  rw [List.map_append]
  exact get_set_self hr

variable [DecidableEq V]

/-! ### Differentiation -/

theorem productRule_post (args diffArgs : Nat) (as das : List (Tree V)) (zero mul : Tree V)
    (ha : IsTrees h args as) (hd : IsTrees h diffArgs das) :
    Post (productRule args diffArgs zero mul) h (fun r h' => OnlyNew h h' ∧ h.objs.length ≤ r ∧
      IsTrees h' r (productRuleForward as das zero mul)) noErr := by
  unfold productRule
  have h1 := get_lt ha
  have h2 := get_lt hd
  refine post_bind (post_new fun tm h1 et el hn gt => ?_)
  refine post_bind ((post_forList (cells := das.map .tree)
    (fun k h' => OnlyNew h h' ∧ ∃ ts, IsTrees h' tm ts ∧
      productRuleForward as das zero mul = productRuleLoop as zero mul k ts (das.drop k)) noErr
    (fun k h' hi => hi.1.get hd) ?_ ?_).mono ?_ fun _ _ h => h)
  · rintro k c h' hc ⟨hnew, ts, hts, heq⟩
    obtain ⟨t, ht, rfl⟩ := map_get hc
    rw [drop_of_get ht] at heq
    unfold productBody
    refine post_bind (post_pure ?_)
    unfold productRuleLoop at heq
    by_cases hz : t = zero
    · rw [if_neg (not_not_intro hz)] at heq ⊢
      exact post_pure ⟨hnew, ts, hts, heq⟩
    · rw [if_pos hz] at heq ⊢
      refine post_bind (post_readTrees (hnew.get ha) (post_append hts
        ⟨hnew.set (by omega) _, _, ?_, heq⟩))
      unfold IsTrees
      rw [List.map_append]
      exact get_set_self hts
  · exact ⟨hn, [], gt, rfl⟩
  · rintro _ h' ⟨hnew, ts, hts, heq⟩
    rw [List.length_map, List.drop_length] at heq
    refine post_pure ⟨hnew, by omega, ?_⟩
    rw [heq]; exact hts

omit [DecidableEq V] in
/-- The rules in a dict of rules stand for those in a table. -/
theorem rules_lookup {γ : Type} [DecidableEq γ] {δ ε : Type} {R : δ → ε → Prop} {l : List (γ × δ)}
    {l' : List (γ × ε)} (hf : List.Forall₂ (fun a b => a.1 = b.1 ∧ R a.2 b.2) l l') (k : γ) :
    (∃ f F, Dict.lookup k l = some f ∧ Dict.lookup k l' = some F ∧ R f F) ∨
    (Dict.lookup k l = none ∧ Dict.lookup k l' = none) := by
  induction hf with
  | nil => exact Or.inr ⟨rfl, rfl⟩
  | @cons a b l l' hab _ ih =>
    obtain ⟨ka, f⟩ := a
    obtain ⟨kb, F⟩ := b
    obtain ⟨hk, hR⟩ := hab
    cases hk
    unfold Dict.lookup
    by_cases hh : ka = k
    · rw [if_pos hh, if_pos hh]; exact Or.inl ⟨f, F, rfl, rfl, hR⟩
    · rw [if_neg hh, if_neg hh]; exact ih

omit [DecidableEq V] in
theorem rules_getItem {γ : Type} [DecidableEq γ] {δ ε : Type} {R : δ → ε → Prop} {d : Dict γ δ}
    {d' : Dict γ ε} (hf : List.Forall₂ (fun a b => a.1 = b.1 ∧ R a.2 b.2) d.items d'.items) (k : γ) :
    (∃ f F, d.getItem k = .ok f ∧ d'.getItem k = .ok F ∧ R f F) ∨
    ∃ e, d.getItem k = .error e ∧ d'.getItem k = .error e := by
  unfold Dict.getItem Dict.get?
  rcases rules_lookup hf k with ⟨f, F, h1, h2, h3⟩ | ⟨h1, h2⟩
  · rw [h1, h2]; exact Or.inl ⟨f, F, rfl, rfl, h3⟩
  · rw [h1, h2]; exact Or.inr ⟨_, rfl, rfl⟩

/-- Assignment to a rule. -/
theorem rules_assign {γ : Type} [DecidableEq γ] {δ ε : Type} {R : δ → ε → Prop} {l : List (γ × δ)}
    {l' : List (γ × ε)} (hf : List.Forall₂ (fun a b => a.1 = b.1 ∧ R a.2 b.2) l l') (k : γ) {f : δ}
    {F : ε} (hR : R f F) : List.Forall₂ (fun a b => a.1 = b.1 ∧ R a.2 b.2) (Dict.assign k f l)
      (Dict.assign k F l') := by
  induction hf with
  | nil => exact .cons ⟨rfl, hR⟩ .nil
  | @cons a b l l' hab hf ih =>
    obtain ⟨ka, f'⟩ := a
    obtain ⟨kb, F'⟩ := b
    obtain ⟨hk, hR'⟩ := hab
    cases hk
    unfold Dict.assign
    by_cases hh : ka = k
    · rw [if_pos hh, if_pos hh]; exact .cons ⟨rfl, hR⟩ hf
    · rw [if_neg hh, if_neg hh]; exact .cons ⟨rfl, hR'⟩ ih

theorem chainRule_post (func : Tree V) (args diffArgs rules : Nat) (as das : List (Tree V))
    (zero one mul : Tree V) (d : Dict (Tree V × Nat) Subs) (D : Dict (Tree V × Nat) (SubsFunc V))
    (ha : IsTrees h args as) (hd : IsTrees h diffArgs das) (hr : h.objs[rules]? = some (.rules d))
    (hD : List.Forall₂ (fun a b => a.1 = b.1 ∧ IsSubs h a.2 b.2) d.items D.items) :
    Post (chainRule func args diffArgs zero one mul rules) h
      (fun r h' => OnlyNew h h' ∧ h.objs.length ≤ r ∧ ∃ ts,
        chainRuleForward func as das zero one mul D = .ok ts ∧ IsTrees h' r ts)
      (fun e h' => OnlyNew h h' ∧ chainRuleForward func as das zero one mul D = .error e) := by
  unfold chainRule
  refine post_bind (post_new fun tm h1 et el hn gt => ?_)
  refine post_bind ((post_forList (cells := das.map .tree)
    (fun k h' => OnlyNew h h' ∧ ∃ ts, IsTrees h' tm ts ∧
      chainRuleForward func as das zero one mul D =
        chainRuleLoop func as zero one mul D k ts (das.drop k))
    (fun e h' => OnlyNew h h' ∧ chainRuleForward func as das zero one mul D = .error e)
    (fun k h' hi => hi.1.get hd) ?_ ?_).mono ?_ fun _ _ h => h)
  · rintro k c h' hc ⟨hnew, ts, hts, heq⟩
    obtain ⟨t, ht, rfl⟩ := map_get hc
    rw [drop_of_get ht] at heq
    unfold chainBody
    refine post_bind (post_pure ?_)
    unfold chainRuleLoop at heq
    by_cases hz : t = zero
    · rw [if_neg (not_not_intro hz)] at heq ⊢
      exact post_pure ⟨hnew, ts, hts, heq⟩
    · rw [if_pos hz] at heq ⊢
      refine post_bind (post_readRules (hnew.get hr) ?_)
      rcases rules_getItem hD (func, k) with ⟨f, F, e1, e2, hfF⟩ | ⟨e, e1, e2⟩
      · rw [e2] at heq
        rw [e1]
        refine post_bind (post_lift (fun _ hh => ?_) (fun _ hh => by cases hh))
        cases hh
        refine post_bind (post_readTrees (hnew.get ha) (post_bind ((subsCall_post f F (hfF.new hnew)
          as).mono ?_ ?_)))
        · rintro t' h'' ⟨hc', hn''⟩
          refine post_append (hn''.get hts) ⟨(hnew.trans hn'').set (by omega) _,
            ts ++ [if t ≠ one then mul.call [t', t] else t'], ?_, ?_⟩
          · exact isTrees_append (hn''.get hts) _
          · rw [heq]
            show (do let dt ← F.call as; _) = _
            rw [hc']; rfl
        · rintro e h'' ⟨hc', hn''⟩
          refine ⟨hnew.trans hn'', ?_⟩
          rw [heq]
          show (do let dt ← F.call as; _) = _
          rw [hc']; rfl
      · rw [e2] at heq
        rw [e1]
        refine post_bind (post_lift (fun _ hh => by cases hh) (fun _ hh => ?_))
        cases hh
        exact ⟨hnew, heq⟩
  · exact ⟨hn, [], gt, rfl⟩
  · rintro _ h' ⟨hnew, ts, hts, heq⟩
    rw [List.length_map, List.drop_length] at heq
    exact post_pure ⟨hnew, by omega, ts, heq, hts⟩

omit [DecidableEq V] in
theorem _root_.Verif.Spec.IsProps.mono {h' : Heap V T} {p : Props V} {P : DiffProps V}
    (hp : IsProps h p P)
    (hk : ∀ a o, a ∈ propsRefs h p → h.objs[a]? = some o → h'.objs[a]? = some o) :
    IsProps h' p P := by
  obtain ⟨h1, h2, h3, h4, h5, d, h6, h7⟩ := hp
  refine ⟨h1, h2, h3, h4, hk _ _ (by simp [propsRefs]) h5, d, hk _ _ (by simp [propsRefs]) h6, ?_⟩
  refine forall₂_imp_mem h7 ?_
  rintro a b ha ⟨hk', hs⟩
  refine ⟨hk', hs.mono fun r o hr => hk r o ?_⟩
  simp only [propsRefs, ruleRefs, h6, List.mem_append, List.mem_flatMap]
  exact Or.inr ⟨a, ha, hr⟩

omit [DecidableEq V] in
theorem _root_.Verif.Spec.IsProps.new {h' : Heap V T} {p : Props V} {P : DiffProps V}
    (hp : IsProps h p P) (hn : OnlyNew h h') : IsProps h' p P := hp.mono fun _ _ _ ho => hn.get ho

/-- `diff_terms` on values. -/
def pureTerms (p : DiffProps V) (func : Tree V) (args diffArgs : List (Tree V)) : PyM (List (Tree V)) :=
  if func ∈ p.distributive then pure [func.call diffArgs]
  else if isZeroSet p.zero diffArgs then pure []
  else if func = p.add then pure (diffArgs.filter (fun da => da ≠ p.zero))
  else if func = p.mul then pure (productRuleForward args diffArgs p.zero p.mul)
  else chainRuleForward func args diffArgs p.zero p.one p.mul p.diffRules

/-- The derivative on values. -/
def pureSum (p : DiffProps V) : List (Tree V) → Tree V
  | [] => p.zero
  | [t] => t
  | ts => p.add.call ts

theorem diffStep_eq (p : DiffProps V) (func : Tree V) (args diffArgs : List (Tree V)) :
    diffStep p func args diffArgs = (do let ts ← pureTerms p func args diffArgs; pure (pureSum p ts)) := by
  have hm : ∀ x : PyM (List (Tree V)), (do
      let ts ← x
      match ts with
      | [] => (pure p.zero : PyM (Tree V))
      | [t] => pure t
      | ts => pure (p.add.call ts)) = (do let ts ← x; pure (pureSum p ts)) := by
    intro x
    cases x with
    | error e => rfl
    | ok ts =>
      match ts with
      | [] => rfl
      | [t] => rfl
      | _ :: _ :: _ => rfl
  unfold diffStep pureTerms
  split
  · exact hm _
  split
  · exact hm _
  split
  · exact hm _
  split
  · exact hm _
  · exact hm _

theorem newTerms_post (p : Props V) (P : DiffProps V) (hp : IsProps h p P) (func : Tree V)
    (args diffArgs : Nat) (as das : List (Tree V)) (ha : IsTrees h args as)
    (hd : IsTrees h diffArgs das) :
    Post (newTerms p func args diffArgs) h
      (fun r h' => OnlyNew h h' ∧ ∃ ts, pureTerms P func as das = .ok ts ∧ IsTrees h' r ts)
      (fun e h' => OnlyNew h h' ∧ pureTerms P func as das = .error e) := by
  obtain ⟨h1, h2, h3, h4, h5, d, h6, h7⟩ := hp
  unfold newTerms pureTerms
  rw [h1, h2, h3, h4]
  refine post_bind (post_readTrees hd (post_bind (post_readSet h5 ?_)))
  split
  · exact post_new fun r h' _ _ hn g => ⟨hn, _, rfl, g⟩
  split
  · exact post_new fun r h' _ _ hn g => ⟨hn, _, rfl, g⟩
  split
  · exact post_new fun r h' _ _ hn g => ⟨hn, _, rfl, g⟩
  split
  · exact (productRule_post args diffArgs as das P.zero P.mul ha hd).of_noErr
      fun r h' hh => ⟨hh.1, _, rfl, hh.2.2⟩
  · exact (chainRule_post func args diffArgs p.diffRules as das P.zero P.one P.mul d P.diffRules ha hd
      h6 h7).mono (fun r h' hh => ⟨hh.1, hh.2.2⟩) fun _ _ hh => hh

theorem diffForward_post (p : Props V) (P : DiffProps V) (hp : IsProps h p P) (e sym : Tree V) :
    Post (diffForward e sym p) h (fun t h' => OnlyNew h h' ∧ Verif.diffForward e sym P = .ok t)
      (fun err h' => OnlyNew h h' ∧ Verif.diffForward e sym P = .error err) := by
  unfold diffForward
  refine post_bind ((forwardGraph_post e).of_noErr ?_)
  rintro g h1 ⟨G, hG, n1, ⟨ga, gh, cells, gc, gf⟩, -⟩
  have hp' := hp
  obtain ⟨e1, e2, -⟩ := hp'
  refine post_bind (post_readTrees ga (post_bind (post_new fun st h2 es el2 n2 gs =>
    post_bind (post_readTrees gs (post_bind (post_new fun ds h3 ed el3 n3 gd => ?_))))))
  have hl1 := n1.le
  have hF : Verif.diffForward e sym P = (do
      let r ← diffLoop P G.atoms (G.atoms.map (fun expr => if expr = sym then p.one else p.zero))
        G.operations
      pyLast r) := by
    unfold Verif.diffForward
    rw [hG, e1, e2]; rfl
  refine post_bind ((post_forList (cells := cells)
    (fun k h' => OnlyNew h1 h' ∧ ∃ s t, IsTrees h' st s ∧ IsTrees h' ds t ∧
      diffLoop P G.atoms (G.atoms.map (fun expr => if expr = sym then p.one else p.zero))
        G.operations = diffLoop P s t (G.operations.drop k))
    (fun err h' => OnlyNew h h' ∧ Verif.diffForward e sym P = .error err)
    (fun k h' hi => hi.1.get gc) ?_ ?_).mono ?_ fun _ _ h => h)
  · rintro k c h' hc ⟨hnew, s, t, hs, ht, heq⟩
    obtain ⟨⟨func, is⟩, hop, r, rfl, hr⟩ := forall₂_get gf hc
    rw [drop_of_get hop] at heq
    have hx : diffLoop P s t ((func, is) :: G.operations.drop (k + 1)) =
      (do let args ← is.mapM (fun i => pyGet s i)
          let diffArgs ← is.mapM (fun i => pyGet t i)
          let derivative ← diffStep P func args diffArgs
          diffLoop P (s ++ [func.call args]) (t ++ [derivative]) (G.operations.drop (k + 1))) := rfl
    rw [hx] at heq
    unfold diffBody
    refine post_bind (post_readInts (hnew.get hr) (post_bind (post_readTrees hs (post_bind
      (post_lift (fun as has => ?_) (fun err herr => ?_))))))
    · rw [has] at heq
      refine post_bind (post_new fun ar h4 ea el4 n4 gar => post_bind (post_readTrees (n4.get ht)
        (post_bind (post_lift (fun das hdas => ?_) (fun err herr => ?_)))))
      · rw [hdas] at heq
        refine post_bind (post_new fun da h5 eda el5 n5 gda => post_bind (post_readTrees (n5.get gar)
          (post_bind ((newTerms_post p P (((((hp.new n1).new hnew).new n4).new n5)) func ar da as das
            (n5.get gar) gda).mono ?_ ?_))))
        · rintro tr h6 ⟨n6, ts, hts, gts⟩
          have hl := hnew.le
          have hne : st ≠ ds := by omega
          refine post_bind (post_readTrees gts (post_bind (post_append
            (n6.get (n5.get (n4.get hs))) (post_append
            (get_set_other (n6.get (n5.get (n4.get ht))) hne) ⟨?_,
            s ++ [func.call as], t ++ [sumTerms p ts], ?_, ?_, ?_⟩))))
          · exact ((((hnew.trans n4).trans n5).trans n6).set (by omega) _).set (by omega) _
          · exact get_set_other (isTrees_append (n6.get (n5.get (n4.get hs))) _) hne.symm
          · exact isTrees_append (h := { h6 with objs := _ })
              (get_set_other (n6.get (n5.get (n4.get ht))) hne) _
          · rw [heq]
            have : sumTerms p ts = pureSum P ts := by
              obtain ⟨q1, -, q3, -⟩ := hp
              match ts with
              | [] => exact q1
              | [t] => rfl
              | _ :: _ :: _ => show p.add.call _ = P.add.call _; rw [q3]
            rw [this]
            show (do let derivative ← diffStep P func as das; _) = _
            rw [diffStep_eq, hts]; rfl
        · rintro err h6 ⟨n6, herr⟩
          refine ⟨(((n1.trans hnew).trans n4).trans n5).trans n6, ?_⟩
          rw [hF, heq]
          show (do let r ← (do let derivative ← diffStep P func as das; _); _) = _
          rw [diffStep_eq, herr]; rfl
      · refine ⟨(n1.trans hnew).trans n4, ?_⟩
        rw [hF, heq, herr]; rfl
    · refine ⟨n1.trans hnew, ?_⟩
      rw [hF, heq, herr]; rfl
  · exact ⟨n2.trans n3, _, _, n3.get gs, gd, rfl⟩
  · rintro _ h' ⟨hnew, s, t, hs, ht, heq⟩
    have hl : cells.length = G.operations.length := gf.length_eq
    rw [hl, List.drop_length] at heq
    have heq' : diffLoop P G.atoms (G.atoms.map (fun expr => if expr = sym then p.one else p.zero))
        G.operations = .ok t := heq
    refine post_bind (post_readTrees ht (post_lift (fun a ha => ⟨n1.trans hnew, ?_⟩)
      (fun er he => ⟨n1.trans hnew, ?_⟩)))
    · rw [hF, heq']; exact ha
    · rw [hF, heq']; exact he

theorem iterate_post (p : Props V) (P : DiffProps V) (sym : Tree V) (n : Nat) :
    ∀ (h : Heap V T) (e : Tree V), IsProps h p P →
    Post (Props.iterate p sym n e) h
      (fun t h' => OnlyNew h h' ∧ iterPy (fun d => Verif.diffForward d sym P) n e = .ok t)
      (fun err h' => OnlyNew h h' ∧ iterPy (fun d => Verif.diffForward d sym P) n e = .error err) := by
  induction n with
  | zero => exact fun h e _ => post_pure ⟨OnlyNew.refl _, rfl⟩
  | succ n ih =>
    intro h e hp
    unfold Props.iterate
    refine post_bind ((diffForward_post p P hp e sym).mono ?_ ?_)
    · rintro d h' ⟨hn, hd⟩
      have : iterPy (fun d => Verif.diffForward d sym P) (n + 1) e =
          iterPy (fun d => Verif.diffForward d sym P) n d := by
        show (do let a ← Verif.diffForward e sym P; _) = _
        rw [hd]; rfl
      rw [this]
      exact (ih h' d (hp.new hn)).mono (fun _ _ hh => ⟨hn.trans hh.1, hh.2⟩)
        (fun _ _ hh => ⟨hn.trans hh.1, hh.2⟩)
    · rintro err h' ⟨hn, hd⟩
      refine ⟨hn, ?_⟩
      show (do let a ← Verif.diffForward e sym P; _) = _
      rw [hd]; rfl

end Verif.Mem
