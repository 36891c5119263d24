import Verif.Lemmas.Graph
import Verif.Lemmas.Dict

/-!
# SubsFunc: helper lemmas
-/

namespace Verif
open Spec
variable {V : Type}

theorem substList_eq (σ : Tree V → Option (Tree V)) (cs : List (Tree V)) :
    substList σ cs = cs.map (subst σ) := by
  induction cs with
  | nil => rfl
  | cons c cs ih => simp [substList, ih]

theorem subst_some {σ : Tree V → Option (Tree V)} {t u : Tree V} (h : σ t = some u) :
    subst σ t = u := by
  cases t <;> simp [subst, h]

theorem subst_none_node {σ : Tree V → Option (Tree V)} {cs : List (Tree V)}
    (h : σ (.node cs) = none) : subst σ (.node cs) = .node (cs.map (subst σ)) := by
  simp [subst, h, substList_eq]

theorem subst_none_atom {σ : Tree V → Option (Tree V)} {a : Atom V}
    (h : σ (.atom a) = none) : subst σ (.atom a) = .atom a := by
  simp [subst, h]

variable [DecidableEq V]

mutual
/-- `t` has a member of `args` strictly below it (head positions included). -/
def hasArgBelow (args : List (Tree V)) : Tree V → Bool
  | .atom _ => false
  | .node cs => hasArgBelowList args cs
/-- Some member of the list is, or has below it, a member of `args`. -/
def hasArgBelowList (args : List (Tree V)) : List (Tree V) → Bool
  | [] => false
  | c :: cs => decide (c ∈ args) || hasArgBelow args c || hasArgBelowList args cs
end

theorem hasArgBelowList_eq (args cs : List (Tree V)) :
    hasArgBelowList args cs = cs.any (fun c => decide (c ∈ args) || hasArgBelow args c) := by
  induction cs with
  | nil => rfl
  | cons c cs ih => simp [hasArgBelowList, ih]

theorem hasArgBelow_eq (args : List (Tree V)) (t : Tree V) :
    hasArgBelow args t = t.children.any (fun c => decide (c ∈ args) || hasArgBelow args c) := by
  cases t with
  | atom a => simp [hasArgBelow, Tree.children]
  | node cs => simp [hasArgBelow, Tree.children, hasArgBelowList_eq]

omit [DecidableEq V] in
theorem kids_true_eq (t : Tree V) : kids true t = t.children := by
  cases t with
  | atom a => rfl
  | node cs => cases cs <;> rfl

/-- The classification loop. -/
theorem subs_fold (args : List (Tree V)) :
    ∀ (todo done : List (Tree V)) (s : SubsState V),
    (∀ pre t post, done ++ todo = pre ++ t :: post →
      ∀ c ∈ t.children, c ∉ args → c ∈ pre) →
    (∀ t ∈ done ++ todo, t ∉ args) →
    s.atoms = done.filter (fun t => !hasArgBelow args t) →
    s.nodes = done.filter (hasArgBelow args) →
    (∀ t, t ∈ s.hasArgs ↔ t ∈ args ∨ (t ∈ done ∧ hasArgBelow args t = true)) →
    (∀ t, t ∈ s.nodeChildren ↔ ∃ n ∈ done, hasArgBelow args n = true ∧ t ∈ n.children) →
    (todo.foldl subsStep s).atoms = (done ++ todo).filter (fun t => !hasArgBelow args t) ∧
    (todo.foldl subsStep s).nodes = (done ++ todo).filter (hasArgBelow args) ∧
    (∀ t, t ∈ (todo.foldl subsStep s).nodeChildren ↔
      ∃ n ∈ done ++ todo, hasArgBelow args n = true ∧ t ∈ n.children) := by
  intro todo
  induction todo with
  | nil => intro done s _ _ h1 h2 _ h4; simpa using ⟨h1, h2, h4⟩
  | cons t todo ih =>
    intro done s hkids hargs h1 h2 h3 h4
    have hany : t.children.any (fun c => decide (c ∈ s.hasArgs)) = hasArgBelow args t := by
      rw [hasArgBelow_eq]
      rw [Bool.eq_iff_iff]
      simp only [List.any_eq_true, Bool.or_eq_true, decide_eq_true_eq]
      constructor
      · rintro ⟨c, hc, hca⟩
        rcases (h3 c).1 hca with h | ⟨_, h⟩
        · exact ⟨c, hc, Or.inl h⟩
        · exact ⟨c, hc, Or.inr h⟩
      · rintro ⟨c, hc, h⟩
        by_cases hca : c ∈ args
        · exact ⟨c, hc, (h3 c).2 (Or.inl hca)⟩
        · rcases h with h | h
          · exact absurd h hca
          · exact ⟨c, hc, (h3 c).2 (Or.inr ⟨hkids done t todo rfl c hc hca, h⟩)⟩
    rw [List.foldl_cons]
    have happ : done ++ t :: todo = (done ++ [t]) ++ todo := by simp
    rw [happ] at hkids hargs ⊢
    by_cases hb : hasArgBelow args t = true
    · have hne : t.children ≠ [] := by
        intro h0; rw [hasArgBelow_eq, h0] at hb; simp at hb
      have hstep : subsStep s t =
          ⟨s.atoms, s.nodes ++ [t], t :: s.hasArgs, t.children ++ s.nodeChildren⟩ := by
        unfold subsStep
        rw [if_pos hne, if_pos (by rw [hany]; exact hb)]
      rw [hstep]
      apply ih (done ++ [t]) _ hkids hargs
      · simp [h1, hb]
      · simp [h2, hb]
      · intro u
        simp only [List.mem_cons, h3, List.mem_append, List.not_mem_nil, or_false]
        constructor
        · rintro (rfl | h | h)
          · exact Or.inr ⟨Or.inr rfl, hb⟩
          · exact Or.inl h
          · exact Or.inr ⟨Or.inl h.1, h.2⟩
        · rintro (h | ⟨h | rfl, h'⟩)
          · exact Or.inr (Or.inl h)
          · exact Or.inr (Or.inr ⟨h, h'⟩)
          · exact Or.inl rfl
      · intro u
        simp only [List.mem_append, h4, List.mem_cons, List.not_mem_nil, or_false]
        constructor
        · rintro (h | ⟨n, hn, hn', hu⟩)
          · exact ⟨t, Or.inr rfl, hb, h⟩
          · exact ⟨n, Or.inl hn, hn', hu⟩
        · rintro ⟨n, hn | rfl, hn', hu⟩
          · exact Or.inr ⟨n, hn, hn', hu⟩
          · exact Or.inl hu
    · have hb' : hasArgBelow args t = false := by simpa using hb
      have hstep : subsStep s t = ⟨s.atoms ++ [t], s.nodes, s.hasArgs, s.nodeChildren⟩ := by
        unfold subsStep
        have : ¬ (t.children.any (fun c => decide (c ∈ s.hasArgs)) = true) := by rw [hany]; exact hb
        simp only [this, Bool.false_eq_true, if_false, ite_self]
      rw [hstep]
      apply ih (done ++ [t]) _ hkids hargs
      · simp [h1, hb']
      · simp [h2, hb']
      · intro u
        simp only [h3, List.mem_append, List.mem_cons, List.not_mem_nil, or_false]
        constructor
        · rintro (h | h)
          · exact Or.inl h
          · exact Or.inr ⟨Or.inl h.1, h.2⟩
        · rintro (h | ⟨h | rfl, h'⟩)
          · exact Or.inl h
          · exact Or.inr ⟨h, h'⟩
          · rw [hb'] at h'; cases h'
      · intro u
        simp only [h4, List.mem_append, List.mem_cons, List.not_mem_nil, or_false]
        constructor
        · rintro ⟨n, hn, hn', hu⟩
          exact ⟨n, Or.inl hn, hn', hu⟩
        · rintro ⟨n, hn | rfl, hn', hu⟩
          · exact ⟨n, hn, hn', hu⟩
          · rw [hb'] at hn'; cases hn'

/-- Lookup of the recorded child positions. -/
theorem mapM_pyGet_of_dict {K T : Type} [DecidableEq K] (d : Dict K Nat) (stack : List T)
    (F : K → T) (cs : List K) (hdom : ∀ c ∈ cs, (d.get? c).isSome)
    (hagree : ∀ c i, d.get? c = some i → stack[i]? = some (F c)) :
    ∃ is, cs.mapM (fun c => d.getItem c) = .ok is ∧
      is.mapM (fun i => pyGet stack i) = .ok (cs.map F) := by
  induction cs with
  | nil => exact ⟨[], rfl, rfl⟩
  | cons c cs ih =>
    obtain ⟨is, h1, h2⟩ := ih (fun x hx => hdom x (by simp [hx]))
    obtain ⟨i, hi⟩ := Option.isSome_iff_exists.1 (hdom c (by simp))
    refine ⟨i :: is, ?_, ?_⟩
    · rw [List.mapM_cons, Dict.getItem_eq_ok hi, h1]; rfl
    · rw [List.mapM_cons]
      have : pyGet stack i = .ok (F c) := by simp [pyGet, hagree c i hi]
      rw [this, h2]; rfl

theorem mapM_getItem_exists {K W : Type} [DecidableEq K] (d : Dict K W) (cs : List K)
    (hdom : ∀ c ∈ cs, (d.get? c).isSome) : ∃ is, cs.mapM (fun c => d.getItem c) = .ok is := by
  induction cs with
  | nil => exact ⟨[], rfl⟩
  | cons c cs ih =>
    obtain ⟨is, h1⟩ := ih (fun x hx => hdom x (by simp [hx]))
    obtain ⟨i, hi⟩ := Option.isSome_iff_exists.1 (hdom c (by simp))
    exact ⟨i :: is, by rw [List.mapM_cons, Dict.getItem_eq_ok hi, h1]; rfl⟩

/-- The operations recorded by `SubsFunc.__new__` rebuild the nodes, whatever the values. -/
theorem subs_ops (nodes : List (Tree V)) :
    ∀ (index : Nat) (indices : Dict (Tree V) Nat) (ops : List (List Nat)),
    (∀ pre t post, nodes = pre ++ t :: post →
      ∀ c ∈ t.children, (indices.get? c).isSome ∨ c ∈ pre) →
    ∃ ops', subsOpsLoop index indices ops nodes = .ok (ops ++ ops') ∧
      ∀ (F : Tree V → Tree V) (stack : List (Tree V)), stack.length = index →
        (∀ t ∈ nodes, F t = .node (t.children.map F)) →
        (∀ c i, indices.get? c = some i → stack[i]? = some (F c)) →
        subsCallLoop stack ops' = .ok (stack ++ nodes.map F) := by
  induction nodes with
  | nil =>
    intro index indices ops _
    exact ⟨[], by simp [subsOpsLoop], fun F stack _ _ _ => by simp [subsCallLoop]⟩
  | cons t nodes ih =>
    intro index indices ops hready
    have hne : ∀ c ∈ t.children, c ≠ t := by
      intro c hc h; subst h; have := size_child hc; omega
    have hdom : ∀ c ∈ t.children, ((indices.set t index).get? c).isSome := by
      intro c hc
      rw [Dict.get?_set]
      split
      · rfl
      · rcases hready [] t nodes rfl c hc with h | h
        · exact h
        · cases h
    obtain ⟨is, his⟩ := mapM_getItem_exists _ _ hdom
    obtain ⟨ops', h1, h2⟩ := ih (index + 1) (indices.set t index) (ops ++ [is]) (by
      intro pre u post h c hc
      rcases hready (t :: pre) u post (by rw [h]; rfl) c hc with h' | h'
      · left; rw [Dict.get?_set]; split
        · rfl
        · exact h'
      · rcases List.mem_cons.1 h' with rfl | h'
        · left; rw [Dict.get?_set_self]; rfl
        · exact Or.inr h')
    refine ⟨is :: ops', ?_, ?_⟩
    · unfold subsOpsLoop
      simp only [his, bind, Except.bind]
      rw [h1]; simp
    · intro F stack hlen hF hagree
      have hags : ∀ c ∈ t.children, ∀ i, (indices.set t index).get? c = some i →
          stack[i]? = some (F c) := by
        intro c hc i hi
        rw [Dict.get?_set_ne _ _ (fun h => hne c hc h.symm)] at hi
        exact hagree c i hi
      have hch : is.mapM (fun i => pyGet stack i) = .ok (t.children.map F) := by
        clear h1 h2 hready hne
        revert is
        revert hdom hags
        generalize t.children = cs
        induction cs with
        | nil => intro _ _ is his; cases his; rfl
        | cons c cs ihc =>
          intro hdom hags is his
          obtain ⟨i, hi⟩ := Option.isSome_iff_exists.1 (hdom c (by simp))
          obtain ⟨is', his'⟩ := mapM_getItem_exists _ cs (fun x hx => hdom x (by simp [hx]))
          rw [List.mapM_cons, Dict.getItem_eq_ok hi, his'] at his
          cases his
          rw [List.mapM_cons, ihc (fun x hx => hdom x (by simp [hx]))
            (fun x hx => hags x (by simp [hx])) is' his']
          have : pyGet stack i = .ok (F c) := by simp [pyGet, hags c (by simp) i hi]
          rw [this]; rfl
      unfold subsCallLoop
      simp only [hch, bind, Except.bind]
      rw [← hF t (by simp)]
      rw [h2 F (stack ++ [F t]) (by simp [hlen]) (fun u hu => hF u (by simp [hu]))]
      · simp
      · intro c i hi
        rw [Dict.get?_set] at hi
        split at hi
        · rename_i h
          cases hi
          subst h
          rw [← hlen]; simp
        · have := hagree c i hi
          have hlt := (List.getElem?_eq_some_iff.1 this).1
          rw [List.getElem?_append_left hlt]; exact this

theorem lastAssoc_zip_values {K W : Type} [DecidableEq K] (ks : List K) (ws : List W) (s i : Nat)
    (k : K) (hlen : ks.length = ws.length)
    (h : lastAssoc k (ks.zip (List.range' s ks.length)) = some i) :
    s ≤ i ∧ i - s < ws.length ∧ lastAssoc k (ks.zip ws) = ws[i - s]? := by
  induction ks generalizing ws s with
  | nil => simp [lastAssoc] at h
  | cons a ks ih =>
    cases ws with
    | nil => simp at hlen
    | cons w ws =>
      simp only [List.length_cons, Nat.add_right_cancel_iff] at hlen
      simp only [List.length_cons, List.range'_succ, List.zip_cons_cons, lastAssoc] at h ⊢
      cases hr : lastAssoc k (ks.zip (List.range' (s + 1) ks.length)) with
      | some j =>
        rw [hr] at h
        cases h
        obtain ⟨h1, h2, h3⟩ := ih ws (s + 1) hlen hr
        have hj : i - s = (i - (s + 1)) + 1 := by omega
        refine ⟨by omega, by omega, ?_⟩
        rw [h3, List.getElem?_eq_getElem h2, hj]
        simp [List.getElem?_eq_getElem h2]
      | none =>
        rw [hr] at h
        simp only at h
        split at h
        · cases h
          rename_i hak
          have hn : lastAssoc k (ks.zip ws) = none := by
            rw [lastAssoc_eq_none_iff] at hr ⊢
            rw [List.map_fst_zip (by simp)] at hr
            rw [List.map_fst_zip (by omega)]
            exact hr
          rw [hn]; simp [hak]
        · cases h

omit [DecidableEq V] in
theorem mem_zip_self {α : Type} {l : List α} {a b : α} (h : (a, b) ∈ l.zip l) : a = b := by
  induction l with
  | nil => cases h
  | cons c l ih =>
    rw [List.zip_cons_cons] at h
    rcases List.mem_cons.1 h with h | h
    · cases h; rfl
    · exact ih h

theorem pairing_isSome {params values : List (Tree V)} (hlen : params.length = values.length)
    (t : Tree V) : pairing params values t = none ↔ t ∉ params := by
  unfold pairing
  rw [lastAssoc_eq_none_iff, List.map_fst_zip (by omega)]

/-- Substitution does not change an expression without parameters. -/
theorem subst_noArg {params : List (Tree V)} {σ : Tree V → Option (Tree V)}
    (hσ : ∀ t, t ∉ params → σ t = none) (t : Tree V) (ht : t ∉ params)
    (hb : hasArgBelow params t = false) : subst σ t = t := by
  induction t using Tree.induction with
  | h t ih =>
    cases t with
    | atom a => exact subst_none_atom (hσ _ ht)
    | node cs =>
      rw [subst_none_node (hσ _ ht)]
      congr 1
      rw [hasArgBelow_eq] at hb
      simp only [List.any_eq_false, Bool.or_eq_true, decide_eq_true_eq, not_or] at hb
      have : cs.map (subst σ) = cs.map id := by
        apply List.map_congr_left
        intro c hc
        obtain ⟨h1, h2⟩ := hb c hc
        exact ih c hc h1 (by simpa using h2)
      simpa using this

/-- Upward closure. -/
theorem hasArgBelow_reach {params : List (Tree V)} {P : Tree V → Prop} {e t : Tree V}
    (h : Reach true P e t) (ht : hasArgBelow params t = true) : hasArgBelow params e = true := by
  induction h with
  | refl => exact ht
  | down _ hc _ ih =>
    rw [kids_true_eq] at hc
    rw [hasArgBelow_eq, List.any_eq_true]
    exact ⟨_, hc, by simp [ih ht]⟩

/-- `SubsFunc` when the whole expression is not a parameter. -/
theorem subsFunc_main (e : Tree V) (params : List (Tree V)) (he : e ∉ params) :
    ∃ f, SubsFunc.new e params = .ok f ∧ f.nargs = params.length ∧
      ∀ values : List (Tree V), values.length = params.length →
        f.call values = .ok (subst (pairing params values) e) := by
  let T := topologicalSort true params e
  have hT : topologicalSort true params e = T := rfl
  have hnotin : ∀ t ∈ T, t ∉ params := by
    intro t ht
    exact ((mem_topologicalSort true params e t).1 ht).not_excl
  have hkids : ∀ pre t post, T = pre ++ t :: post → ∀ c ∈ t.children, c ∉ params → c ∈ pre := by
    intro pre t post h c hc hx
    exact kids_mem_prefix h (by rw [kids_true_eq]; exact hc) hx
  obtain ⟨hA, hN, hC⟩ := subs_fold params T [] ⟨[], [], params, []⟩ (by simpa using hkids)
    (by simpa using hnotin) rfl rfl (by simp) (by simp)
  simp only [List.nil_append] at hA hN hC
  obtain ⟨T', hT', _⟩ := topologicalSort_not_excl (heads := true) he
  rw [hT] at hT'
  have heT : e ∈ T := by rw [hT']; simp
  have hNe : ∀ n ∈ T, hasArgBelow params n = true → hasArgBelow params e = true := by
    intro n hn hb
    exact hasArgBelow_reach ((mem_topologicalSort true params e n).1 hn) hb
  -- the retained atoms
  let s := T.foldl subsStep ⟨[], [], params, []⟩
  let atoms := if s.atoms ≠ [] ∧ s.nodes = [] then [e]
    else s.atoms.filter (fun a => a ∈ s.nodeChildren)
  have hatoms : ∀ a ∈ atoms, a ∈ T ∧ hasArgBelow params a = false := by
    intro a ha
    simp only [atoms] at ha
    split at ha
    · rename_i h
      simp only [List.mem_singleton] at ha
      subst ha
      refine ⟨heT, ?_⟩
      cases hb : hasArgBelow params a with
      | false => rfl
      | true =>
        have : a ∈ s.nodes := by show a ∈ (T.foldl subsStep _).nodes; rw [hN]; simp [heT, hb]
        rw [h.2] at this; cases this
    · rw [List.mem_filter] at ha
      have ha1 : a ∈ (T.foldl subsStep ⟨[], [], params, []⟩).atoms := ha.1
      rw [hA, List.mem_filter] at ha1
      exact ⟨ha1.1, by simpa using ha1.2⟩
  let d0 : Dict (Tree V) Nat := Dict.ofPairs (params.zip (List.range params.length))
  let d := d0.update (atoms.zip (List.range' params.length atoms.length))
  have hd : ∀ t, d.get? t =
      (match lastAssoc t (atoms.zip (List.range' params.length atoms.length)) with
       | some i => some i
       | none => lastAssoc t (params.zip (List.range params.length))) := by
    intro t
    simp only [d, d0]
    rw [Dict.get?_update, Dict.get?_ofPairs]
    cases lastAssoc t (atoms.zip (List.range' params.length atoms.length)) <;> rfl
  have hdsome : ∀ t, t ∈ params ∨ t ∈ atoms → (d.get? t).isSome := by
    intro t ht
    rw [hd]
    cases h1 : lastAssoc t (atoms.zip (List.range' params.length atoms.length)) with
    | some i => rfl
    | none =>
      rw [lastAssoc_eq_none_iff, List.map_fst_zip (by simp)] at h1
      cases h2 : lastAssoc t (params.zip (List.range params.length)) with
      | some i => rfl
      | none =>
        rw [lastAssoc_eq_none_iff, List.map_fst_zip (by simp)] at h2
        rcases ht with h | h
        · exact absurd h h2
        · exact absurd h h1
  have hready : ∀ pre t post, s.nodes = pre ++ t :: post →
      ∀ c ∈ t.children, (d.get? c).isSome ∨ c ∈ pre := by
    intro pre t post h c hc
    have hn : s.nodes = T.filter (hasArgBelow params) := hN
    rw [hn] at h
    have htn : t ∈ T ∧ hasArgBelow params t = true := by
      have : t ∈ T.filter (hasArgBelow params) := by rw [h]; simp
      exact List.mem_filter.1 this
    by_cases hcp : c ∈ params
    · exact Or.inl (hdsome c (Or.inl hcp))
    · obtain ⟨pre', post', h1, h2⟩ := filter_eq_split h
      have hcpre := hkids pre' t post' h1 c hc hcp
      cases hb : hasArgBelow params c with
      | true => right; rw [← h2, List.mem_filter]; exact ⟨hcpre, hb⟩
      | false =>
        left
        apply hdsome
        right
        have hnodes : s.nodes ≠ [] := by rw [hn, h]; simp
        simp only [atoms]
        rw [if_neg (by intro hh; exact hnodes hh.2), List.mem_filter]
        have hcT : c ∈ T := by rw [h1]; simp [hcpre]
        refine ⟨?_, ?_⟩
        · show c ∈ (T.foldl subsStep _).atoms
          rw [hA, List.mem_filter]; exact ⟨hcT, by simp [hb]⟩
        · simp only [decide_eq_true_eq]
          exact (hC c).2 ⟨t, htn.1, htn.2, hc⟩
  obtain ⟨ops, ho1, ho2⟩ := subs_ops s.nodes (params.length + atoms.length) d [] hready
  refine ⟨⟨params.length, atoms, ops⟩, ?_, rfl, ?_⟩
  · unfold SubsFunc.new
    show (subsOpsLoop (params.length + atoms.length) d [] s.nodes >>= _) = _
    rw [ho1]; rfl
  · intro values hlen
    have hσ : ∀ t, t ∉ params → pairing params values t = none :=
      fun t ht => (pairing_isSome hlen.symm t).2 ht
    have hcall := ho2 (subst (pairing params values)) (values ++ atoms) (by simp [hlen])
      (by
        intro t ht
        have : t ∈ (T.foldl subsStep ⟨[], [], params, []⟩).nodes := ht
        rw [hN, List.mem_filter] at this
        cases t with
        | atom a => simp [hasArgBelow] at this
        | node cs => exact subst_none_node (hσ _ (hnotin _ this.1)))
      (by
        intro c i hi
        rw [hd] at hi
        cases h1 : lastAssoc c (atoms.zip (List.range' params.length atoms.length)) with
        | some j =>
          rw [h1] at hi; cases hi
          have hg := lastAssoc_zip_values atoms atoms _ _ c rfl h1
          have hmem := (List.of_mem_zip (lastAssoc_mem h1)).1
          obtain ⟨hcT, hcb⟩ := hatoms c hmem
          rw [subst_noArg hσ c (hnotin c hcT) hcb]
          rw [List.getElem?_append_right (by omega), hlen, ← hg.2.2]
          have hx : lastAssoc c (atoms.zip atoms) ≠ none := by
            rw [Ne, lastAssoc_eq_none_iff, List.map_fst_zip (by simp)]; simpa using hmem
          obtain ⟨w, hw⟩ := Option.ne_none_iff_exists'.1 hx
          rw [hw]
          rw [mem_zip_self (lastAssoc_mem hw)]
        | none =>
          rw [h1, List.range_eq_range'] at hi
          have hg := lastAssoc_zip_values params values _ _ c hlen.symm hi
          simp only [Nat.sub_zero] at hg
          rw [List.getElem?_append_left hg.2.1, ← hg.2.2]
          have hmem := (List.of_mem_zip (lastAssoc_mem hi)).1
          have hx : pairing params values c ≠ none := by
            rw [Ne, pairing_isSome hlen.symm]; simpa using hmem
          obtain ⟨w, hw⟩ := Option.ne_none_iff_exists'.1 hx
          rw [subst_some hw]
          exact hw)
    unfold SubsFunc.call
    simp only [hlen, ne_eq, not_true_eq_false, if_false]
    show (subsCallLoop (values ++ atoms) ops >>= _) = _
    rw [hcall]
    show pyLast _ = _
    have hn : s.nodes = T.filter (hasArgBelow params) := hN
    by_cases hb : hasArgBelow params e = true
    · have : s.nodes = T'.filter (hasArgBelow params) ++ [e] := by
        rw [hn, hT']; simp [hb]
      rw [this]
      simp [pyLast]
    · have hnil : s.nodes = [] := by
        rw [hn, List.filter_eq_nil_iff]
        intro t ht h; exact hb (hNe t ht h)
      have hane : s.atoms ≠ [] := by
        intro h0
        have : e ∈ (T.foldl subsStep ⟨[], [], params, []⟩).atoms := by
          rw [hA, List.mem_filter]; simp [heT, hb]
        have h0' : (T.foldl subsStep ⟨[], [], params, []⟩).atoms = [] := h0
        rw [h0'] at this; cases this
      have hat : atoms = [e] := by simp only [atoms]; rw [if_pos ⟨hane, hnil⟩]
      rw [hnil, hat, subst_noArg hσ e he (by simpa using hb)]
      simp [pyLast]

/-- `SubsFunc` when the whole expression is a parameter: the *last* value is returned. -/
theorem subsFunc_param (e : Tree V) (params : List (Tree V)) (he : e ∈ params) :
    ∃ f, SubsFunc.new e params = .ok f ∧ f.nargs = params.length ∧
      ∀ values : List (Tree V), values.length = params.length →
        f.call values = pyLast values := by
  refine ⟨⟨params.length, [], []⟩, ?_, rfl, ?_⟩
  · unfold SubsFunc.new
    rw [topologicalSort_excl he]
    rfl
  · intro values hlen
    unfold SubsFunc.call
    simp [hlen, subsCallLoop, bind, Except.bind]

end Verif
