import Verif.Spec.Diff
import Verif.Lemmas.Eval

/-!
# The forward accumulation computes the structural derivative
-/

namespace Verif
open Spec
variable {V : Type} [DecidableEq V]

theorem productRuleLoop_eq (p : DiffProps V) (args : List (Tree V)) :
    ∀ (ds : List (Tree V)) (n : Nat) (terms : List (Tree V)), n + ds.length ≤ args.length →
      productRuleLoop args p.zero p.mul n terms ds =
        terms ++ ((ds.zipIdx n).filter (fun q => q.1 ≠ p.zero)).map
          (fun q => .node (p.mul :: args.set q.2 q.1)) := by
  intro ds
  induction ds with
  | nil => intro n terms _; simp [productRuleLoop]
  | cons d ds ih =>
    intro n terms hlen
    simp only [List.length_cons] at hlen
    unfold productRuleLoop
    rw [List.zipIdx_cons]
    by_cases hd : d = p.zero
    · rw [if_neg (by simpa using hd), ih (n + 1) terms (by omega),
        List.filter_cons_of_neg (by simpa using hd)]
    · rw [if_pos hd]
      simp only
      rw [ih (n + 1) _ (by omega), List.filter_cons_of_pos (by simpa using hd), List.map_cons]
      have hset : args.set n d = args.take n ++ [d] ++ args.drop (n + 1) := by
        rw [List.set_eq_take_append_cons_drop, if_pos (by omega)]
        simp
      simp [hset, Tree.call]

theorem chainRuleLoop_eq (p : DiffProps V) (h : Tree V) (args : List (Tree V)) :
    ∀ (ds : List (Tree V)) (n : Nat) (terms : List (Tree V)),
      chainRuleLoop h args p.zero p.one p.mul p.diffRules n terms ds =
        (fun ts => terms ++ ts) <$>
          ((ds.zipIdx n).filter (fun q => q.1 ≠ p.zero)).mapM (chainTerm p h args) := by
  intro ds
  induction ds with
  | nil => intro n terms; simp [chainRuleLoop, Functor.map, Except.map, pure, Except.pure]
  | cons d ds ih =>
    intro n terms
    unfold chainRuleLoop
    rw [List.zipIdx_cons]
    by_cases hd : d = p.zero
    · rw [if_neg (by simpa using hd), ih, List.filter_cons_of_neg (by simpa using hd)]
    · rw [if_pos hd, List.filter_cons_of_pos (by simpa using hd), List.mapM_cons]
      simp only [chainTerm]
      unfold Dict.getItem
      cases hg : p.diffRules.get? (h, n) with
      | none => rfl
      | some rule =>
        simp only [bind, Except.bind]
        cases hc : rule.call args with
        | error err => rfl
        | ok r =>
          simp only
          rw [ih]
          have hterm : (if d ≠ p.one then p.mul.call [r, d] else r) =
              (if d = p.one then r else .node [p.mul, r, d]) := by
            by_cases h1 : d = p.one <;> simp [h1, Tree.call]
          rw [hterm]
          cases ((ds.zipIdx (n + 1)).filter (fun q => q.1 ≠ p.zero)).mapM (chainTerm p h args) with
          | error err => rfl
          | ok ts => simp [Functor.map, Except.map, pure, Except.pure]

/-- The step of `Spec.deriv` at a compound expression. -/
def derivStep (p : DiffProps V) (h : Tree V) (args ds : List (Tree V)) : PyM (Tree V) :=
  if h ∈ p.distributive then .ok (.node (h :: ds))
  else if h = p.add then .ok (sumOf p ((varying p ds).map Prod.fst))
  else if h = p.mul then
    .ok (sumOf p ((varying p ds).map (fun q => .node (p.mul :: args.set q.2 q.1))))
  else do
    let terms ← (varying p ds).mapM (chainTerm p h args)
    .ok (sumOf p terms)

theorem varying_fst_from (p : DiffProps V) (ds : List (Tree V)) (n : Nat) :
    ((ds.zipIdx n).filter (fun q => q.1 ≠ p.zero)).map Prod.fst =
      ds.filter (fun d => d ≠ p.zero) := by
  induction ds generalizing n with
  | nil => rfl
  | cons d ds ih =>
    rw [List.zipIdx_cons]
    by_cases hd : d = p.zero
    · rw [List.filter_cons_of_neg (by simpa using hd), ih,
        List.filter_cons_of_neg (by simpa using hd)]
    · rw [List.filter_cons_of_pos (by simpa using hd), List.map_cons, ih,
        List.filter_cons_of_pos (by simpa using hd)]

theorem varying_fst (p : DiffProps V) (ds : List (Tree V)) :
    (varying p ds).map Prod.fst = ds.filter (fun d => d ≠ p.zero) := varying_fst_from p ds 0

theorem varying_nil_of_zero (p : DiffProps V) (ds : List (Tree V)) (h : isZeroSet p.zero ds = true) :
    varying p ds = [] := by
  have h1 : (varying p ds).map Prod.fst = [] := by
    rw [varying_fst, List.filter_eq_nil_iff]
    simp only [isZeroSet, Bool.and_eq_true, List.all_eq_true, decide_eq_true_eq] at h
    intro d hd
    simpa using h.2 d hd
  simpa using h1

omit [DecidableEq V] in
theorem sumOf_match (p : DiffProps V) (ts : List (Tree V)) :
    (match ts with
      | [] => (pure p.zero : PyM (Tree V))
      | [t] => pure t
      | ts => pure (p.add.call ts)) = .ok (sumOf p ts) := by
  match ts with
  | [] => rfl
  | [t] => rfl
  | a :: b :: ts => rfl

theorem diffStep_eq (p : DiffProps V) (h : Tree V) (args ds : List (Tree V))
    (hlen : ds.length = args.length) : diffStep p h args ds = derivStep p h args ds := by
  unfold diffStep derivStep
  by_cases hd : h ∈ p.distributive
  · simp only [hd, if_true]; rfl
  · simp only [hd, if_false]
    by_cases hz : isZeroSet p.zero ds = true
    · rw [if_pos hz, varying_nil_of_zero p ds hz]
      simp only [List.map_nil, List.mapM_nil]
      split
      · rfl
      · split <;> rfl
    · rw [if_neg hz]
      by_cases ha : h = p.add
      · rw [if_pos ha, if_pos ha, varying_fst]
        exact sumOf_match p _
      · rw [if_neg ha, if_neg ha]
        by_cases hm : h = p.mul
        · rw [if_pos hm, if_pos hm]
          unfold productRuleForward
          rw [productRuleLoop_eq p args ds 0 [] (by omega), List.nil_append]
          exact sumOf_match p _
        · rw [if_neg hm, if_neg hm]
          unfold chainRuleForward
          rw [chainRuleLoop_eq p h args ds 0 []]
          simp only [List.nil_append]
          cases hc : (varying p ds).mapM (chainTerm p h args) with
          | error err =>
            unfold varying at hc
            rw [hc]; rfl
          | ok ts =>
            unfold varying at hc
            rw [hc]
            exact sumOf_match p ts

/-- Pairs (expression, derivative) as an interpretation. -/
def pairMeaning (p : DiffProps V) (x : Tree V) : Meaning V (Tree V × Tree V) where
  leaf := fun t => .ok (t, if t = x then p.one else p.zero)
  op := fun h vs => (diffStep p h (vs.map Prod.fst) (vs.map Prod.snd)).map
    (fun d => (h.call (vs.map Prod.fst), d))

/-- The evaluator with that interpretation of heads. -/
def pairEvaluator (p : DiffProps V) (x : Tree V) : Evaluator PyM V (Tree V × Tree V) :=
  { (Evaluator.new : Evaluator PyM V (Tree V × Tree V)) with
    genericOperationFunc := (pairMeaning p x).op }

theorem pairEvaluator_op (p : DiffProps V) (x : Tree V) :
    (pairEvaluator p x).evalOperation = (pairMeaning p x).op := rfl

theorem mapM_pyGet_map {A B : Type} (f : A → B) (l : List A) (is : List Nat) :
    is.mapM (fun i => pyGet (l.map f) i) = (List.map f) <$> is.mapM (fun i => pyGet l i) := by
  induction is with
  | nil => rfl
  | cons i is ih =>
    rw [List.mapM_cons, List.mapM_cons, ih]
    have : pyGet (l.map f) i = f <$> pyGet l i := by
      unfold pyGet
      rw [List.getElem?_map]
      cases l[i]? <;> rfl
    rw [this]
    cases pyGet l i with
    | error err => rfl
    | ok a =>
      cases is.mapM (fun i => pyGet l i) <;> rfl

theorem diffLoop_eq (p : DiffProps V) (x : Tree V) (ops : List (Tree V × List Nat)) :
    ∀ l : List (Tree V × Tree V),
      diffLoop p (l.map Prod.fst) (l.map Prod.snd) ops =
        (List.map Prod.snd) <$> (pairEvaluator p x).evalOpsLoop l ops := by
  induction ops with
  | nil => intro l; rfl
  | cons o ops ih =>
    intro l
    obtain ⟨h, is⟩ := o
    simp only [diffLoop, Evaluator.evalOpsLoop, mapM_pyGet_map]
    cases hm : is.mapM (fun i => pyGet l i) with
    | error err => rfl
    | ok vs =>
      show (diffStep p h (vs.map Prod.fst) (vs.map Prod.snd) >>= fun d => _) =
        _ <$> ((pairMeaning p x).op h vs >>= fun v => _)
      simp only [pairMeaning]
      cases hd : diffStep p h (vs.map Prod.fst) (vs.map Prod.snd) with
      | error err => rfl
      | ok d =>
        have := ih (l ++ [(h.call (vs.map Prod.fst), d)])
        rw [List.map_append, List.map_append] at this
        exact this

theorem diffForward_py (e x : Tree V) (p : DiffProps V) :
    diffForward e x p =
      ((graphOrder e).mapM (evalTree (pairMeaning p x)) >>= pyLast).map Prod.snd := by
  unfold diffForward
  rw [forwardGraph_eq]
  simp only [bind, Except.bind]
  have hmemo : ∀ ts : List (Tree V), (∀ t ∈ ts, isLeaf t = true) →
      ts.mapM (evalTree (pairMeaning p x)) =
        .ok (ts.map (fun t => (t, if t = x then p.one else p.zero))) := by
    intro ts
    induction ts with
    | nil => intro _; rfl
    | cons t ts ih =>
      intro h
      rw [List.mapM_cons, evalTree_leaf _ (h t (by simp)), ih (fun u hu => h u (by simp [hu]))]
      rfl
  let atoms := (topologicalSort false [] e).filter isLeaf
  let nodes := (topologicalSort false [] e).filter (fun t => !isLeaf t)
  let vals := atoms.map (fun t => (t, if t = x then p.one else p.zero))
  have hatoms : ∀ t ∈ atoms, isLeaf t = true := fun t ht => (List.mem_filter.1 ht).2
  have hnodes : ∀ t ∈ nodes, isLeaf t = false := fun t ht => by
    simpa using (List.mem_filter.1 ht).2
  have h1 := diffLoop_eq p x (nodes.map (opOf (graphOrder e))) vals
  have hv1 : vals.map Prod.fst = atoms := by
    show (atoms.map _).map _ = _
    rw [List.map_map]
    conv => rhs; rw [← List.map_id atoms]
    rfl
  have hv2 : vals.map Prod.snd = atoms.map (fun t => if t = x then p.one else p.zero) := by
    show (atoms.map _).map _ = _
    rw [List.map_map]; rfl
  rw [hv1, hv2] at h1
  have h2 := evalOpsLoop_memo (pairEvaluator p x) (pairMeaning p x).leaf (graphOrder e)
    (argsFirst_graphOrder e) nodes (atoms.zip vals) (by
      rw [List.map_fst_zip (by simp [vals])]; rfl) hnodes
  rw [List.map_snd_zip (by simp [vals])] at h2
  rw [pairEvaluator_op] at h2
  have h3 := memoRun_py (pairMeaning p x) (graphOrder e) (argsFirst_graphOrder e) nodes
    (atoms.zip vals) (by rw [List.map_fst_zip (by simp [vals])]; rfl) (by
      intro q hq
      have : ∀ ts : List (Tree V), (∀ t ∈ ts, isLeaf t = true) →
          ∀ q ∈ ts.zip (ts.map (fun t => (t, if t = x then p.one else p.zero))),
            evalTree (pairMeaning p x) q.1 = .ok q.2 := by
        intro ts
        induction ts with
        | nil => intro _ q hq; cases hq
        | cons t ts ih =>
          intro h q hq
          simp only [List.map_cons, List.zip_cons_cons, List.mem_cons] at hq
          rcases hq with rfl | hq
          · exact evalTree_leaf _ (h t (by simp))
          · exact ih (fun u hu => h u (by simp [hu])) q hq
      exact this atoms hatoms q hq)
  have h4 : (graphOrder e).mapM (evalTree (pairMeaning p x)) =
      (fun vs => vals ++ vs) <$> nodes.mapM (evalTree (pairMeaning p x)) := by
    show (atoms ++ nodes).mapM _ = _
    rw [List.mapM_append, hmemo atoms hatoms]
    cases nodes.mapM (evalTree (pairMeaning p x)) <;> rfl
  show (diffLoop p atoms (atoms.map fun t => if t = x then p.one else p.zero)
    (nodes.map (opOf (graphOrder e)))).bind pyLast = _
  rw [h1, h2, h3, h4]
  cases hm : nodes.mapM (evalTree (pairMeaning p x)) with
  | error err => rfl
  | ok vs =>
    have hlen := mapM_length _ _ _ hm
    simp only [Functor.map, Except.map, Except.bind]
    rw [List.map_append, List.map_snd_zip (by simp [vals]), List.map_snd_zip (by omega)]
    unfold pyLast
    rw [List.getLast?_map]
    cases (vals ++ vs).getLast? <;> rfl

/-- The pairs computed are (expression, derivative). -/
theorem evalTree_pair (p : DiffProps V) (x : Tree V) (e : Tree V) :
    evalTree (pairMeaning p x) e = (deriv p x e).map (fun d => (e, d)) := by
  induction e using Tree.induction with
  | _ e ih =>
  cases e with
  | atom a => rfl
  | node cs =>
    cases cs with
    | nil => rfl
    | cons h args =>
      have hargs : ∀ as : List (Tree V), (∀ c ∈ as, c ∈ args) →
          as.mapM (evalTree (pairMeaning p x)) = (derivs p x as).map (fun ds => as.zip ds) := by
        intro as
        induction as with
        | nil => intro _; rfl
        | cons c cs ihc =>
          intro hsub
          rw [List.mapM_cons, ih c (by simp [Tree.children, hsub c (by simp)]),
            ihc (fun d hd => hsub d (by simp [hd]))]
          simp only [derivs]
          cases deriv p x c with
          | error err => rfl
          | ok d => cases derivs p x cs <;> rfl
      have hlen : ∀ (as ds : List (Tree V)), derivs p x as = .ok ds → ds.length = as.length := by
        intro as
        induction as with
        | nil => intro ds h; cases h; rfl
        | cons c cs ihc =>
          intro ds h
          simp only [derivs] at h
          cases h1 : deriv p x c with
          | error err => rw [h1] at h; cases h
          | ok d =>
            cases h2 : derivs p x cs with
            | error err => rw [h1, h2] at h; cases h
            | ok ds' =>
              rw [h1, h2] at h; cases h
              simp [ihc ds' h2]
      rw [evalTree_node _ (by rfl)]
      show (args.mapM _ >>= _) = _
      rw [hargs args (fun _ h => h)]
      simp only [deriv]
      cases hds : derivs p x args with
      | error err => rfl
      | ok ds =>
        have hl := hlen args ds hds
        show (pairMeaning p x).op h (args.zip ds) = _
        simp only [pairMeaning]
        rw [List.map_fst_zip (by omega), List.map_snd_zip (by omega), diffStep_eq p h args ds hl]
        rfl

theorem diffForward_ok_iff (e x : Tree V) (p : DiffProps V) (d : Tree V) :
    diffForward e x p = .ok d ↔ deriv p x e = .ok d := by
  rw [diffForward_py]
  constructor
  · intro h
    cases hg : ((graphOrder e).mapM (evalTree (pairMeaning p x)) >>= pyLast) with
    | error err => rw [hg] at h; cases h
    | ok q =>
      rw [hg] at h
      have h2 := (graph_ok_iff _ e q).1 hg
      rw [evalTree_pair] at h2
      cases hd : deriv p x e with
      | error err => rw [hd] at h2; cases h2
      | ok d' =>
        rw [hd] at h2
        cases h2
        exact h
  · intro h
    have h2 := evalTree_pair p x e
    rw [h] at h2
    rw [(graph_ok_iff _ e (e, d)).2 h2]
    rfl

theorem derivs_eq_mapM (p : DiffProps V) (x : Tree V) (es : List (Tree V)) :
    derivs p x es = es.mapM (deriv p x) := by
  induction es with
  | nil => rfl
  | cons e es ih => rw [List.mapM_cons, derivs, ih]

theorem deriv_leaf (p : DiffProps V) (x : Tree V) {t : Tree V} (h : isLeaf t = true) :
    deriv p x t = .ok (if t = x then p.one else p.zero) := by
  cases t with
  | atom a => rfl
  | node cs => cases cs with
    | nil => rfl
    | cons c cs => cases h

theorem deriv_node (p : DiffProps V) (x h : Tree V) (args : List (Tree V)) :
    deriv p x (.node (h :: args)) = args.mapM (deriv p x) >>= derivStep p h args := by
  rw [← derivs_eq_mapM]; rfl

end Verif
