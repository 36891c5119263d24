import Verif.Lemmas.Graph
import Verif.Spec.Eval

/-!
# eval_forward: helper lemmas
-/

namespace Verif
open Spec
variable {V T : Type}

section Generic
variable {m : Type → Type} [Monad m]

/-- Look a subexpression up among the values computed so far. -/
def memoGet [DecidableEq V] (memo : List (Tree V × T)) (t : Tree V) : Option T :=
  Dict.lookup t memo

/-- One call of a rule: for a childless expression the leaf rule, otherwise the head's rule
on the values computed for its arguments. -/
def memoCall [DecidableEq V] (leaf : Tree V → m T) (op : Tree V → List T → m T)
    (memo : List (Tree V × T)) (t : Tree V) : m T :=
  if isLeaf t then leaf t else op (headOf t) ((argsOf t).filterMap (memoGet memo))

/-- Evaluate the listed expressions one after the other, one call each. -/
def memoRun [DecidableEq V] (leaf : Tree V → m T) (op : Tree V → List T → m T)
    (memo : List (Tree V × T)) : List (Tree V) → m (List (Tree V × T))
  | [] => pure memo
  | t :: rest => do
    let v ← memoCall leaf op memo t
    memoRun leaf op (memo ++ [(t, v)]) rest

theorem memoGet_idx [DecidableEq V] (memo : List (Tree V × T)) (c : Tree V)
    (h : c ∈ memo.map Prod.fst) :
    ∃ v, memoGet memo c = some v ∧ (memo.map Prod.snd)[(memo.map Prod.fst).idxOf c]? = some v := by
  induction memo with
  | nil => cases h
  | cons p memo ih =>
    obtain ⟨k, w⟩ := p
    simp only [memoGet, Dict.lookup, List.map_cons]
    by_cases hk : k = c
    · subst hk
      exact ⟨w, by simp, by simp⟩
    · have hc : c ∈ memo.map Prod.fst := by
        rw [List.map_cons] at h
        rcases List.mem_cons.1 h with h | h
        · exact absurd h.symm hk
        · exact h
      obtain ⟨v, h1, h2⟩ := ih hc
      refine ⟨v, by simp only [hk, if_false]; exact h1, ?_⟩
      have : (k == c) = false := by simpa using hk
      simp only [List.idxOf_cons, this, cond_false, List.getElem?_cons_succ]
      exact h2

theorem mapM_pyGet_memo [DecidableEq V] (L pre post : List (Tree V)) (t : Tree V)
    (memo : List (Tree V × T)) (hm : memo.map Prod.fst = pre) (hL : L = pre ++ t :: post)
    (hargs : ArgsFirst L) :
    (opOf L t).2.mapM (fun i => pyGet (memo.map Prod.snd) i) =
      .ok ((argsOf t).filterMap (memoGet memo)) := by
  have hmem : ∀ c ∈ argsOf t, c ∈ pre := fun c hc => hargs pre t post hL c hc
  unfold opOf
  simp only
  generalize argsOf t = args at hmem
  induction args with
  | nil => rfl
  | cons c cs ih =>
    have hcp := hmem c (by simp)
    have h1 : L.idxOf c = pre.idxOf c := by rw [hL, List.idxOf_append]; simp [hcp]
    obtain ⟨v, hv1, hv2⟩ := memoGet_idx memo c (by rw [hm]; exact hcp)
    rw [List.map_cons, List.mapM_cons, ih (fun x hx => hmem x (by simp [hx]))]
    have : pyGet (memo.map Prod.snd) (L.idxOf c) = .ok v := by
      rw [h1, ← hm]; simp only [pyGet, hv2]
    rw [this, List.filterMap_cons_some hv1]; rfl

variable [LawfulMonad m] [MonadExceptOf PyErr m] [DecidableEq V] [HasNone T]

omit [HasNone T] in
theorem evalOpsLoop_memo (ev : Evaluator m V T) (leaf : Tree V → m T) (L : List (Tree V))
    (hargs : ArgsFirst L) :
    ∀ (nodes : List (Tree V)) (memo : List (Tree V × T)),
      L = memo.map Prod.fst ++ nodes → (∀ t ∈ nodes, isLeaf t = false) →
      ev.evalOpsLoop (memo.map Prod.snd) (nodes.map (opOf L)) =
        (List.map Prod.snd) <$> memoRun leaf ev.evalOperation memo nodes := by
  intro nodes
  induction nodes with
  | nil => intro memo _ _; simp [Evaluator.evalOpsLoop, memoRun]
  | cons t nodes ih =>
    intro memo hL hleaf
    have hop : opOf L t = (headOf t, (opOf L t).2) := rfl
    rw [List.map_cons, hop]
    unfold Evaluator.evalOpsLoop
    rw [mapM_pyGet_memo L _ nodes t memo rfl hL hargs]
    simp only [liftPy, pure_bind, memoRun, map_bind]
    have hc : memoCall leaf ev.evalOperation memo t =
        ev.evalOperation (headOf t) ((argsOf t).filterMap (memoGet memo)) := by
      simp [memoCall, hleaf t (by simp)]
    rw [hc]
    congr 1
    funext v
    have := ih (memo ++ [(t, v)]) (by rw [hL]; simp) (fun u hu => hleaf u (by simp [hu]))
    simpa using this

theorem evalAtomsLoop_memo (ev : Evaluator m V T) (values : Dict (Tree V) T)
    (op : Tree V → List T → m T) :
    ∀ (atoms : List (Tree V)) (memo : List (Tree V × T)), (∀ t ∈ atoms, isLeaf t = true) →
      ev.evalAtomsLoop values (memo.map Prod.snd) atoms =
        (List.map Prod.snd) <$> memoRun (ev.evalLeaf values) op memo atoms := by
  intro atoms
  induction atoms with
  | nil => intro memo _; simp [Evaluator.evalAtomsLoop, memoRun]
  | cons t atoms ih =>
    intro memo hleaf
    simp only [Evaluator.evalAtomsLoop, memoRun, map_bind]
    have hc : memoCall (ev.evalLeaf values) op memo t = ev.evalLeaf values t := by
      simp [memoCall, hleaf t (by simp)]
    rw [hc]
    congr 1
    funext v
    have := ih (memo ++ [(t, v)]) (fun u hu => hleaf u (by simp [hu]))
    simpa using this

omit [MonadExceptOf PyErr m] [HasNone T] in
theorem memoRun_append (leaf : Tree V → m T) (op : Tree V → List T → m T) (l₁ l₂ : List (Tree V)) :
    ∀ memo, memoRun leaf op memo (l₁ ++ l₂) =
      memoRun leaf op memo l₁ >>= fun memo' => memoRun leaf op memo' l₂ := by
  induction l₁ with
  | nil => intro memo; simp [memoRun]
  | cons t l₁ ih => intro memo; simp [memoRun, ih]

omit [MonadExceptOf PyErr m] [HasNone T] in
/-- Every outcome of `memoRun` extends the memo by the listed keys. -/
theorem memoRun_keys (leaf : Tree V → m T) (op : Tree V → List T → m T) {β : Type}
    (l : List (Tree V)) : ∀ (memo : List (Tree V × T)) (k k' : List (Tree V × T) → m β),
    (∀ vs : List T, vs.length = l.length → k (memo ++ l.zip vs) = k' (memo ++ l.zip vs)) →
    (memoRun leaf op memo l >>= k) = (memoRun leaf op memo l >>= k') := by
  induction l with
  | nil => intro memo k k' h; simpa [memoRun] using h [] rfl
  | cons t l ih =>
    intro memo k k' h
    simp only [memoRun, bind_assoc]
    congr 1
    funext v
    apply ih
    intro vs hvs
    have := h (v :: vs) (by simp [hvs])
    simpa using this

/-- `eval_forward` performs one call per distinct subexpression in graph order. -/
theorem evalForward_memo (ev : Evaluator m V T) (e : Tree V) (values : Dict (Tree V) T) :
    ev.evalForward e values =
      memoRun (ev.evalLeaf values) ev.evalOperation [] (graphOrder e) >>=
        fun memo => liftPy (pyLast (memo.map Prod.snd)) := by
  unfold Evaluator.evalForward
  rw [forwardGraph_eq]
  simp only [liftPy, pure_bind]
  have h1 := evalAtomsLoop_memo ev values ev.evalOperation
    ((topologicalSort false [] e).filter isLeaf) [] (by intro t ht; exact (List.mem_filter.1 ht).2)
  simp only [List.map_nil] at h1
  rw [h1]
  have hL : graphOrder e = (topologicalSort false [] e).filter isLeaf ++
      (topologicalSort false [] e).filter (fun t => !isLeaf t) := rfl
  rw [show memoRun (ev.evalLeaf values) ev.evalOperation [] (graphOrder e) = _ from by
    rw [hL, memoRun_append]]
  simp only [bind_map_left, bind_assoc]
  apply memoRun_keys
  intro vs hvs
  simp only [List.nil_append]
  have h2 := evalOpsLoop_memo ev (ev.evalLeaf values) (graphOrder e) (argsFirst_graphOrder e)
    ((topologicalSort false [] e).filter (fun t => !isLeaf t))
    (((topologicalSort false [] e).filter isLeaf).zip vs)
    (by rw [List.map_fst_zip (by omega)]; rfl)
    (by intro t ht; simpa using (List.mem_filter.1 ht).2)
  rw [h2]
  simp only [bind_map_left]

end Generic
/-! ### Without side effects -/

theorem evalTrees_eq (M : Meaning V T) (ts : List (Tree V)) :
    evalTrees M ts = ts.mapM (evalTree M) := by
  induction ts with
  | nil => rfl
  | cons t ts ih => rw [List.mapM_cons, evalTrees, ih]

theorem evalTree_leaf (M : Meaning V T) {t : Tree V} (h : isLeaf t = true) :
    evalTree M t = M.leaf t := by
  cases t with
  | atom a => rfl
  | node cs =>
    cases cs with
    | nil => rfl
    | cons c cs => simp [isLeaf, Tree.children] at h

theorem evalTree_node (M : Meaning V T) {t : Tree V} (h : isLeaf t = false) :
    evalTree M t = (argsOf t).mapM (evalTree M) >>= M.op (headOf t) := by
  cases t with
  | atom a => simp [isLeaf, Tree.children] at h
  | node cs =>
    cases cs with
    | nil => simp [isLeaf, Tree.children] at h
    | cons c cs => simp only [evalTree, evalTrees_eq]; rfl

theorem mapM_length {α β : Type} (f : α → PyM β) (l : List α) (vs : List β)
    (h : l.mapM f = .ok vs) : l.length = vs.length := by
  induction l generalizing vs with
  | nil => cases h; rfl
  | cons a l ih =>
    rw [List.mapM_cons] at h
    cases ha : f a with
    | error err => rw [ha] at h; cases h
    | ok b =>
      rw [ha] at h
      cases hl : l.mapM f with
      | error err => rw [hl] at h; cases h
      | ok bs =>
        rw [hl] at h
        cases h
        simp [ih bs hl]

theorem mapM_ok_of_forall {α β : Type} (f : α → PyM β) (l : List α)
    (h : ∀ a ∈ l, ∃ b, f a = .ok b) : ∃ vs, l.mapM f = .ok vs := by
  induction l with
  | nil => exact ⟨[], rfl⟩
  | cons a l ih =>
    obtain ⟨b, hb⟩ := h a (by simp)
    obtain ⟨bs, hbs⟩ := ih (fun x hx => h x (by simp [hx]))
    exact ⟨b :: bs, by rw [List.mapM_cons, hb, hbs]; rfl⟩

theorem mapM_ok_mem {α β : Type} (f : α → PyM β) (l : List α) (vs : List β)
    (h : l.mapM f = .ok vs) : ∀ a ∈ l, ∃ b, f a = .ok b := by
  induction l generalizing vs with
  | nil => intro a ha; cases ha
  | cons a l ih =>
    rw [List.mapM_cons] at h
    cases ha : f a with
    | error err => rw [ha] at h; cases h
    | ok b =>
      rw [ha] at h
      cases hl : l.mapM f with
      | error err => rw [hl] at h; cases h
      | ok bs =>
        intro x hx
        rcases List.mem_cons.1 hx with rfl | hx
        · exact ⟨b, ha⟩
        · exact ih bs hl x hx

theorem mapM_error {α β : Type} (f : α → PyM β) (l : List α) (err : PyErr)
    (h : l.mapM f = .error err) :
    ∃ pre t post, l = pre ++ t :: post ∧ f t = .error err ∧ ∀ a ∈ pre, ∃ b, f a = .ok b := by
  induction l with
  | nil => cases h
  | cons a l ih =>
    rw [List.mapM_cons] at h
    cases ha : f a with
    | error err' =>
      rw [ha] at h; cases h
      exact ⟨[], a, l, rfl, ha, by simp⟩
    | ok b =>
      rw [ha] at h
      cases hl : l.mapM f with
      | ok bs => rw [hl] at h; cases h
      | error err' =>
        rw [hl] at h; cases h
        obtain ⟨pre, t, post, h1, h2, h3⟩ := ih hl
        refine ⟨a :: pre, t, post, by rw [h1]; rfl, h2, ?_⟩
        intro x hx
        rcases List.mem_cons.1 hx with rfl | hx
        · exact ⟨b, ha⟩
        · exact h3 x hx

/-- The memo holds the values of the arguments. -/
theorem memoRun_args [DecidableEq V] (M : Meaning V T) (memo : List (Tree V × T))
    (args : List (Tree V)) (hmemo : ∀ p ∈ memo, evalTree M p.1 = .ok p.2)
    (hmem : ∀ c ∈ args, c ∈ memo.map Prod.fst) :
    args.mapM (evalTree M) = .ok (args.filterMap (memoGet memo)) := by
  induction args with
  | nil => rfl
  | cons c cs ihc =>
    obtain ⟨v, hv1, hv2⟩ := memoGet_idx memo c (hmem c (by simp))
    have hv : evalTree M c = .ok v := by
      have hi := List.idxOf_lt_length_of_mem (hmem c (by simp))
      rw [List.length_map] at hi
      rw [List.getElem?_map, List.getElem?_eq_getElem hi] at hv2
      simp only [Option.map_some, Option.some.injEq] at hv2
      have h1 := hmemo _ (List.getElem_mem hi)
      rw [hv2] at h1
      have h2 : (memo[(memo.map Prod.fst).idxOf c]'hi).1 = c := by
        have := List.getElem_idxOf (x := c) (xs := memo.map Prod.fst)
          (by rw [List.length_map]; exact hi)
        rw [List.getElem_map] at this
        exact this
      rw [h2] at h1
      exact h1
    rw [List.mapM_cons, hv, ihc (fun x hx => hmem x (by simp [hx])),
      List.filterMap_cons_some hv1]
    rfl

/-- In `PyM` the one-call-each run computes the structural values. -/
theorem memoRun_py [DecidableEq V] (M : Meaning V T) (L : List (Tree V)) (hargs : ArgsFirst L) :
    ∀ (rest : List (Tree V)) (memo : List (Tree V × T)),
      L = memo.map Prod.fst ++ rest →
      (∀ p ∈ memo, evalTree M p.1 = .ok p.2) →
      memoRun M.leaf M.op memo rest =
        (fun vs => memo ++ rest.zip vs) <$> rest.mapM (evalTree M) := by
  intro rest
  induction rest with
  | nil => intro memo _ _; simp [memoRun]
  | cons t rest ih =>
    intro memo hL hmemo
    have hcall : memoCall M.leaf M.op memo t = evalTree M t := by
      unfold memoCall
      split
      · rename_i h; rw [evalTree_leaf M h]
      · rename_i h
        rw [evalTree_node M (by simpa using h)]
        have := memoRun_args M memo (argsOf t) hmemo (fun c hc => hargs _ t rest hL c hc)
        rw [this]; rfl
    unfold memoRun
    rw [hcall, List.mapM_cons]
    cases he : evalTree M t with
    | error err => rfl
    | ok v =>
      have := ih (memo ++ [(t, v)]) (by rw [hL]; simp) (by
        intro p hp
        rcases List.mem_append.1 hp with hp | hp
        · exact hmemo p hp
        · simp only [List.mem_singleton] at hp; subst hp; exact he)
      show memoRun M.leaf M.op (memo ++ [(t, v)]) rest = _
      rw [this]
      cases rest.mapM (evalTree M) with
      | error err => rfl
      | ok vs => simp [bind, Except.bind, Functor.map, Except.map, pure, Except.pure]

section
variable [DecidableEq V] [HasNone T]

theorem evalLeaf_meaning (ev : Evaluator PyM V T) (values : Dict (Tree V) T) :
    ev.evalLeaf values = (meaning ev values.get?).leaf := by
  funext t
  simp only [Evaluator.evalLeaf, meaning]
  have hr : ev.evalAtom t = meaning.rule ev t := by
    unfold Evaluator.evalAtom meaning.rule
    cases t with
    | atom a =>
      simp only [Tree.value]
      cases ev.atoms.get? a.atomType <;> rfl
    | node cs => rfl
  rw [hr]
  cases values.get? t <;> rfl

theorem evalOperation_meaning (ev : Evaluator PyM V T) (values : Tree V → Option T) :
    ev.evalOperation = (meaning ev values).op := by
  funext h vs
  simp only [Evaluator.evalOperation, meaning]
  cases ev.operations.get? h with
  | none => rfl
  | some f => cases f <;> rfl

theorem evalForward_py (ev : Evaluator PyM V T) (e : Tree V) (values : Dict (Tree V) T) :
    ev.evalForward e values =
      (graphOrder e).mapM (evalTree (meaning ev values.get?)) >>= pyLast := by
  rw [evalForward_memo, evalLeaf_meaning, evalOperation_meaning ev values.get?]
  rw [memoRun_py _ (graphOrder e) (argsFirst_graphOrder e) (graphOrder e) [] rfl
    (by intro p hp; cases hp)]
  cases h : (graphOrder e).mapM (evalTree (meaning ev values.get?)) with
  | error err => rfl
  | ok vs =>
    have hlen := mapM_length _ _ _ h
    simp only [List.nil_append, Functor.map, Except.map, bind, Except.bind]
    rw [List.map_snd_zip (by omega)]
    cases pyLast vs <;> rfl

omit [DecidableEq V] [HasNone T] in
/-- If an expression has a value then all its subexpressions have one. -/
theorem evalTree_ok_sub (M : Meaning V T) {e t : Tree V} (h : ArgSub e t)
    (he : ∃ v, evalTree M e = .ok v) : ∃ v, evalTree M t = .ok v := by
  unfold ArgSub at h
  induction h with
  | refl => exact he
  | @down e c t _ hc _ ih =>
    apply ih
    rw [kids_false_eq] at hc
    cases hl : isLeaf e with
    | true => rw [argsOf_leaf hl] at hc; cases hc
    | false =>
      obtain ⟨v, hv⟩ := he
      rw [evalTree_node M hl] at hv
      cases hm : (argsOf e).mapM (evalTree M) with
      | error err => rw [hm] at hv; cases hv
      | ok vs => exact mapM_ok_mem _ _ _ hm c hc

omit [HasNone T] in
theorem graph_ok_iff (M : Meaning V T) (e : Tree V) (v : T) :
    ((graphOrder e).mapM (evalTree M) >>= pyLast) = .ok v ↔ evalTree M e = .ok v := by
  obtain ⟨l, hl⟩ := graphOrder_last e
  have key : ∀ w, evalTree M e = .ok w →
      ((graphOrder e).mapM (evalTree M) >>= pyLast) = .ok w := by
    intro w hw
    obtain ⟨vs, hvs⟩ := mapM_ok_of_forall (evalTree M) (graphOrder e)
      (fun t ht => evalTree_ok_sub _ (mem_graphOrder.1 ht) ⟨w, hw⟩)
    rw [hvs]
    rw [hl] at hvs
    rw [List.mapM_append] at hvs
    cases h1 : l.mapM (evalTree M) with
    | error err => rw [h1] at hvs; cases hvs
    | ok ws =>
      rw [h1] at hvs
      simp only [List.mapM_cons, List.mapM_nil, hw] at hvs
      cases hvs
      simp [bind, Except.bind, pyLast]
  constructor
  · intro h
    cases hm : (graphOrder e).mapM (evalTree M) with
    | error err => rw [hm] at h; cases h
    | ok vs =>
      obtain ⟨w, hw⟩ := mapM_ok_mem _ _ _ hm e (by rw [hl]; simp)
      rw [key w hw] at h
      cases h
      exact hw
  · exact key v

omit [HasNone T] in
/-- The error raised is the error of a rule applied to successfully computed values. -/
theorem graph_error (M : Meaning V T) (e : Tree V) (err : PyErr)
    (h : ((graphOrder e).mapM (evalTree M) >>= pyLast) = .error err) :
    ∃ t, ArgSub e t ∧
      ((isLeaf t = true ∧ M.leaf t = .error err) ∨
       (isLeaf t = false ∧ ∃ vs, (argsOf t).mapM (evalTree M) = .ok vs ∧
          M.op (headOf t) vs = .error err)) := by
  cases hm : (graphOrder e).mapM (evalTree M) with
  | ok vs =>
    rw [hm] at h
    obtain ⟨l, hl⟩ := graphOrder_last e
    have hlen := mapM_length _ _ _ hm
    rw [hl] at hlen
    simp only [bind, Except.bind] at h
    unfold pyLast at h
    split at h
    · cases h
    · rename_i hn
      rw [List.getLast?_eq_none_iff] at hn
      rw [hn] at hlen; simp at hlen
  | error err' =>
    rw [hm] at h
    cases h
    obtain ⟨pre, t, post, h1, h2, h3⟩ := mapM_error _ _ _ hm
    refine ⟨t, mem_graphOrder.1 (by rw [h1]; simp), ?_⟩
    cases hleaf : isLeaf t with
    | true => left; rw [evalTree_leaf _ hleaf] at h2; exact ⟨rfl, h2⟩
    | false =>
      right
      refine ⟨rfl, ?_⟩
      obtain ⟨vs, hvs⟩ := mapM_ok_of_forall (evalTree M) (argsOf t)
        (fun c hc => h3 c (argsFirst_graphOrder e pre t post h1 c hc))
      rw [evalTree_node _ hleaf, hvs] at h2
      exact ⟨vs, hvs, h2⟩

theorem evalForward_ok_iff (ev : Evaluator PyM V T) (e : Tree V) (values : Dict (Tree V) T)
    (v : T) : ev.evalForward e values = .ok v ↔ evalTree (meaning ev values.get?) e = .ok v := by
  rw [evalForward_py]; exact graph_ok_iff _ e v

/-- The error raised is the error of a rule applied to successfully computed values. -/
theorem evalForward_error (ev : Evaluator PyM V T) (e : Tree V) (values : Dict (Tree V) T)
    (err : PyErr) (h : ev.evalForward e values = .error err) :
    ∃ t, ArgSub e t ∧
      ((isLeaf t = true ∧ (meaning ev values.get?).leaf t = .error err) ∨
       (isLeaf t = false ∧ ∃ vs, (argsOf t).mapM (evalTree (meaning ev values.get?)) = .ok vs ∧
          (meaning ev values.get?).op (headOf t) vs = .error err)) := by
  rw [evalForward_py] at h; exact graph_error _ e err h

end

mutual
theorem evaluates_evalTree {M : Meaning V T} {t : Tree V} {v : T} :
    Evaluates M t v → evalTree M t = .ok v
  | .leaf h1 h2 => by
    rw [evalTree_leaf M (by simp [isLeaf, h1])]; exact h2
  | .op h1 h2 => by
    simp only [evalTree, evaluatesAll_evalTrees h1]; exact h2
theorem evaluatesAll_evalTrees {M : Meaning V T} {ts : List (Tree V)} {vs : List T} :
    EvaluatesAll M ts vs → evalTrees M ts = .ok vs
  | .nil => rfl
  | .cons h1 h2 => by
    simp only [evalTrees, evaluates_evalTree h1, evaluatesAll_evalTrees h2]; rfl
end

mutual
theorem evalTree_evaluates {M : Meaning V T} : ∀ {t : Tree V} {v : T},
    evalTree M t = .ok v → Evaluates M t v
  | .atom _, _, h => .leaf rfl h
  | .node [], _, h => .leaf rfl h
  | .node (c :: cs), v, h => by
    simp only [evalTree] at h
    cases hm : evalTrees M cs with
    | error err => rw [hm] at h; cases h
    | ok vs => rw [hm] at h; exact .op (evalTrees_evaluates hm) h
theorem evalTrees_evaluates {M : Meaning V T} : ∀ {ts : List (Tree V)} {vs : List T},
    evalTrees M ts = .ok vs → EvaluatesAll M ts vs
  | [], _, h => by cases h; exact .nil
  | t :: ts, _, h => by
    simp only [evalTrees] at h
    cases h1 : evalTree M t with
    | error err => rw [h1] at h; cases h
    | ok v =>
      rw [h1] at h
      cases h2 : evalTrees M ts with
      | error err => rw [h2] at h; cases h
      | ok vs =>
        rw [h2] at h; cases h
        exact .cons (evalTree_evaluates h1) (evalTrees_evaluates h2)
end

theorem evaluates_iff {M : Meaning V T} {t : Tree V} {v : T} :
    Evaluates M t v ↔ evalTree M t = .ok v :=
  ⟨evaluates_evalTree, evalTree_evaluates⟩

end Verif
