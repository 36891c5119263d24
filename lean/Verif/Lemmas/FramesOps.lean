import Verif.Lemmas.Frames

/-!
# Lemmas for C70: evaluation, differentiation, operators, substitution, counting
-/

namespace Verif.Props
open Spec Framed

section Core
variable {V : Type} [DecidableEq V] (c : FrameUse)

theorem graph_parts {e : Tree V} {g : ForwardGraph V} (h : forwardGraph e = .ok g) :
    (∀ a ∈ g.atoms, ArgSub e a ∧ a.children = []) ∧
    (∀ p ∈ g.operations, ∃ args, ArgSub e (.node (p.1 :: args))) := by
  rw [forwardGraph_eq] at h
  cases h
  refine ⟨fun a ha => ?_, fun p hp => ?_⟩
  · rw [List.mem_filter] at ha
    refine ⟨reach_topo.1 ha.1, ?_⟩
    have h := ha.2
    unfold isLeaf at h
    cases a with
    | atom _ => rfl
    | node cs => cases cs with
      | nil => rfl
      | cons _ _ => simp [Tree.children] at h
  · rw [List.mem_map] at hp
    obtain ⟨t, ht, rfl⟩ := hp
    rw [List.mem_filter] at ht
    have h := ht.2
    unfold isLeaf at h
    cases t with
    | atom _ => simp [Tree.children] at h
    | node cs => cases cs with
      | nil => simp [Tree.children] at h
      | cons hd args => exact ⟨args, reach_topo.1 ht.1⟩

theorem within_eval {T : Type} [HasNone T] {k : Nat} {ev' : Evaluator Framed V T}
    {ev : Evaluator PyM V T} {e : Tree V} (h : RulesNeed k e ev' ev) (values : Dict (Tree V) T) :
    Within (max (5 + c.comp) (2 + k + c.comp)) (framedEval c ev' e values) (ev.evalForward e values) := by
  refine Within.push' (k := max (4 + c.comp) (1 + k + c.comp)) ?_ (by omega)
  unfold Evaluator.evalForward
  simp only [framed_liftPy]
  refine ((within_graph c e).mono (by omega)).bind (fun g hg => ?_)
  obtain ⟨hA, hO⟩ := graph_parts hg
  have h1 := within_atomsLoop values g.atoms [] (fun a ha => h.atom a (hA a ha).1 (hA a ha).2)
  refine (h1.mono (by omega)).bind (fun st _ => ?_)
  have h2 := within_opsLoop c g.operations st (fun p hp vals => by
    obtain ⟨args, ha⟩ := hO p hp
    exact h.operation p.1 args vals ha)
  exact (h2.mono (by omega)).bind (fun st _ => within_here _)

theorem within_evaluate {T : Type} [HasNone T] {k : Nat} {ev' : Evaluator Framed V T}
    {ev : Evaluator PyM V T} {e : Tree V} (h : RulesNeed k e ev' ev) (values : Dict (Tree V) T) :
    Within (max (7 + c.comp) (4 + k + c.comp)) (framedEvaluate c ev' e values)
      (ev.evalForward e values) :=
  Within.push' (k := max (6 + c.comp) (3 + k + c.comp))
    (Within.push' (within_eval c h values) (by omega)) (by omega)

/-! ### Differentiation -/

theorem within_productLoop (args : List (Tree V)) (zero mul : Tree V) (l : List (Tree V)) :
    ∀ (n : Nat) (terms : List (Tree V)),
    Within (3 + c.weak) (framedProductLoop c args zero mul n terms l)
      (.ok (productRuleLoop args zero mul n terms l)) := by
  induction l with
  | nil => intro n terms; exact within_pure _
  | cons d l ih =>
    intro n terms
    unfold framedProductLoop productRuleLoop
    split
    · exact (within_call c _ _).bind_ok (ih _ _)
    · exact ih _ _

theorem within_chainLoop (func : Tree V) (args : List (Tree V)) (zero one mul : Tree V)
    (rules : Dict (Tree V × Nat) (SubsFunc V)) (l : List (Tree V)) :
    ∀ (n : Nat) (terms : List (Tree V)),
    Within (4 + c.weak + c.comp) (framedChainLoop c func args zero one mul rules n terms l)
      (chainRuleLoop func args zero one mul rules n terms l) := by
  induction l with
  | nil => intro n terms; exact within_pure _
  | cons d l ih =>
    intro n terms
    unfold framedChainLoop chainRuleLoop
    split
    · refine (within_here _).bind (fun f _ => ?_)
      refine (within_subsCall c f args).bind (fun t _ => ?_)
      refine Within.bind_ok (a := if d ≠ one then mul.call [t, d] else t) ?_ (ih _ _)
      split
      · exact (within_call c _ _).mono (by omega)
      · exact within_ret _
    · exact ih _ _

theorem within_diffTerms (p : DiffProps V) (func : Tree V) (args diffArgs : List (Tree V)) :
    Within (5 + c.weak + c.comp) (framedDiffTerms c p func args diffArgs)
      (if func ∈ p.distributive then pure [func.call diffArgs]
      else if isZeroSet p.zero diffArgs then pure []
      else if func = p.add then pure (diffArgs.filter (fun da => da ≠ p.zero))
      else if func = p.mul then pure (productRuleForward args diffArgs p.zero p.mul)
      else chainRuleForward func args diffArgs p.zero p.one p.mul p.diffRules) := by
  unfold framedDiffTerms
  split
  · exact ((within_call c _ _).mono (by omega)).bind_ok (within_ret _)
  split
  · exact within_ret _
  split
  · exact (Within.push (within_ret (k := 0) _)).mono (by omega)
  split
  · exact Within.push' (within_productLoop c _ _ _ _ _ _) (by omega)
  · exact Within.push' (within_chainLoop c _ _ _ _ _ _ _ _ _) (by omega)

theorem diffStep_bind (p : DiffProps V) (func : Tree V) (args diffArgs : List (Tree V)) :
    diffStep p func args diffArgs =
      ((if func ∈ p.distributive then pure [func.call diffArgs]
      else if isZeroSet p.zero diffArgs then pure []
      else if func = p.add then pure (diffArgs.filter (fun da => da ≠ p.zero))
      else if func = p.mul then pure (productRuleForward args diffArgs p.zero p.mul)
      else chainRuleForward func args diffArgs p.zero p.one p.mul p.diffRules : PyM _) >>= fun ts =>
        match ts with
        | [] => pure p.zero
        | [t] => pure t
        | ts => pure (p.add.call ts)) := by
  unfold diffStep
  dsimp only
  split
  · rfl
  split
  · rfl
  split
  · rfl
  split <;> rfl

theorem within_diffStep (p : DiffProps V) (func : Tree V) (args diffArgs : List (Tree V)) :
    Within (5 + c.weak + c.comp) (framedDiffStep c p func args diffArgs)
      (diffStep p func args diffArgs) := by
  rw [diffStep_bind]
  unfold framedDiffStep
  refine (within_diffTerms c p func args diffArgs).bind (fun ts _ => ?_)
  match ts with
  | [] => exact within_pure _
  | [t] => exact within_pure _
  | a :: b :: ts => exact (within_call c _ _).mono (by omega)

theorem within_diffLoop (p : DiffProps V) (l : List (Tree V × List Nat)) :
    ∀ stack diffStack : List (Tree V),
    Within (5 + c.weak + c.comp) (framedDiffLoop c p stack diffStack l)
      (diffLoop p stack diffStack l) := by
  induction l with
  | nil => intro s d; exact within_pure _
  | cons o l ih =>
    intro s d
    obtain ⟨func, is⟩ := o
    unfold framedDiffLoop diffLoop
    refine ((within_here (k := 0) _).push' (by omega)).bind (fun args _ => ?_)
    refine ((within_here (k := 0) _).push' (by omega)).bind (fun dargs _ => ?_)
    refine ((within_call c func args).mono (by omega)).bind_ok ?_
    exact (within_diffStep c p func args dargs).bind (fun t _ => ih _ _)

theorem within_diff (e sym : Tree V) (p : DiffProps V) :
    Within (6 + c.weak + c.comp) (framedDiff c e sym p) (diffForward e sym p) := by
  refine Within.push' (k := 5 + c.weak + c.comp) ?_ (by omega)
  unfold diffForward
  refine ((within_graph c e).mono (by omega)).bind (fun g _ => ?_)
  refine Within.bind_ok (Within.push' (within_ret (k := 0) _) (by omega)) ?_
  exact (within_diffLoop c p _ _ _).bind (fun d _ => within_here _)

theorem within_iter {α : Type} {k : Nat} {f : α → Framed α} {g : α → PyM α}
    (h : ∀ a, Within k (f a) (g a)) (n : Nat) : ∀ a,
    Within k (framedIter f n a) (iterPy g n a) := by
  induction n with
  | zero => intro a; exact within_pure _
  | succ n ih => intro a; exact (h a).bind (fun b _ => ih b)

end Core

/-! ### simplecas -/

variable (c : FrameUse)

theorem bind_pure_ok {α : Type} (p : PyM α) : (p >>= fun a => (.ok a : PyM α)) = p := by
  cases p <;> rfl

theorem within_symDiff (p : DiffProps Val) (e sym : Expr) (ntimes : Int) :
    Within (7 + c.weak + c.comp) (framedSymDiff c p e sym ntimes)
      (SymDifferentiator.call p e sym ntimes) := by
  refine Within.push' (k := 6 + c.weak + c.comp) ?_ (by omega)
  unfold SymDifferentiator.call
  rw [← bind_pure_ok (iterPy _ _ _)]
  exact (within_iter (fun d => within_diff c d sym p) _ _).bind
    (fun d _ => (within_sym c d).mono (by omega))

theorem within_exprDiff (p : DiffProps Val) (e sym : Expr) (ntimes : Int) :
    Within (8 + c.weak + c.comp) (framedExprDiff c p e sym ntimes) (Expr.diff e sym ntimes p) :=
  Within.push' (within_iter (fun d => within_symDiff c p d sym 1) _ _) (by omega)

theorem within_atomExpr (ty : AtomType) (v : Val) :
    Within (3 + c.weak) (framedAtomExpr c ty v) (.ok (.atom ⟨ty, v⟩)) := by
  refine Within.push' (k := 2 + c.weak) ?_ (by omega)
  refine (within_atom c _ _).bind_ok ?_
  refine (within_tr c _).bind_ok ?_
  exact (within_sym c _).mono (by omega)

theorem within_expressify (o : PyObj) :
    Within (4 + c.weak) (framedExpressify c o) (expressify o) := by
  refine Within.push' (k := 3 + c.weak) ?_ (by omega)
  cases o with
  | expr e => exact within_ret _
  | other _ => exact within_here _
  | int n => exact within_atomExpr c _ _

theorem within_expressifyAll (l : List PyObj) :
    Within (4 + c.weak) (framedExpressifyAll c l) (l.mapM expressify) := by
  induction l with
  | nil => exact within_pure _
  | cons o l ih =>
    rw [List.mapM_cons]
    exact (within_expressify c o).bind (fun e _ => ih.bind (fun es _ => within_pure _))

theorem within_exprCall (self : Expr) (args : List PyObj) :
    Within (5 + c.weak + c.comp) (framedExprCall c self args) (self.pyCall args) := by
  refine Within.push' (k := 4 + c.weak + c.comp) ?_ (by omega)
  unfold Expr.pyCall
  refine (Within.push' (within_expressifyAll c args) (by omega)).bind (fun es _ => ?_)
  refine (within_outside (by omega)).bind_ok ?_
  refine ((within_call c self es).mono (by omega)).bind_ok ?_
  exact (within_sym c _).mono (by omega)

theorem within_method (op : BinOp) (a b : Expr) :
    Within (6 + c.weak + c.comp) (framedMethod c op a b) (.ok (op.method a b)) := by
  cases op <;> refine Within.push' (k := 5 + c.weak + c.comp) ?_ (by omega)
  case add => exact within_exprCall c _ _
  case mul => exact within_exprCall c _ _
  case pow => exact within_exprCall c _ _
  all_goals
    refine Within.bind_ok (a := _) (within_exprCall c _ _) ?_
    exact within_exprCall c _ _

theorem rmethod_eq (op : BinOp) (a b : Expr) : op.rmethod a b = op.method b a := by
  cases op <;> rfl

/-- An exception handler. -/
def handled {α : Type} (q : PyErr → PyM α) : PyM α → PyM α
  | .error e => q e
  | .ok a => .ok a

/-- `try: ... except ExpressifyError` does not catch `RecursionError`. -/
theorem within_tryCatch {α : Type} {k : Nat} {x : Framed α} {f : PyErr → Framed α} {p : PyM α}
    {q : PyErr → PyM α} (h : Within k x p) (hf : ∀ e, Within k (f e) (q e)) :
    Within k (tryCatch x f) (handled q p) := by
  constructor
  · intro n hn
    have := h.enough n hn
    show (match x n with | some (.error e) => f e n | r => r) = _
    rw [this]
    cases p with
    | error e => exact (hf e).enough n hn
    | ok a => rfl
  · intro n
    show (match x n with | some (.error e) => f e n | r => r) = _ ∨
      (match x n with | some (.error e) => f e n | r => r) = _
    rcases h.sound n with h1 | h1
    · rw [h1]; exact .inl rfl
    · rw [h1]
      cases p with
      | error e => exact (hf e).sound n
      | ok a => exact .inr rfl

theorem within_operand (o : PyObj) :
    Within (4 + c.weak) (framedOperand c o)
      (match o with | .expr e => .ok (some e) | .int n => .ok (some (Expr.integer n)) | .other _ => .ok none) := by
  have hq : ∀ e, Within (4 + c.weak)
      (if e = .expressify then ret none else throw e : Framed (Option Expr))
      (if e = .expressify then .ok none else .error e) := by
    intro e
    split
    · exact within_ret _
    · exact within_throw _
  have key := fun o => within_tryCatch
    ((within_expressify c o).bind (f := fun e => pure (some e)) (q := fun e => pure (some e))
      (fun e _ => within_pure _)) hq
  cases o with
  | expr e => exact within_ret _
  | int i => exact key (.int i)
  | other t => exact key (.other t)

theorem within_other (self : Expr) (method : Expr → Framed Expr) (m : Expr → Expr → Expr) (o : PyObj)
    (h : ∀ e, Within (6 + c.weak + c.comp) (method e) (.ok (m self e))) :
    Within (7 + c.weak + c.comp) (framedOther c method o) (expressifyOther m self o) := by
  refine Within.push' (k := 6 + c.weak + c.comp) ?_ (by omega)
  have ho := (within_operand c o).mono (k := 6 + c.weak + c.comp) (by omega)
  cases o with
  | expr e => exact ho.bind_ok ((h e).bind_ok (within_pure _))
  | int n => exact ho.bind_ok ((h _).bind_ok (within_pure _))
  | other t => exact ho.bind_ok (within_pure _)

theorem within_binOp (op : BinOp) (a b : PyObj) :
    Within (7 + c.weak + c.comp) (framedBinOp c op a b) (pyBinOp op a b) := by
  have key : ∀ (self : Expr) (method : Expr → Framed Expr) (m : Expr → Expr → Expr) (o : PyObj)
      (_ : ∀ e, Within (6 + c.weak + c.comp) (method e) (.ok (m self e))),
      Within (7 + c.weak + c.comp) (do
        match ← framedOther c method o with
        | some r => return r
        | none => throw .typeError) (do
        match ← expressifyOther m self o with
        | some r => return r
        | none => .error .typeError) := by
    intro self method m o h
    refine (within_other c self method m o h).bind (fun r _ => ?_)
    cases r with
    | none => exact within_throw _
    | some r => exact within_pure _
  cases a with
  | expr a => exact key a _ _ _ (fun e => within_method c op a e)
  | int n =>
    cases b with
    | expr b => exact key b _ _ _ (fun e => by rw [rmethod_eq]; exact within_method c op e b)
    | int m => exact within_throw _
    | other t => exact within_throw _
  | other n =>
    cases b with
    | expr b => exact key b _ _ _ (fun e => by rw [rmethod_eq]; exact within_method c op e b)
    | int m => exact within_throw _
    | other t => exact within_throw _

theorem within_neg (a : Expr) : Within (6 + c.weak + c.comp) (framedNeg c a) (.ok (pyNeg a)) :=
  Within.push' (within_exprCall c _ _) (by omega)

theorem within_functionNew (o : PyObj) (params : List PyObj) :
    Within (5 + c.weak + c.comp) (framedFunctionNew c o params) (exprFunctionNew o params) := by
  refine Within.push' (k := 4 + c.weak + c.comp) ?_ (by omega)
  unfold exprFunctionNew
  refine ((within_expressify c o).mono (by omega)).bind (fun e _ => ?_)
  refine (Within.push' (within_expressifyAll c params) (by omega)).bind (fun es _ => ?_)
  exact (within_subsNew c e es).mono (by omega)

theorem within_functionCall (f : SubsFunc Val) (args : List PyObj) :
    Within (6 + c.weak + c.comp) (framedFunctionCall c f args) (exprFunctionCall f args) := by
  refine Within.push' (k := 5 + c.weak + c.comp) ?_ (by omega)
  unfold exprFunctionCall
  refine (Within.push' (within_expressifyAll c args) (by omega)).bind (fun es _ => ?_)
  rw [← bind_pure_ok (f.call es)]
  exact (Within.push' (within_subsCall c f es) (by omega)).bind
    (fun t _ => (within_sym c t).mono (by omega))

theorem within_asFunction (self : Expr) (args : List PyObj) :
    Within (6 + c.weak + c.comp) (framedAsFunction c self args) (asFunction self args) :=
  Within.push' (within_functionNew c _ _) (by omega)

theorem within_xreplace (self : Expr) (reps : Dict PyObj PyObj) :
    Within (7 + c.weak + c.comp) (framedXreplace c self reps) (xreplace self reps) :=
  Within.push' (k := 6 + c.weak + c.comp)
    ((within_asFunction c _ _).bind (fun f _ => within_functionCall c f _)) (by omega)

theorem within_countOpsGraph (e : Expr) :
    Within 3 (framedCountOpsGraph e) (.ok (countOpsGraph e)) :=
  Within.push' (k := 2) ((within_sort false [] e).bind_ok (within_pure _)) (by omega)

/-! ### Transformers -/

theorem within_reduceLoop (head : Expr) (l : List Expr) : ∀ acc,
    Within (3 + c.weak) (framedReduceLoop c head acc l)
      (.ok (l.foldl (fun a b => head.call [a, b]) acc)) := by
  induction l with
  | nil => intro acc; exact within_pure _
  | cons a l ih => intro acc; exact (within_call c _ _).bind_ok (ih _)

theorem within_reduce (head : Expr) (l : List Expr) :
    Within (4 + c.weak) (framedReduce c head l) (pyReduce (fun a b => head.call [a, b]) l) := by
  cases l with
  | nil => exact Within.push' (within_throw (k := 0) _) (by omega)
  | cons a l => exact Within.push' (within_reduceLoop c head l a) (by omega)

theorem rulesNeed_transformer {V : Type} [DecidableEq V] (e : Tree V) :
    RulesNeed (4 + c.weak) e (framedTransformer c) (Transformer.new : Evaluator PyM V (Tree V)) where
  atom a _ _ := by
    unfold Evaluator.evalAtom
    cases a with
    | atom a => exact Within.push' (within_ret (k := 0) _) (by omega)
    | node cs => exact within_throw _
  operation head args vals _ := Within.push' (within_call c head vals) (by omega)

theorem rulesNeed_binExpander (e : Expr) :
    RulesNeed (4 + c.weak) e (framedBinExpander c) binExpandTransformer where
  atom a h h' := by
    have := (rulesNeed_transformer c e).atom a h h'
    cases a with
    | atom a => exact this
    | node cs => exact this
  operation head args vals h := by
    unfold Evaluator.evalOperation
    by_cases h1 : head = Expr.mulH
    · subst h1; exact within_reduce c Expr.mulH vals
    · by_cases h2 : head = Expr.addH
      · subst h2; exact within_reduce c Expr.addH vals
      · have e1 : (framedBinExpander c).operations.get? head = none := by
          unfold framedBinExpander Evaluator.addOpN
          simp [Dict.get?_set, Ne.symm h1, Ne.symm h2, framedTransformer, Evaluator.addOpGeneric,
            Evaluator.addAtomGeneric, Evaluator.new]
        have e2 : binExpandTransformer.operations.get? head = none := by
          unfold binExpandTransformer Evaluator.addOpN
          simp [Dict.get?_set, Ne.symm h1, Ne.symm h2, Transformer.new, Evaluator.addOpGeneric,
            Evaluator.addAtomGeneric, Evaluator.new]
        rw [e1, e2]
        exact (rulesNeed_transformer c e).operation head args vals h

theorem within_binExpandTree (e : Expr) :
    Within (8 + c.weak + c.comp) (framedBinExpandTree c e) (binExpand e) :=
  (within_evaluate c (rulesNeed_binExpander c e) Dict.empty).mono (by omega)

theorem within_binExpand (e : Expr) :
    Within (9 + c.weak + c.comp) (framedBinExpand c e) (binExpand e) := by
  refine Within.push' (k := 8 + c.weak + c.comp) ?_ (by omega)
  rw [← bind_pure_ok (binExpand e)]
  exact (within_binExpandTree c e).bind (fun t _ => (within_sym c t).mono (by omega))

end Verif.Props
