import Verif.Props.Client
import Verif.Lemmas.ClientRead
import Verif.Lemmas.ClientScript
import Verif.Lemmas.ClientBuild
import Verif.Props.Arith

/-!
# C68: evaluators, transformers and the `Expr` API on objects

What `Model/Evaluate.lean`, `Model/Expr.lean` and `Model/Diff.lean` say about expressions is what
evaluators, transformers and the methods of `Expr` do with objects, in a process with any number of
threads and a garbage collector.
-/

set_option linter.unusedSectionVars false

namespace Verif.Props
open Verif.Store Spec

/-! ### Evaluators -/

section
variable {V K : Type} [DecidableEq K] [PyVal V K] {R R' : Key K → Prop} {T A : Type} [HasNone T]
  [HasNone A]

/-- **C68, evaluators.** The rules of an evaluator are arbitrary programs on objects, what they return
are arbitrary data that may contain objects.  If the rules, on the objects of an expression, compute
what the rules on values compute (`EvalAt`), then so does the evaluator, for every expression and every
dictionary of values. -/
theorem C68_evaluate (me : Nat) (s s' : St V K) (hs hs' : List (Option Nat)) (vals : List (Ex K))
    (rel : List (Ex K) → T → A → Prop) (ev : Prog.EvalH V K T) (Ev : Evaluator PyM K A) (e : Nat)
    (E : Tree K) (d : List (Nat × T)) (D : Dict (Tree K) A) (r : PyM T) (stable : Stable rel)
    (none : SameNone rel) (hist : History R s) (holds : Holds s hs) (mean : Mean s.heap hs vals)
    (hE : EvalAt vals rel ev Ev) (he : At vals e E) (hd : MapAt vals (rel vals) d D)
    (ex : Exec me Clean R ⟨s, hs, ev.call e d⟩ R' ⟨s', hs', .ofPy r⟩) :
    ∃ vals', Mean s'.heap hs' vals' ∧ Agree (rel vals') r (Ev.evalForward E D) := by
  exact outcome_of hist holds mean (computes_evalCall stable none hE hd he) ex

theorem agree_eq {α : Type} {r x : PyM α} (h : Agree (fun a b => a = b) r x) : r = x := by
  cases r <;> cases x
  · exact congrArg _ h
  · exact h.elim
  · exact h.elim
  · exact congrArg _ h

/-- **C68, evaluators of plain data** (numbers, strings: nothing that refers to expressions): the
evaluator returns exactly what it returns on values, or raises the same exception. -/
theorem C68_evaluate_data (me : Nat) (s s' : St V K) (hs hs' : List (Option Nat)) (vals : List (Ex K))
    (ev : Prog.EvalH V K A) (Ev : Evaluator PyM K A) (e : Nat) (E : Tree K) (d : List (Nat × A))
    (D : Dict (Tree K) A) (r : PyM A) (hist : History R s) (holds : Holds s hs)
    (mean : Mean s.heap hs vals) (hE : EvalAt vals (fun _ a b => a = b) ev Ev) (he : At vals e E)
    (hd : MapAt vals (fun a b => a = b) d D)
    (ex : Exec me Clean R ⟨s, hs, ev.call e d⟩ R' ⟨s', hs', .ofPy r⟩) :
    r = Ev.evalForward E D := by
  obtain ⟨_, _, h⟩ := C68_evaluate me s s' hs hs' vals (fun _ a b => a = b) ev Ev e E d D r
    (fun _ _ _ _ h _ => h) (fun _ _ _ h => by rw [h]) hist holds mean hE he hd ex
  exact agree_eq h

/-- **C68, transformers.** The rules return expressions: the object that the transformer returns stands
for the expression that it returns on values. -/
theorem C68_transform (me : Nat) (s s' : St V K) (hs hs' : List (Option Nat)) (vals : List (Ex K))
    (ev : Prog.EvalH V K Nat) (Ev : Evaluator PyM K (Tree K)) (e : Nat) (E : Tree K)
    (d : List (Nat × Nat)) (D : Dict (Tree K) (Tree K)) (r : PyM Nat) (hist : History R s)
    (holds : Holds s hs) (mean : Mean s.heap hs vals) (hE : EvalAt vals At ev Ev) (he : At vals e E)
    (hd : MapAt vals (At vals) d D)
    (ex : Exec me Clean R ⟨s, hs, ev.call e d⟩ R' ⟨s', hs', .ofPy r⟩) :
    Outcome s'.heap hs' r (Ev.evalForward E D) := by
  obtain ⟨_, h1, h2⟩ := C68_evaluate me s s' hs hs' vals At ev Ev e E d D r
    (fun _ _ _ _ h hp => h.mono hp) (fun _ _ _ _ => rfl) hist holds mean hE he hd ex
  exact agree_outcome h1 h2

end

/-! ### The hypotheses can be met, for all inputs -/

section
variable {V K : Type} [DecidableEq K] [PyVal V K]

/-- What a program computes on values it does in some process, without races. -/
theorem run_ready {α A : Type} (me : Nat) {vals : List (Ex K)} {p : Prog V K α}
    {rel : List (Ex K) → α → A → Prop} {x : PyM A} (hr : Ready V vals) (hc : Computes vals p rel x) :
    ∃ (s s' : St V K) (hs hs' : List (Option Nat)) (r : PyM α), History (fun _ => False) s ∧
      Holds s hs ∧ Mean s.heap hs vals ∧
      Exec me Clean (fun _ => False) ⟨s, hs, p⟩ (fun _ => False) ⟨s', hs', .ofPy r⟩ ∧
      ∀ h, h < hs'.length → ∃ i, held hs' h = some i := by
  obtain ⟨s, hs, h1, h2, h3, h4, h5⟩ := hr
  obtain ⟨r, v, hy, _, _⟩ := hc
  obtain ⟨s', hs', g1, _, g3⟩ := C67_completes me s hs vals v _ r h1 h2 h3 h4 h5 hy
  exact ⟨s, s', hs, hs', r, h1, h3, h4, (g1.quiet (fun _ h => h)).2, g3⟩

/-- Every evaluator on values, every expression and every dictionary of values: there is an evaluator
on objects with the same rules, and a process that runs it (the hypotheses of `C68_evaluate_data`, and
of `C68_evaluate` for data without objects). -/
theorem C68_evaluate_runs {A : Type} [HasNone A] (hk : ∀ k : K, ∃ v : V, PyVal.key v = k) (me : Nat)
    (Ev : Evaluator PyM K A) (E : Tree K) (D : Dict (Tree K) A) :
    ∃ (s s' : St V K) (hs hs' : List (Option Nat)) (vals : List (Ex K)) (ev : Prog.EvalH V K A)
      (e : Nat) (d : List (Nat × A)) (r : PyM A), History (fun _ => False) s ∧ Holds s hs ∧
      Mean s.heap hs vals ∧ EvalAt vals (fun _ a b => a = b) ev Ev ∧ At vals e E ∧
      MapAt vals (fun a b => a = b) d D ∧
      Exec me Clean (fun _ => False) ⟨s, hs, ev.call e d⟩ (fun _ => False) ⟨s', hs', .ofPy r⟩ := by
  obtain ⟨v1, ks, p1, r1, a1⟩ := ready_trees (V := V) hk Ev.operations.keys [] ready_nil
  obtain ⟨v2, ds, p2, r2, a2⟩ := ready_trees hk D.keys v1 r1
  obtain ⟨v3, e, p3, r3, a3⟩ := ready_tree hk E v2 r2
  have hE : EvalAt v3 (fun _ a b => a = b) (Prog.evalOf (V := V) .ret .ret Ev ks) Ev :=
    evalAt_evalOf (fun _ _ _ _ h _ => h) (fun v a x h => .ret h) (fun v x => .ret rfl) Ev
      (a1.mono (p2.trans p3))
  have hd : MapAt v3 (fun a b => a = b) (ds.zip D.vals) D := by
    refine ⟨D.items, ?_, fun _ => rfl⟩
    have h2 : Ats v3 ds (D.items.map Prod.fst) := a2.mono p3
    show List.Forall₂ _ (ds.zip (D.items.map Prod.snd)) D.items
    clear hE a1 a2 r2 r3 p2 p3 a3
    generalize D.items = l at h2 ⊢
    induction l generalizing ds with
    | nil => cases h2; exact .nil
    | cons q l ih =>
      cases h2 with
      | cons h1 h2 => exact .cons ⟨h1, rfl⟩ (ih _ h2)
  obtain ⟨s, s', hs, hs', r, h1, h2, h3, h4, _⟩ := run_ready me r3
    (computes_evalCall (rel := fun _ a b => a = b) (fun _ _ _ _ h _ => h) (fun _ _ _ h => by rw [h])
      hE hd a3)
  exact ⟨s, s', hs, hs', v3, _, e, _, r, h1, h2, h3, hE, a3, hd, h4⟩

/-- Likewise for every transformer on values: the hypotheses of `C68_transform`. -/
theorem C68_transform_runs (lit : K → V) (hl : ∀ k, PyVal.key (lit k) = k) (me : Nat)
    (Ev : Evaluator PyM K (Tree K)) (E : Tree K) (D : Dict (Tree K) (Tree K)) :
    ∃ (s s' : St V K) (hs hs' : List (Option Nat)) (vals : List (Ex K)) (ev : Prog.EvalH V K Nat)
      (e : Nat) (d : List (Nat × Nat)) (r : PyM Nat), History (fun _ => False) s ∧ Holds s hs ∧
      Mean s.heap hs vals ∧ EvalAt vals At ev Ev ∧ At vals e E ∧ MapAt vals (At vals) d D ∧
      Exec me Clean (fun _ => False) ⟨s, hs, ev.call e d⟩ (fun _ => False) ⟨s', hs', .ofPy r⟩ := by
  have hk : ∀ k : K, ∃ v : V, PyVal.key v = k := fun k => ⟨lit k, hl k⟩
  obtain ⟨v1, ks, p1, r1, a1⟩ := ready_trees (V := V) hk Ev.operations.keys [] ready_nil
  obtain ⟨v2, ds, p2, r2, a2⟩ := ready_trees hk D.keys v1 r1
  obtain ⟨v3, xs, p3, r3, a3⟩ := ready_trees hk D.vals v2 r2
  obtain ⟨v4, e, p4, r4, a4⟩ := ready_tree hk E v3 r3
  have hE : EvalAt v4 At (Prog.evalOf Prog.readTree (Prog.buildTree lit) Ev ks) Ev :=
    evalAt_evalOf (fun _ _ _ _ h hp => h.mono hp) (fun v a x h => computes_readTree h)
      (fun v x => computes_buildTree hl x v) Ev (a1.mono (p2.trans (p3.trans p4)))
  have hd : MapAt v4 (At v4) (ds.zip xs) D := by
    refine ⟨D.items, ?_, fun _ => rfl⟩
    have h2 : Ats v4 ds (D.items.map Prod.fst) := a2.mono (p3.trans p4)
    have h3 : Ats v4 xs (D.items.map Prod.snd) := a3.mono p4
    clear hE a1 a2 r2 r3 r4 p2 p3 p4 a3 a4
    generalize D.items = l at h2 h3 ⊢
    induction l generalizing ds xs with
    | nil => cases h2; exact .nil
    | cons q l ih =>
      cases h2 with
      | cons h1 h2 => cases h3 with | cons g1 g2 => exact .cons ⟨h1, g1⟩ (ih _ _ h2 g2)
  obtain ⟨s, s', hs, hs', r, h1, h2, h3, h4, _⟩ := run_ready me r4
    (computes_evalCall (rel := At) (fun _ _ _ _ h hp => h.mono hp) (fun _ _ _ _ => rfl) hE hd a4)
  exact ⟨s, s', hs, hs', v4, _, e, _, r, h1, h2, h3, hE, a4, hd, h4⟩

end

/-! ### `Expr` -/

variable {V : Type} [PyVal V Val] {R R' : Key Val → Prop} {lit : Val → V}

/-- **C68, `SymEvaluator`.** An evaluator of plain data called with an `Expr` and a dictionary whose
keys are `Expr`s. -/
theorem C68_sym_evaluate {A : Type} [HasNone A] (me : Nat) (s s' : St V Val) (hs hs' : List (Option Nat))
    (vals : List (Ex Val)) (ev : Prog.EvalH V Val A) (Ev : Evaluator PyM Val A) (e : Nat) (E : Expr)
    (values : List (Nat × A)) (Values : Dict Expr A) (r : PyM A) (hist : History R s)
    (holds : Holds s hs) (mean : Mean s.heap hs vals) (hE : EvalAt vals (fun _ a b => a = b) ev Ev)
    (he : ExprAt vals e E)
    (hd : List.Forall₂ (fun p q => ExprAt vals p.1 q.1 ∧ p.2 = q.2) values Values.items)
    (ex : Exec me Clean R ⟨s, hs, Prog.symEval ev e values⟩ R' ⟨s', hs', .ofPy r⟩) :
    r = symEvalCall Ev E (some Values) := by
  obtain ⟨_, _, h⟩ := outcome_of hist holds mean (computes_symEval (rel := fun _ a b => a = b)
    (fun _ _ _ _ h _ => h) (fun _ _ _ h => by rw [h]) hE he hd) ex
  exact agree_eq h

theorem isExpr_of {s' : St V Val} {hs' : List (Option Nat)} {vals' : List (Ex Val)} {h : Nat}
    {e : Expr} (hm : Mean s'.heap hs' vals') (ha : ExprAt vals' h e) : IsExpr s'.heap hs' h e := by
  intro i hi
  obtain ⟨x, h1, h2⟩ := hm.2 h i hi
  unfold ExprAt SymAt at ha
  rw [ha] at h1
  cases h1
  exact h2

theorem agree_expr {s' : St V Val} {hs' : List (Option Nat)} {vals' : List (Ex Val)} {r : PyM Nat}
    {x : PyM Expr} (hm : Mean s'.heap hs' vals') (h : Agree (ExprAt vals') r x) :
    ExprOutcome s'.heap hs' r x := by
  cases r <;> cases x
  · exact h
  · exact h.elim
  · exact h.elim
  · exact isExpr_of hm h

theorem noCompare_rep (h : Nat) : NoCompare (Prog.rep h : Prog V Val Nat) := by
  refine .look _ (fun o => ?_)
  cases o
  all_goals first | exact .raise _ | exact .ret _

theorem noCompare_newAtom (ty : AtomType) (v : V) :
    NoCompare (Prog.newAtom Prog.exprCls ty v : Prog V Val Nat) := by
  exact .make _ (fun _ => .make _ (fun _ => .make _ (fun _ => .ret _)))

theorem noCompare_expressify (o : Prog.ObjH) : NoCompare (Prog.expressify lit o) := by
  cases o
  · exact .ret _
  · exact noCompare_newAtom _ _
  · exact .raise _

theorem noCompare_exprCall (f : Nat) (args : List Prog.ObjH) : NoCompare (Prog.exprCall lit f args) := by
  exact (noCompare_each noCompare_expressify args).bind (fun es =>
    (noCompare_each noCompare_rep es).bind (fun _ => (noCompare_rep f).bind (fun _ =>
      NoCompare.bind (.make _ (fun _ => .ret _)) (fun _ => .make _ (fun _ => .ret _)))))

theorem noCompare_method (c : Prog.ConstsH) (op : BinOp) (a b : Nat) :
    NoCompare (Prog.method lit c op a b) := by
  cases op
  · exact noCompare_exprCall _ _
  · exact (noCompare_exprCall _ _).bind (fun _ => noCompare_exprCall _ _)
  · exact noCompare_exprCall _ _
  · exact (noCompare_exprCall _ _).bind (fun _ => noCompare_exprCall _ _)
  · exact noCompare_exprCall _ _

theorem noCompare_rmethod (c : Prog.ConstsH) (op : BinOp) (a b : Nat) :
    NoCompare (Prog.rmethod lit c op a b) := by
  cases op
  · exact noCompare_exprCall _ _
  · exact (noCompare_exprCall _ _).bind (fun _ => noCompare_exprCall _ _)
  · exact noCompare_exprCall _ _
  · exact (noCompare_exprCall _ _).bind (fun _ => noCompare_exprCall _ _)
  · exact noCompare_exprCall _ _

theorem noCompare_binOp (c : Prog.ConstsH) (op : BinOp) (a b : Prog.ObjH) :
    NoCompare (Prog.binOp lit c op a b) := by
  cases a <;> cases b
  · exact noCompare_method _ _ _ _
  · exact (noCompare_expressify _).bind (fun _ => noCompare_method _ _ _ _)
  · exact .raise _
  · exact (noCompare_expressify _).bind (fun _ => noCompare_rmethod _ _ _ _)
  all_goals exact .raise _

theorem outcome_races {α A : Type} {me : Nat} {s s' : St V Val} {hs hs' : List (Option Nat)}
    {vals : List (Ex Val)} {p : Prog V Val α} {r : PyM α} {rel : List (Ex Val) → α → A → Prop} {x : PyM A}
    (np : NoCompare p) (hist : History R s) (holds : Holds s hs) (mean : Mean s.heap hs vals)
    (hc : Computes vals p rel x)
    (ex : Exec me (fun _ _ => True) R ⟨s, hs, p⟩ R' ⟨s', hs', .ofPy r⟩) :
    ∃ vals', Mean s'.heap hs' vals' ∧ Agree (rel vals') r x := by
  obtain ⟨v, h1, h2⟩ := C67_no_compare me s s' hs hs' vals _ r np hist holds mean ex
  obtain ⟨r', v', g1, _, g3⟩ := hc
  obtain ⟨rfl, rfl⟩ := g1.unique h1
  exact ⟨_, h2, g3⟩

/-- **C68, building expressions.** `f(*args)`, with `Expr`s and `int`s, compares nothing: in every
execution, whatever races there are or have been, it returns an `Expr` for the call on values. -/
theorem C68_call_races (me : Nat) (s s' : St V Val) (hs hs' : List (Option Nat)) (vals : List (Ex Val))
    (hl : ∀ v, PyVal.key (lit v) = v) (f : Nat) (F : Expr) (args : List Prog.ObjH) (Args : List PyObj)
    (r : PyM Nat) (hist : History R s) (holds : Holds s hs) (mean : Mean s.heap hs vals)
    (hf : ExprAt vals f F) (ha : List.Forall₂ (ObjAt vals) args Args)
    (ex : Exec me (fun _ _ => True) R ⟨s, hs, Prog.exprCall lit f args⟩ R' ⟨s', hs', .ofPy r⟩) :
    ExprOutcome s'.heap hs' r (F.pyCall Args) := by
  obtain ⟨v, h1, h2⟩ := outcome_races (noCompare_exprCall f args) hist holds mean
    (computes_exprCall hl hf ha) ex
  exact agree_expr h1 h2

/-- **C68, operators.** Likewise for `a + b`, `a - b`, `a * b`, `a / b`, `a ** b` with an `Expr` and an
`Expr` or `int` on either side. -/
theorem C68_operators_races (me : Nat) (s s' : St V Val) (hs hs' : List (Option Nat))
    (vals : List (Ex Val)) (hl : ∀ v, PyVal.key (lit v) = v) (c : Prog.ConstsH) (op : BinOp)
    (a b : Prog.ObjH) (A B : PyObj) (r : PyM Nat) (hist : History R s) (holds : Holds s hs)
    (mean : Mean s.heap hs vals) (hc : ConstsAt vals c) (ha : ObjAt vals a A) (hb : ObjAt vals b B)
    (ex : Exec me (fun _ _ => True) R ⟨s, hs, Prog.binOp lit c op a b⟩ R' ⟨s', hs', .ofPy r⟩) :
    ExprOutcome s'.heap hs' r (pyBinOp op A B) := by
  obtain ⟨v, h1, h2⟩ := outcome_races (noCompare_binOp c op a b) hist holds mean
    (computes_binOp hl hc op ha hb) ex
  exact agree_expr h1 h2

/-- **C68, `xreplace`.** -/
theorem C68_xreplace (me : Nat) (s s' : St V Val) (hs hs' : List (Option Nat)) (vals : List (Ex Val))
    (hl : ∀ v, PyVal.key (lit v) = v) (e : Nat) (E : Expr) (reps : List (Prog.ObjH × Prog.ObjH))
    (Reps : Dict PyObj PyObj) (r : PyM Nat) (hist : History R s) (holds : Holds s hs)
    (mean : Mean s.heap hs vals) (he : ExprAt vals e E)
    (hr : List.Forall₂ (fun r R => ObjAt vals r.1 R.1 ∧ ObjAt vals r.2 R.2) reps Reps.items)
    (ex : Exec me Clean R ⟨s, hs, Prog.xreplace lit e reps⟩ R' ⟨s', hs', .ofPy r⟩) :
    ExprOutcome s'.heap hs' r (Verif.xreplace E Reps) := by
  obtain ⟨v, h1, h2⟩ := outcome_of hist holds mean (computes_xreplace hl he hr) ex
  exact agree_expr h1 h2

/-- **C68, `diff`.** `e.diff(s, n)` with any differentiator. -/
theorem C68_diff (me : Nat) (s s' : St V Val) (hs hs' : List (Option Nat)) (vals : List (Ex Val))
    (p : Prog.DiffH) (P : DiffProps Val) (e sym : Nat) (E Sym : Expr) (n : Int) (r : PyM Nat)
    (hist : History R s) (holds : Holds s hs) (mean : Mean s.heap hs vals) (hP : DiffAt vals p P)
    (he : ExprAt vals e E) (hsym : ExprAt vals sym Sym)
    (ex : Exec me Clean R ⟨s, hs, Prog.exprDiff p e sym n⟩ R' ⟨s', hs', .ofPy r⟩) :
    ExprOutcome s'.heap hs' r (Expr.diff E Sym n P) := by
  obtain ⟨v, h1, h2⟩ := outcome_of hist holds mean (computes_exprDiff n hP he hsym) ex
  exact agree_expr h1 h2

/-- **C68, `bin_expand`.** The `Expr` returned is the one in which all sums and products are binary
(C20); if it raises there is none. -/
theorem C68_bin_expand (me : Nat) (s s' : St V Val) (hs hs' : List (Option Nat)) (vals : List (Ex Val))
    (c : Prog.ConstsH) (e : Nat) (E : Expr) (r : PyM Nat) (hist : History R s) (holds : Holds s hs)
    (mean : Mean s.heap hs vals) (hc : ConstsAt vals c) (he : ExprAt vals e E)
    (ex : Exec me Clean R ⟨s, hs, Prog.exprBinExpand c e⟩ R' ⟨s', hs', .ofPy r⟩) :
    (∀ h, r = .ok h → ∃ u, BinExpands E u ∧ IsExpr s'.heap hs' h u) ∧
    (∀ err, r = .error err → ∀ u, ¬ BinExpands E u) := by
  obtain ⟨v, h1, h2⟩ := outcome_of hist holds mean (computes_exprBinExpand hc he) ex
  constructor
  · rintro h rfl
    cases hb : binExpand E with
    | error => rw [hb] at h2; exact h2.elim
    | ok u =>
      rw [hb] at h2
      exact ⟨u, (C20_bin_expand_nests E u).1 hb, isExpr_of h1 h2⟩
  · rintro err rfl u hu
    rw [(C20_bin_expand_nests E u).2 hu] at h2
    exact h2.elim

/-- **C68, `count_ops_graph`.** -/
theorem C68_count_ops (me : Nat) (s s' : St V Val) (hs hs' : List (Option Nat)) (vals : List (Ex Val))
    (e : Nat) (E : Expr) (r : PyM Nat) (hist : History R s) (holds : Holds s hs)
    (mean : Mean s.heap hs vals) (he : ExprAt vals e E)
    (ex : Exec me Clean R ⟨s, hs, Prog.exprCountOps e⟩ R' ⟨s', hs', .ofPy r⟩) :
    r = .ok (countOpsGraph E) := by
  obtain ⟨v, h1, h2⟩ := outcome_of hist holds mean (computes_exprCountOps he) ex
  exact agree_eq h2

/-! ### User programs -/

theorem isObj_of {s' : St V Val} {hs' : List (Option Nat)} {vals' : List (Ex Val)} {o : Prog.ObjH}
    {O : PyObj} (hm : Mean s'.heap hs' vals') (h : ObjAt vals' o O) : IsObj s'.heap hs' o O := by
  cases o <;> cases O
  all_goals first | exact isExpr_of hm h | exact h

/-- **C68, import.** Importing simplecas, in whatever state the process is: the constants stand for
what they should and the differentiator has the rules of `sin`, `cos`, `**` and `List`. -/
theorem C68_import (me : Nat) (s s' : St V Val) (hs hs' : List (Option Nat)) (vals : List (Ex Val))
    (hl : ∀ v, PyVal.key (lit v) = v) (r : PyM Prog.SimplecasH) (hist : History R s)
    (holds : Holds s hs) (mean : Mean s.heap hs vals)
    (ex : Exec me Clean R ⟨s, hs, Prog.importSimplecas lit⟩ R' ⟨s', hs', .ofPy r⟩) :
    ∃ m vals', r = .ok m ∧ Mean s'.heap hs' vals' ∧ SimplecasAt vals' m := by
  obtain ⟨v, h1, h2⟩ := outcome_of hist holds mean (computes_import hl) ex
  cases r with
  | error => exact h2.elim
  | ok m => exact ⟨m, v, rfl, h1, h2⟩

/-- **C68, user programs.** A thread of a process, in whatever state the process is, imports simplecas
and runs a user program: a list of calls of the API, of any length.  Whatever the other threads and the
collector do, unless there is a race for the objects of this thread, all results are what the program
gives on values. -/
theorem C68_session (me : Nat) (s s' : St V Val) (hs' : List (Option Nat))
    (hl : ∀ v, PyVal.key (lit v) = v) (prog : List Instr) (r : PyM (List Prog.ObjH))
    (hist : History R s)
    (ex : Exec me Clean R ⟨s, [], Prog.session lit prog⟩ R' ⟨s', hs', .ofPy r⟩) :
    ScriptOutcome s'.heap hs' r (scriptValue [] prog) := by
  obtain ⟨v, h1, h2⟩ := outcome_of hist (vals := []) (by intro h i hh; simp [held] at hh)
    ⟨rfl, by intro h i hh; simp [held] at hh⟩ (computes_session hl prog) ex
  cases hx : scriptValue [] prog with
  | error e =>
    rw [hx] at h2
    cases r
    · exact h2
    · exact h2.elim
  | ok xs =>
    rw [hx] at h2
    cases r
    · exact h2.elim
    · exact h2.imp (fun _ _ h => isObj_of h1 h)

/-- **C68, identity.** After a user program two of its results are the same object exactly when they
are the same expression. -/
theorem C68_session_identity (me : Nat) (s s' : St V Val) (hs' : List (Option Nat))
    (hl : ∀ v, PyVal.key (lit v) = v) (prog : List Instr) (os : List Prog.ObjH)
    (hist : History R s)
    (ex : Exec me Clean R ⟨s, [], Prog.session lit prog⟩ R' ⟨s', hs', .ret os⟩) :
    ∃ xs, scriptValue [] prog = .ok xs ∧ ∀ m n h h' i j : Nat, os[m]? = some (.expr h) →
      os[n]? = some (.expr h') → held hs' h = some i → held hs' h' = some j →
      ∃ e e', xs[m]? = some (.expr e) ∧ xs[n]? = some (.expr e') ∧ (i = j ↔ e = e') := by
  have hm0 : Mean s.heap [] ([] : List (Ex Val)) := ⟨rfl, by intro h i hh; simp [held] at hh⟩
  have hh0 : Holds s [] := by intro h i hh; simp [held] at hh
  have hso := C68_session me s s' hs' hl prog (.ok os) hist ex
  obtain ⟨g1, g2, g3, v, g4, g5⟩ := exec_sim hist hh0 hm0 ex
  cases hx : scriptValue [] prog with
  | error e => rw [hx] at hso; exact hso.elim
  | ok xs =>
    rw [hx] at hso
    refine ⟨xs, rfl, ?_⟩
    intro m n h h' i j hm hn hi hj
    have key : ∀ m h i : Nat, os[m]? = some (Prog.ObjH.expr h) → held hs' h = some i →
        ∃ e, xs[m]? = some (.expr e) ∧ Is s'.heap i (.sym Prog.exprCls e : Ex Val) := by
      intro m h i hm hi
      have hlt := (List.getElem?_eq_some_iff.1 hm).1
      have hlen : os.length = xs.length := List.Forall₂.length_eq hso
      have := List.Forall₂.get hso hlt (hlen ▸ hlt)
      have e1 : os.get ⟨m, hlt⟩ = .expr h := (List.getElem?_eq_some_iff.1 hm).2
      rw [e1] at this
      generalize hX : xs.get ⟨m, hlen ▸ hlt⟩ = X at this
      cases X with
      | expr e =>
        refine ⟨e, ?_, this i hi⟩
        rw [List.getElem?_eq_some_iff]
        exact ⟨hlen ▸ hlt, hX⟩
      | int => exact this.elim
      | other => exact this.elim
    obtain ⟨e, h1, h2⟩ := key m h i hm hi
    obtain ⟨e', h3, h4⟩ := key n h' j hn hj
    refine ⟨e, e', h1, h3, ?_, ?_⟩
    · rintro rfl
      have := h2.unique h4
      cases this
      rfl
    · rintro rfl
      obtain ⟨hinv, _⟩ := g1.inv
      exact Is.injective hinv (Or.inl (g2 h i hi)) (Or.inl (g2 h' j hj)) h2 h4
        (fun c o hc ho => g3 h i c o hi hc ho)

/-! ### The hypotheses can be met, for all inputs -/

theorem ready_expr (hl : ∀ v, PyVal.key (lit v) = v) (e : Expr) (vals : List (Ex Val))
    (hr : Ready V vals) : ∃ vals' h, vals <+: vals' ∧ Ready V vals' ∧ ExprAt vals' h e := by
  obtain ⟨v1, n, p1, r1, a1⟩ := ready_tree (V := V) (fun k => ⟨lit k, hl k⟩) e vals hr
  obtain ⟨r, v2, hy, p2, ha⟩ := computes_wrap (V := V) Prog.exprCls a1
  cases r with
  | error => exact ha.elim
  | ok h => exact ⟨v2, h, p1.trans p2, ready_of_yields r1 hy, ha⟩

theorem ready_obj (hl : ∀ v, PyVal.key (lit v) = v) (O : PyObj) (vals : List (Ex Val))
    (hr : Ready V vals) : ∃ vals' o, vals <+: vals' ∧ Ready V vals' ∧ ObjAt vals' o O := by
  cases O with
  | expr e =>
    obtain ⟨v, h, p, r, a⟩ := ready_expr hl e vals hr
    exact ⟨v, .expr h, p, r, a⟩
  | int n => exact ⟨vals, .int n, List.prefix_refl _, hr, rfl⟩
  | other n => exact ⟨vals, .other n, List.prefix_refl _, hr, rfl⟩

theorem ready_objs (hl : ∀ v, PyVal.key (lit v) = v) (Os : List PyObj) :
    ∀ vals : List (Ex Val), Ready V vals →
      ∃ vals' os, vals <+: vals' ∧ Ready V vals' ∧ List.Forall₂ (ObjAt vals') os Os := by
  induction Os with
  | nil => intro vals hr; exact ⟨vals, [], List.prefix_refl _, hr, .nil⟩
  | cons O Os ih =>
    intro vals hr
    obtain ⟨v1, o, p1, r1, a1⟩ := ready_obj hl O vals hr
    obtain ⟨v2, os, p2, r2, a2⟩ := ih v1 r1
    exact ⟨v2, o :: os, p1.trans p2, r2, .cons (a1.mono p2) a2⟩

theorem ready_import (hl : ∀ v, PyVal.key (lit v) = v) (vals : List (Ex Val)) (hr : Ready V vals) :
    ∃ vals' m, vals <+: vals' ∧ Ready V vals' ∧ SimplecasAt vals' m := by
  obtain ⟨r, v, hy, p, ha⟩ := computes_import (vals := vals) hl
  cases r with
  | error => exact ha.elim
  | ok m => exact ⟨v, m, p, ready_of_yields hr hy, ha⟩

/-- Whatever the expressions, operands, replacements and number of derivatives: the hypotheses of
`C68_call_races`, `C68_operators_races`, `C68_xreplace`, `C68_diff`, `C68_bin_expand` and
`C68_count_ops` are met in some process that has imported simplecas. -/
theorem C68_api_runs (hl : ∀ v, PyVal.key (lit v) = v) (me : Nat) (E Sym : Expr) (A B : PyObj)
    (Args : List PyObj) (Reps : Dict PyObj PyObj) (op : BinOp) (n : Int) :
    ∃ (vals : List (Ex Val)) (m : Prog.SimplecasH) (e sym : Nat) (a b : Prog.ObjH)
      (args : List Prog.ObjH) (reps : List (Prog.ObjH × Prog.ObjH)),
      SimplecasAt vals m ∧ ExprAt vals e E ∧ ExprAt vals sym Sym ∧ ObjAt vals a A ∧ ObjAt vals b B ∧
      List.Forall₂ (ObjAt vals) args Args ∧
      List.Forall₂ (fun r R => ObjAt vals r.1 R.1 ∧ ObjAt vals r.2 R.2) reps Reps.items ∧
      ∀ p ∈ [Prog.exprCall lit e args, Prog.binOp lit m.consts op a b, Prog.xreplace lit e reps,
        Prog.exprDiff m.diff e sym n, Prog.exprBinExpand m.consts e, Prog.exprCountOps e],
      ∃ (s s' : St V Val) (hs hs' : List (Option Nat)) (r : PyM Nat), History (fun _ => False) s ∧
        Holds s hs ∧ Mean s.heap hs vals ∧
        Exec me Clean (fun _ => False) ⟨s, hs, p⟩ (fun _ => False) ⟨s', hs', .ofPy r⟩ ∧
        Exec me (fun _ _ => True) (fun _ => False) ⟨s, hs, p⟩ (fun _ => False) ⟨s', hs', .ofPy r⟩ := by
  obtain ⟨v1, m, p1, r1, a1⟩ := ready_import (V := V) hl [] ready_nil
  obtain ⟨v2, e, p2, r2, a2⟩ := ready_expr hl E v1 r1
  obtain ⟨v3, sym, p3, r3, a3⟩ := ready_expr hl Sym v2 r2
  obtain ⟨v4, a, p4, r4, a4⟩ := ready_obj hl A v3 r3
  obtain ⟨v5, b, p5, r5, a5⟩ := ready_obj hl B v4 r4
  obtain ⟨v6, args, p6, r6, a6⟩ := ready_objs hl Args v5 r5
  obtain ⟨v7, ks, p7, r7, a7⟩ := ready_objs hl Reps.keys v6 r6
  obtain ⟨v8, xs, p8, r8, a8⟩ := ready_objs hl Reps.vals v7 r7
  have q7 := p7.trans p8
  have q6 := p6.trans q7
  have q5 := p5.trans q6
  have q4 := p4.trans q5
  have q3 := p3.trans q4
  have q2 := p2.trans q3
  have b1 : SimplecasAt v8 m := ⟨constsAt_mono a1.consts q2, a1.diff.mono q2⟩
  have b2 := a2.mono q3
  have b3 := a3.mono q4
  have b4 := a4.mono q5
  have b5 := a5.mono q6
  have b6 : List.Forall₂ (ObjAt v8) args Args := a6.imp (fun _ _ h => h.mono q7)
  have b7 : List.Forall₂ (fun r R => ObjAt v8 r.1 R.1 ∧ ObjAt v8 r.2 R.2) (ks.zip xs) Reps.items := by
    have h2 : List.Forall₂ (ObjAt v8) ks (Reps.items.map Prod.fst) := a7.imp (fun _ _ h => h.mono p8)
    have h3 : List.Forall₂ (ObjAt v8) xs (Reps.items.map Prod.snd) := a8
    clear q2 q3 q4 q5 q6 q7 b6 b5 b4 b3 b2 b1 r7 r8 a7 a8 p7 p8
    generalize Reps.items = l at h2 h3 ⊢
    induction l generalizing ks xs with
    | nil => cases h2; exact .nil
    | cons q l ih =>
      cases h2 with
      | cons h1 h2 => cases h3 with | cons g1 g2 => exact .cons ⟨h1, g1⟩ (ih _ _ h2 g2)
  refine ⟨v8, m, e, sym, a, b, args, ks.zip xs, b1, b2, b3, b4, b5, b6, b7, ?_⟩
  have run : ∀ {A : Type} {p : Prog V Val Nat} {rel : List (Ex Val) → Nat → A → Prop} {x : PyM A},
      Computes v8 p rel x → ∃ (s s' : St V Val) (hs hs' : List (Option Nat)) (r : PyM Nat),
        History (fun _ => False) s ∧ Holds s hs ∧ Mean s.heap hs v8 ∧
        Exec me Clean (fun _ => False) ⟨s, hs, p⟩ (fun _ => False) ⟨s', hs', .ofPy r⟩ ∧
        Exec me (fun _ _ => True) (fun _ => False) ⟨s, hs, p⟩ (fun _ => False) ⟨s', hs', .ofPy r⟩ := by
    intro A p rel x hc
    obtain ⟨s, s', hs, hs', r, h1, h2, h3, h4, _⟩ := run_ready me r8 hc
    exact ⟨s, s', hs, hs', r, h1, h2, h3, h4, h4.mono (fun _ _ _ => trivial)⟩
  intro p hp
  simp only [List.mem_cons, List.not_mem_nil, or_false] at hp
  rcases hp with rfl | rfl | rfl | rfl | rfl | rfl
  · exact run (computes_exprCall hl b2 b6)
  · exact run (computes_binOp hl b1.consts op b4 b5)
  · exact run (computes_xreplace hl b2 b7)
  · exact run (computes_exprDiff n b1.diff b2 b3)
  · exact run (computes_exprBinExpand b1.consts b2)
  · exact run (computes_exprCountOps b2)

/-- Every user program runs to its end in a new process (with any thread): the hypotheses of
`C68_session` and `C68_session_identity`.  All results are referenced then. -/
theorem C68_session_runs (hl : ∀ v, PyVal.key (lit v) = v) (me : Nat) (prog : List Instr) :
    ∃ (s' : St V Val) (hs' : List (Option Nat)) (r : PyM (List Prog.ObjH)),
      Exec me Clean (fun _ => False) ⟨St.init, [], Prog.session lit prog⟩ (fun _ => False)
        ⟨s', hs', .ofPy r⟩ ∧
      ScriptOutcome s'.heap hs' r (scriptValue [] prog) ∧ Alive hs' := by
  obtain ⟨r, v, hy, _, _⟩ := computes_session (vals := []) hl prog
  obtain ⟨s', hs', g1, _, g3⟩ := C67_completes me (St.init : St V Val) [] [] v _ r .start (fun _ => rfl)
    (by intro h i hh; simp [held] at hh) ⟨rfl, by intro h i hh; simp [held] at hh⟩
    (by intro h hh; simp at hh) hy
  have g1' := (g1.quiet (fun _ h => h)).2
  exact ⟨s', hs', r, g1', C68_session me _ s' hs' hl prog r .start g1', g3⟩

/-- The hypotheses of `C68_sym_evaluate`: any evaluator, expression and dictionary. -/
example {A : Type} [HasNone A] (hl : ∀ v, PyVal.key (lit v) = v) (me : Nat)
    (Ev : Evaluator PyM Val A) (E : Expr) (Values : Dict Expr A) :
    ∃ (s s' : St V Val) (hs hs' : List (Option Nat)) (vals : List (Ex Val)) (ev : Prog.EvalH V Val A)
      (e : Nat) (values : List (Nat × A)) (r : PyM A), History (fun _ => False) s ∧ Holds s hs ∧
      Mean s.heap hs vals ∧ EvalAt vals (fun _ a b => a = b) ev Ev ∧ ExprAt vals e E ∧
      List.Forall₂ (fun p q => ExprAt vals p.1 q.1 ∧ p.2 = q.2) values Values.items ∧
      Exec me Clean (fun _ => False) ⟨s, hs, Prog.symEval ev e values⟩ (fun _ => False)
        ⟨s', hs', .ofPy r⟩ := by
  obtain ⟨v1, ks, p1, r1, a1⟩ := ready_trees (V := V) (fun k => ⟨lit k, hl k⟩) Ev.operations.keys []
    ready_nil
  obtain ⟨v2, e, p2, r2, a2⟩ := ready_expr hl E v1 r1
  have hvs : ∀ (l : List (Expr × A)) (v : List (Ex Val)), Ready V v → ∃ (v' : List (Ex Val)) (ps : List (Nat × A)), v <+: v' ∧
      Ready V v' ∧ List.Forall₂ (fun p q => ExprAt v' p.1 q.1 ∧ p.2 = q.2) ps l := by
    intro l
    induction l with
    | nil => intro v hr; exact ⟨v, [], List.prefix_refl _, hr, .nil⟩
    | cons q l ih =>
      intro v hr
      obtain ⟨w1, h, q1, s1, b1⟩ := ready_expr hl q.1 v hr
      obtain ⟨w2, ps, q2, s2, b2⟩ := ih w1 s1
      exact ⟨w2, (h, q.2) :: ps, q1.trans q2, s2, .cons ⟨b1.mono q2, rfl⟩ b2⟩
  obtain ⟨v3, values, p3, r3, a3⟩ := hvs Values.items v2 r2
  have hE : EvalAt v3 (fun _ a b => a = b) (Prog.evalOf (V := V) .ret .ret Ev ks) Ev :=
    evalAt_evalOf (fun _ _ _ _ h _ => h) (fun v a x h => .ret h) (fun v x => .ret rfl) Ev
      (a1.mono (p2.trans p3))
  obtain ⟨s, s', hs, hs', r, h1, h2, h3, h4, _⟩ := run_ready me r3
    (computes_symEval (rel := fun _ a b => a = b) (fun _ _ _ _ h _ => h) (fun _ _ _ h => by rw [h]) hE
      (a2.mono p3) a3)
  exact ⟨s, s', hs, hs', v3, _, e, values, r, h1, h2, h3, hE, a2.mono p3, a3, h4⟩

/-- Those of `C68_import`. -/
example (hl : ∀ v, PyVal.key (lit v) = v) (me : Nat) :
    ∃ (s s' : St V Val) (hs hs' : List (Option Nat)) (r : PyM Prog.SimplecasH),
      History (fun _ => False) s ∧ Holds s hs ∧ Mean s.heap hs ([] : List (Ex Val)) ∧
      Exec me Clean (fun _ => False) ⟨s, hs, Prog.importSimplecas lit⟩ (fun _ => False)
        ⟨s', hs', .ofPy r⟩ := by
  obtain ⟨s, s', hs, hs', r, h1, h2, h3, h4, _⟩ := run_ready me ready_nil (computes_import hl)
  exact ⟨s, s', hs, hs', r, h1, h2, h3, h4⟩

/-- A user program: `x = Symbol('x'); e = x**2 * sin(x); d = e.diff(x); r = d.xreplace({x: 3});
r == r2` … with the values it gives. -/
def _root_.Verif.Samples.clientProgram : List Instr :=
  [.symbol "x", .int 2, .op .pow 0 1, .function "sin", .call 3 [0], .op .mul 2 4, .diff 5 0 1,
    .int 3, .xreplace 6 [(0, 7)], .op .sub 8 1, .binExpand 9, .countOps 10, .symbol "x", .eq 0 12,
    .diff 5 12 2, .diff 6 0 1, .eq 14 15, .head 5, .arg 5 1, .eq 18 4]

/-- `2*x**(2 + -1)*sin(x) + x**2*cos(x)`. -/
def _root_.Verif.Samples.clientDerivative : Expr :=
  Expr.add (Expr.mul (Expr.mul (Expr.integer 2) (Expr.pow (Expr.symbol "x")
    (Expr.add (Expr.integer 2) (Expr.integer (-1))))) (Expr.sin (Expr.symbol "x")))
    (Expr.mul (Expr.pow (Expr.symbol "x") (Expr.integer 2)) (Expr.cos (Expr.symbol "x")))

example : (scriptValue [] Samples.clientProgram).map (fun l => (l[6]?, l[13]?, l[16]?, l[19]?)) = .ok
    (some (.expr Samples.clientDerivative),
      some (.int 1), some (.int 1), some (.int 1)) := by decide +kernel

/-- It runs, and its seventh result, `e.diff(x)`, is an `Expr` object for that derivative. -/
example : letI : PyVal Val Val := plainVal
    ∃ (s' : St Val Val) (hs' : List (Option Nat)) (os : List Prog.ObjH) (h i j : Nat),
      Exec 0 Clean (fun _ => False) ⟨St.init, [], Prog.session id Samples.clientProgram⟩ (fun _ => False)
        ⟨s', hs', .ret os⟩ ∧ os[6]? = some (.expr h) ∧ held hs' h = some i ∧
      s'.heap i = some (.sym Prog.exprCls j) ∧ Stands s'.heap j Samples.clientDerivative := by
  let _ : PyVal Val Val := plainVal
  obtain ⟨r, v, hy, _, ha⟩ := computes_session (V := Val) (lit := id) (vals := []) (fun _ => rfl) Samples.clientProgram
  obtain ⟨s', hs', g1, g2, g3⟩ := C67_completes 0 (St.init : St Val Val) [] [] v _ r .start (fun _ => rfl)
    (by intro h i hh; simp [held] at hh) ⟨rfl, by intro h i hh; simp [held] at hh⟩
    (by intro h hh; simp at hh) hy
  cases hx : scriptValue [] Samples.clientProgram with
  | error e =>
    have : (scriptValue [] Samples.clientProgram).isOk = true := by decide +kernel
    rw [hx] at this
    exact absurd this (by simp [Except.isOk, Except.toBool])
  | ok xs =>
    have h6 : (scriptValue [] Samples.clientProgram).map (fun l => l[6]?) =
        .ok (some (.expr Samples.clientDerivative)) := by
      decide +kernel
    rw [hx] at h6 ha
    replace h6 : xs[6]? = some (.expr Samples.clientDerivative) := by injection h6
    cases r with
    | error => exact ha.elim
    | ok os =>
      have hlt := (List.getElem?_eq_some_iff.1 h6).1
      have hlen : os.length = xs.length := List.Forall₂.length_eq ha
      have h7 := List.Forall₂.get ha (hlen ▸ hlt) hlt
      have e1 := (List.getElem?_eq_some_iff.1 h6).2
      replace h7 : ObjAt v os[6] xs[6] := h7
      rw [e1] at h7
      generalize ho : os[6] = o at h7
      cases o with
      | expr h =>
        have hv : ExprAt v h _ := h7
        obtain ⟨i, hi⟩ := g3 h (by rw [g2.1]; exact (List.getElem?_eq_some_iff.1 hv).1)
        obtain ⟨j, hj1, hj2⟩ := isExpr_of g2 hv i hi
        exact ⟨s', hs', os, h, i, j, (g1.quiet (fun _ h => h)).2,
          List.getElem?_eq_some_iff.2 ⟨hlen ▸ hlt, ho⟩, hi, hj1, hj2⟩
      | int => exact h7.elim
      | other => exact h7.elim

end Verif.Props
