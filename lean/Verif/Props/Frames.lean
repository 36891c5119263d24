import Verif.Lemmas.FramesLimit
import Verif.Props.Float

/-!
# C70: the depth of expressions and Python's recursion limit

`core/tree.py:245` promises that there is "no limit on the recursion depth".  The functions that go
through the graph of an expression need a number of frames that does not depend on the expression;
with fewer frames they raise `RecursionError` and never return anything else.  The functions that
recurse, and whatever prints a head, need frames in proportion to a depth.
-/

namespace Verif.Props
open Spec Framed

/-- Python 3.8 to 3.11 and CPython's `weakref`: a comprehension is a function, `get` and `setdefault` of a
`WeakValueDictionary` take two frames, `repr` calls back through C. -/
def _root_.Verif.Samples.python310 : FrameUse := ⟨1, 2, 1⟩

open Samples

/-! ### No limit -/

/-- **C70.** The walks over the graph: `topological_sort`, `topological_split`, `forward_graph`. -/
theorem C70_graph {V : Type} [DecidableEq V] (c : FrameUse) (heads : Bool) (exclude : List (Tree V))
    (e : Tree V) :
    Within (4 + overhead c) (framedSort heads exclude e) (.ok (topologicalSort heads exclude e)) ∧
    Within (4 + overhead c) (framedSplit exclude e) (.ok (topologicalSplit exclude e)) ∧
    Within (4 + overhead c) (framedGraph c e) (forwardGraph e) := by
  unfold overhead
  exact ⟨(within_sort heads exclude e).mono (by omega), (within_split exclude e).mono (by omega),
    (within_graph c e).mono (by omega)⟩

/-- **C70.** Calls and the arithmetic operators, with operands of any depth. -/
theorem C70_build (c : FrameUse) :
    (∀ f args, Within (7 + overhead c) (framedExprCall c f args) (Expr.pyCall f args)) ∧
    (∀ op a b, Within (7 + overhead c) (framedBinOp c op a b) (pyBinOp op a b)) ∧
    ∀ a, Within (7 + overhead c) (framedNeg c a) (.ok (pyNeg a)) := by
  unfold overhead
  exact ⟨fun f args => (within_exprCall c f args).mono (by omega),
    fun op a b => (within_binOp c op a b).mono (by omega),
    fun a => (within_neg c a).mono (by omega)⟩

/-- **C70.** Evaluation with rules that need `k` frames, in the core and through a `SymEvaluator`. -/
theorem C70_evaluate (c : FrameUse) {T : Type} [HasNone T] :
    (∀ {V : Type} [DecidableEq V] (k : Nat) (e : Tree V) (ev' : Evaluator Framed V T)
      (ev : Evaluator PyM V T) (values : Dict (Tree V) T), RulesNeed k e ev' ev →
      Within (7 + k + overhead c) (framedEvaluate c ev' e values) (ev.call e (some values))) ∧
    ∀ (k : Nat) (e : Expr) (ev' : Evaluator Framed Val T) (ev : Evaluator PyM Val T)
      (values : Option (Dict Expr T)), RulesNeed k e ev' ev →
      Within (9 + k + overhead c) (framedSymEval c ev' e values) (symEvalCall ev e values) := by
  unfold overhead
  refine ⟨?_, ?_⟩
  · intro V _ k e ev' ev values h
    exact (within_evaluate c h values).mono (by omega)
  · intro k e ev' ev values h
    exact (within_symEval c h values).mono (by omega)

/-- **C70.** Transformers, in particular `bin_expand`. -/
theorem C70_bin_expand (c : FrameUse) :
    (∀ {V : Type} [DecidableEq V] (e : Tree V), Within (11 + overhead c)
      (framedEvaluate c (framedTransformer c) e Dict.empty) (Transformer.new.call e)) ∧
    ∀ e, Within (9 + overhead c) (framedBinExpand c e) (binExpand e) := by
  unfold overhead
  refine ⟨?_, fun e => (within_binExpand c e).mono (by omega)⟩
  intro V _ e
  exact (within_evaluate c (rulesNeed_transformer c e) _).mono (by omega)

/-- **C70.** Differentiation, any number of times, with any rules. -/
theorem C70_diff (c : FrameUse) (p : DiffProps Val) (e sym : Expr) (ntimes : Int) :
    Within (8 + overhead c) (framedExprDiff c p e sym ntimes) (Expr.diff e sym ntimes p) := by
  unfold overhead
  exact (within_exprDiff c p e sym ntimes).mono (by omega)

/-- **C70.** `as_function`, calling the function, `xreplace`. -/
theorem C70_replace (c : FrameUse) :
    (∀ e args, Within (7 + overhead c) (framedAsFunction c e args) (asFunction e args)) ∧
    (∀ f args, Within (7 + overhead c) (framedFunctionCall c f args) (exprFunctionCall f args)) ∧
    ∀ e reps, Within (7 + overhead c) (framedXreplace c e reps) (xreplace e reps) := by
  unfold overhead
  exact ⟨fun e args => (within_asFunction c e args).mono (by omega),
    fun f args => (within_functionCall c f args).mono (by omega),
    fun e reps => (within_xreplace c e reps).mono (by omega)⟩

/-- **C70.** `count_ops_graph` and `count_ops_tree`. -/
theorem C70_count (c : FrameUse) (e : Expr) :
    Within (9 + overhead c) (framedCountOpsGraph e) (.ok (countOpsGraph e)) ∧
    Within (9 + overhead c) (framedCountOpsTree c e) (countOpsTree e) := by
  unfold overhead
  exact ⟨(within_countOpsGraph e).mono (by omega), (within_countOpsTree c e).mono (by omega)⟩

/-- Frames enough for `diff` in Python 3.10, whatever the depth of the expression; the derivative of a
tower of 3 sines. -/
example : Within 12 (framedExprDiff python310 builtinDiff (tower Expr.sinH Expr.x 3) Expr.x 1)
    (Expr.diff (tower Expr.sinH Expr.x 3) Expr.x 1) ∧
    framedExprDiff python310 builtinDiff (tower Expr.sinH Expr.x 3) Expr.x 1 5 = none ∧
    (Expr.diff (tower Expr.sinH Expr.x 3) Expr.x 1).toOption.isSome := by
  refine ⟨C70_diff python310 builtinDiff _ _ _, ?_, ?_⟩
  · decide +kernel
  · decide +kernel

/-- A rule that needs 3 frames meets the condition of `C70_evaluate`. -/
example : RulesNeed (4 + python310.weak) (tower Expr.sinH Expr.x 1000)
    (framedTransformer python310) (Transformer.new : Evaluator PyM Val Expr) :=
  rulesNeed_transformer python310 _

/-! ### What prints a head: no limit on the depth of expressions, but on that of heads -/

/-- **C70.** Printing with `repr`, `str` and `eval_latex` if the heads are at most `h` deep. -/
theorem C70_print (c : FrameUse) (printable : Char → Bool) (h : Nat) (e : Expr) (hd : HeadDepth h e) :
    Within (9 + overhead c + (c.slot + 1) * (h + 3)) (framedExprRepr c e) (Expr.repr e) ∧
    Within (9 + overhead c + (c.slot + 1) * (h + 3)) (framedExprLatex c printable e)
      (Expr.latex e) := by
  have h1 := within_exprRepr c e hd
  have h2 := within_exprLatex c printable e hd
  unfold strBound linear at h1
  unfold reprBound linear at h2
  unfold overhead
  rw [Nat.mul_add]
  exact ⟨h1.mono (by omega), h2.mono (by omega)⟩

/-- **C70.** `eval_f64`; without a rule it formats the head for the message of the exception. -/
theorem C70_eval_f64 {F : Type} [HasNone F] (c : FrameUse) (printable : Char → Bool)
    (A : FloatOps F) (h : Nat) (e : Expr) (values : Option (Dict Expr F)) (hp : Proper e)
    (hd : HeadDepth h e) :
    Within (9 + overhead c + (c.slot + 1) * (h + 3)) (framedEvalF64 c printable A e values)
      (Expr.evalF64 A e values) := by
  have h1 := within_evalF64 c printable A e values hp hd
  unfold reprBound linear at h1
  unfold overhead
  rw [Nat.mul_add]
  exact h1.mono (by omega)

/-- **C70.** `to_llvm_ir` with parameters and heads at most `h` deep. -/
theorem C70_to_llvm (c : FrameUse) (printable : Char → Bool) (h : Nat) (symargs : List Expr) (e : Expr)
    (hp : Proper e) (hd : HeadDepth h e) (hs : ∀ s ∈ symargs, depth s ≤ h) :
    Within (10 + overhead c + (c.slot + 1) * (h + 3)) (framedToLlvm c printable symargs e)
      (toLlvm symargs e) := by
  have h1 := within_toLlvm c printable symargs e hp hd hs
  unfold reprBound linear at h1
  unfold overhead
  rw [Nat.mul_add]
  exact h1.mono (by omega)

theorem headDepth_tower {f x : Expr} (hf : depth f = 0) (hx : x.children = []) (n : Nat) :
    HeadDepth 0 (tower f x n) := by
  intro hd args h
  obtain ⟨m, hm⟩ := argSub_tower hx h
  cases m with
  | zero => rw [tower] at hm; rw [← hm] at hx; cases hx
  | succ m => unfold tower at hm; cases hm; omega

/-- All of that holds for a tower of any height of sines: the heads are atoms. -/
example (n : Nat) : Proper (tower Expr.sinH Expr.x n) ∧ HeadDepth 0 (tower Expr.sinH Expr.x n) ∧
    ∀ s ∈ [Expr.x], depth s ≤ 0 :=
  ⟨proper_tower (proper_atom _) (proper_atom _) n, headDepth_tower (by decide) rfl n, by decide⟩

/-! ### What recurses -/

/-- **C70.** `str` and `repr` of a `Tree` need frames in proportion to the depth of the tree, exactly: with
one fewer they raise `RecursionError`. -/
theorem C70_str_repr (c : FrameUse) (printable : Char → Bool) (t : Tree Val) :
    (∀ s, treeStr t = .ok s →
      Exactly ((c.slot + 1) * (depth t + 2) + c.slot) (framedStr c t) (.ok s)) ∧
    ∀ s, treeRepr printable t = .ok s →
      Exactly ((c.slot + 1) * (depth t + 3)) (framedRepr c printable t) (.ok s) := by
  refine ⟨fun s hs => (exactly_str c t s hs).congr ?_,
    fun s hs => (exactly_repr c printable t s hs).congr ?_⟩
  · unfold strBound linear; rw [Nat.mul_add]; omega
  · unfold reprBound linear; rw [Nat.mul_add]; omega

/-- `Tree(Tr(Function('f')), Tr(Symbol('x')))` in Python 3.10. -/
example : Exactly 8 (framedRepr python310 (fun _ => true) (.node [Expr.f, Expr.x]))
    (.ok "Tree(Tr(Function('f')), Tr(Symbol('x')))") :=
  (C70_str_repr python310 (fun _ => true) (.node [Expr.f, Expr.x])).2 _ (by decide +kernel)

/-- **C70.** `eval_recursive` needs frames in proportion to the depth through arguments; exactly so many if no
values are given and the rules need exactly `k` frames and return. -/
theorem C70_eval_recursive {V T : Type} [DecidableEq V] (c : FrameUse) (hc : c.comp ≤ 1) (k : Nat)
    (ev' : Evaluator Framed V T) (ev : Evaluator PyM V T) (values : Dict (Tree V) T) (e : Tree V) :
    (RulesNeed k e ev' ev →
      Within ((1 + c.comp) * argDepth e + 2 + k) (framedEvalRecursive c ev' values e)
        (ev.evalRecursive values e)) ∧
    (RulesExactly k e ev' ev → (∀ t, ArgSub e t → values.get? t = none) →
      ∀ v, ev.evalRecursive values e = .ok v →
      Exactly ((1 + c.comp) * argDepth e + 2 + k) (framedEvalRecursive c ev' values e) (.ok v)) := by
  rw [Nat.add_assoc]
  exact ⟨fun h => within_evalRecursive c values e h hc,
    fun h hv v hr => exactly_evalRecursive c values e h hc hv v hr⟩

/-- **C70.** `from_sympy` needs at most so many frames. -/
theorem C70_from_sympy (c : FrameUse) (s : SExpr) :
    Within ((2 + c.comp) * sympyDepth s + 7 + c.weak) (framedFromSympy c s) (fromSympy s) := by
  refine (within_fromSympy c s).mono ?_
  unfold sympyBound linear
  omega

/-- `sin(0)` needs 12 frames or fewer in Python 3.10. -/
example : Within 12 (framedFromSympy python310 (.app .sin [.int 0])) (.ok (Expr.sin Expr.zero)) := by
  have h := C70_from_sympy python310 (.app .sin [.int 0])
  rw [(C43_from_sympy (.app .sin [.int 0]) (Expr.sin Expr.zero)).2
    (.sin (by simp) (.cons .int .nil))] at h
  exact h

/-! ### For every limit there is an expression that exceeds it -/

section Recursion
variable {F : Type} (c : FrameUse) (printable : Char → Bool) (A : FloatOps F)

/-- The rules of `eval_f64`, which are functions written in C. -/
abbrev framedF64 (c : FrameUse) (printable : Char → Bool) (A : FloatOps F) : Evaluator Framed Val F :=
  framedRules 0 (evalF64 A) (framedOperationError c printable) (framedAtomError c printable)

theorem frames_zero {α : Type} (x : Framed α) : frames 0 x = x := by
  funext n; unfold frames; rw [if_pos (Nat.zero_le n)]; rfl

theorem rulesExactly_f64 (n : Nat) :
    RulesExactly 0 (tower Expr.sinH Expr.zero n) (framedF64 c printable A) (evalF64 A) where
  atom a ha h' := by
    obtain ⟨m, rfl⟩ := argSub_tower rfl ha
    cases m with
    | succ m => cases h'
    | zero =>
      have h : (framedF64 c printable A).evalAtom Expr.zero = frames 0 (here (A.fromVal (.int 0))) := by
        rfl
      show Exactly 0 ((framedF64 c printable A).evalAtom Expr.zero) _
      rw [h, frames_zero]
      exact exactly_here _
  operation hd args vals ha := by
    obtain ⟨m, hm⟩ := argSub_tower rfl ha
    cases m with
    | zero => cases hm
    | succ m =>
      unfold tower at hm
      cases hm
      have h : (framedF64 c printable A).evalOperation Expr.sinH vals =
          frames 0 (here (arity1 A.sin vals)) := by rfl
      rw [h, frames_zero]
      exact exactly_here _

theorem evalRecursive_tower (h0 : ∃ v, A.ofInt 0 = .ok v) (hs : ∀ v, ∃ w, A.sin v = .ok w) (n : Nat) :
    ∃ v, (evalF64 A).evalRecursive Dict.empty (tower Expr.sinH Expr.zero n) = .ok v := by
  induction n with
  | zero => exact h0
  | succ n ih =>
    obtain ⟨v, hv⟩ := ih
    obtain ⟨w, hw⟩ := hs v
    refine ⟨w, ?_⟩
    unfold tower Evaluator.evalRecursive
    show ((evalF64 A).evalRecursiveList Dict.empty [tower Expr.sinH Expr.zero n] >>= fun vals =>
      arity1 A.sin vals) = _
    unfold Evaluator.evalRecursiveList Evaluator.evalRecursiveList
    rw [hv]
    exact hw

/-- **C70.** So the promise is false of `eval_recursive`, `from_sympy` and `str` and `repr` of a `Tree`: for
every number of frames there is a tower of sines that is too high, although it can be printed,
evaluated and differentiated with a fixed number of frames. -/
theorem C70_recursion_false [HasNone F] (hc : c.comp ≤ 1) (h0 : ∃ v, A.ofInt 0 = .ok v)
    (hs : ∀ v, ∃ w, A.sin v = .ok w) (n : Nat) :
    ∃ e s, fromSympy s = .ok e ∧
      Exceeds n (framedFromSympy c s) ∧
      Exceeds n (framedStr c e) ∧ Exceeds n (framedRepr c printable e) ∧
      Exceeds n (framedEvalRecursive c (framedF64 c printable A) Dict.empty e) ∧
      (∃ v, (evalF64 A).evalRecursive Dict.empty e = .ok v) ∧
      Within (9 + overhead c + (c.slot + 1) * 3) (framedEvalF64 c printable A e none)
        (Expr.evalF64 A e) ∧
      Within (9 + overhead c + (c.slot + 1) * 3) (framedExprRepr c e) (Expr.repr e) ∧
      ∀ x k, Within (8 + overhead c) (framedExprDiff c builtinDiff e x k) (Expr.diff e x k) := by
  have hp := proper_tower (proper_atom _) (proper_atom _) n (f := Expr.sinH) (x := Expr.zero)
  have hd := headDepth_tower (f := Expr.sinH) (x := Expr.zero) (by decide) rfl n
  have hdep := depth_tower (f := Expr.sinH) (x := Expr.zero) (by decide) (by decide) n
  obtain ⟨str, hstr⟩ := treeStr_proper hp
  obtain ⟨rep, hrep⟩ : ∃ s, treeRepr printable (tower Expr.sinH Expr.zero n) = .ok s := by
    rcases treeRepr_cases printable (tower Expr.sinH Expr.zero n) with ⟨_, h⟩ | ⟨h, _⟩
    · exact h
    · exact absurd hp h
  obtain ⟨v, hv⟩ := evalRecursive_tower A h0 hs n
  refine ⟨tower Expr.sinH Expr.zero n, sympyTower n, (C43_from_sympy _ _).2 (converts_tower n),
    ?_, ?_, ?_, ?_, ⟨v, hv⟩, C70_eval_f64 c printable A 0 _ none hp hd,
    (C70_print c printable 0 _ hd).1, fun x k => C70_diff c builtinDiff _ x k⟩
  · refine Exceeds.push_le (Exceeds.push_le (Exceeds.bind_left ?_ _))
    refine (exceeds_sympyTower c n).mono ?_
    exact Nat.le_mul_of_pos_left n (by omega)
  · refine ((C70_str_repr c printable _).1 str hstr).exceeds ?_
    rw [hdep]
    have := Nat.le_mul_of_pos_left (n + 2) (n := c.slot + 1) (by omega)
    omega
  · refine ((C70_str_repr c printable _).2 rep hrep).exceeds ?_
    rw [hdep]
    have := Nat.le_mul_of_pos_left (n + 3) (n := c.slot + 1) (by omega)
    omega
  · refine ((C70_eval_recursive c hc 0 _ (evalF64 A) Dict.empty _).2 (rulesExactly_f64 c printable A n)
      (fun _ _ => rfl) v hv).exceeds ?_
    rw [argDepth_tower (by decide)]
    have := Nat.le_mul_of_pos_left n (n := 1 + c.comp) (by omega)
    omega

/-- **C70.** What prints a head has a limit on the depth of heads: for every number of frames there is a
call `h()` of a compound head that can be printed, but not with so many frames, and for which `eval_f64`
raises `RecursionError` in place of `NoEvaluationRuleError`. -/
theorem C70_heads_false [HasNone F] (n : Nat) :
    ∃ e, Proper e ∧ (∃ s, Expr.repr e = .ok s) ∧ Exceeds n (framedExprRepr c e) ∧
      (∃ s, Expr.latex e = .ok s) ∧ Exceeds n (framedExprLatex c printable e) ∧
      Expr.evalF64 A e = .error .noEvaluationRule ∧
      Exceeds n (framedEvalF64 c printable A e none) := by
  have hp := proper_tower (proper_atom _) (proper_atom _) (n + 1) (f := Expr.f) (x := Expr.x)
  have hdep := depth_tower (f := Expr.f) (x := Expr.x) (by decide) (by decide) (n + 1)
  obtain ⟨str, hstr⟩ := treeStr_proper hp
  obtain ⟨rep, hrep⟩ : ∃ s, treeRepr printable (tower Expr.f Expr.x (n + 1)) = .ok s := by
    rcases treeRepr_cases printable (tower Expr.f Expr.x (n + 1)) with ⟨_, h⟩ | ⟨h, _⟩
    · exact h
    · exact absurd hp h
  have hS : Exceeds n (framedStr c (tower Expr.f Expr.x (n + 1))) := by
    refine ((C70_str_repr c printable _).1 str hstr).exceeds ?_
    rw [hdep]
    have := Nat.le_mul_of_pos_left (n + 1 + 2) (n := c.slot + 1) (by omega)
    omega
  have hR : Exceeds n (framedRepr c printable (tower Expr.f Expr.x (n + 1))) := by
    refine ((C70_str_repr c printable _).2 rep hrep).exceeds ?_
    rw [hdep]
    have := Nat.le_mul_of_pos_left (n + 1 + 3) (n := c.slot + 1) (by omega)
    omega
  have hcall : Exceeds n (framedReprCall c (tower Expr.f Expr.x (n + 1)) []) :=
    Exceeds.push_le (Exceeds.bind_left hS _)
  have herr : Exceeds n (framedOperationError c printable (tower Expr.f Expr.x (n + 1)) ([] : List F)) :=
    Exceeds.push_le (Exceeds.bind_left hR _)
  have hprint : reprCall (tower Expr.f Expr.x (n + 1)) [] = .ok (str ++ "(" ++ "" ++ ")") := by
    unfold reprCall; rw [hstr]; rfl
  refine ⟨.node [tower Expr.f Expr.x (n + 1)], ?_, ⟨str ++ "(" ++ "" ++ ")", ?_⟩, ?_,
    ⟨str ++ "(" ++ "" ++ ")", ?_⟩, ?_, ?_, ?_⟩
  · intro hr
    cases hr with
    | down _ hc hr =>
      have hc' : _ ∈ [tower Expr.f Expr.x (n + 1)] := hc
      rw [List.mem_singleton] at hc'
      subst hc'
      exact hp hr
  · exact (evalForward_nullary evalRepr _ Dict.empty).trans hprint
  · exact Exceeds.push_le (Exceeds.push_le (exceeds_symEval c none hcall))
  · exact (evalForward_nullary evalLatex _ Dict.empty).trans hprint
  · exact exceeds_symEval c none hcall
  · exact evalForward_nullary (evalF64 A) _ Dict.empty
  · exact exceeds_symEval c none herr

end Recursion

/-- Integer arithmetic meets the conditions. -/
example : (∃ v, intOps.ofInt 0 = .ok v) ∧ (∀ v, ∃ w, intOps.sin v = .ok w) ∧ python310.comp ≤ 1 :=
  ⟨⟨0, rfl⟩, fun _ => ⟨0, rfl⟩, by decide⟩

end Verif.Props
