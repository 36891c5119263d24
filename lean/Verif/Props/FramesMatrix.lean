import Verif.Lemmas.FramesMatrix
import Verif.Props.Frames

/-!
# C70: matrices, `lambdify`, SymPy and the assignment of rules under the recursion limit
-/

namespace Verif.Props
open Spec Framed Samples

/-- **C70.** Matrices of any size with entries of any depth: `Matrix`, `M[i, j]`, `tolist`, `binop`, `+`,
`diff`. -/
theorem C70_matrix (c : FrameUse) :
    (∀ entries, Within (8 + 2 * overhead c) (framedMatNew c entries) (Mat.new entries)) ∧
    (∀ m ij, Within 1 (framedMatGetItem m ij) (m.getItem ij)) ∧
    (∀ m, Within (1 + overhead c) (framedMatTolist c m) m.tolist) ∧
    (∀ self other func, Within (8 + overhead c) (framedMatBinop c self other func)
      (self.binop other func)) ∧
    (∀ self other, Within (8 + overhead c) (framedMatAdd c self other) (self.add other)) ∧
    ∀ p m sym, Within (9 + overhead c) (framedMatDiff c p m sym) (m.diff sym p) := by
  unfold overhead
  refine ⟨fun entries => (within_matNew c entries).mono (by omega),
    fun m ij => Within.push' (within_here (k := 0) _) (by omega),
    fun m => (within_matTolist c m).mono (by omega),
    fun self other func => (within_matBinop c self other func).mono (by omega),
    fun self other => (within_matAdd c self other).mono (by omega),
    fun p m sym => (within_matDiff c p m sym).mono (by omega)⟩

/-- **C70.** `repr(M)` if the heads in the entries are at most `h` deep. -/
theorem C70_matrix_repr (c : FrameUse) (h : Nat) (m : Mat)
    (hm : ∀ rows, m.tolist = .ok rows → ∀ row ∈ rows, ∀ e ∈ row, HeadDepth h e) :
    Within (11 + overhead c + (c.slot + 1) * (h + 6)) (framedMatRepr c m) m.repr := by
  have h1 := within_matRepr c m hm
  unfold strBound linear at h1
  unfold overhead
  rw [Nat.mul_add]
  exact h1.mono (by omega)

/-- **C70.** `M.to_llvm_ir` and `lambdify`, with parameters and heads at most `h` deep. -/
theorem C70_compile (c : FrameUse) (printable : Char → Bool) (h : Nat) :
    (∀ symargs m, Proper m.elementsGraph → HeadDepth h m.elementsGraph → (∀ s ∈ symargs, depth s ≤ h) →
      Within (10 + overhead c + (c.slot + 1) * (h + 3)) (framedMatToLlvm c printable symargs m)
        (toLlvmMatrix symargs m)) ∧
    ∀ lib args x, Compilable h x → (∀ s, .expr s ∈ args → depth s ≤ h) →
      Within (11 + lib + overhead c + (c.slot + 1) * (h + 3)) (framedLambdify c printable lib args x)
        (lambdifyCode args x) := by
  unfold overhead
  rw [Nat.mul_add]
  refine ⟨fun symargs m hp hd hs => ?_, fun lib args x hx hs => ?_⟩
  · have h1 := within_matToLlvm c printable symargs m hp hd hs
    unfold reprBound linear at h1
    exact h1.mono (by omega)
  · have h1 := within_lambdify c printable lib args x hx hs
    unfold reprBound linear at h1
    exact h1.mono (by omega)

/-- **C70.** `to_sympy` of expressions and matrices of any depth, if no call of SymPy takes more than `lib`
frames. -/
theorem C70_to_sympy (c : FrameUse) (printable : Char → Bool) (lib h : Nat) (L : SymPyLib) :
    (∀ e, HeadDepth h e →
      Within (10 + lib + overhead c + (c.slot + 1) * (h + 3)) (framedToSympy c printable lib L e)
        (toSympy L e)) ∧
    ∀ m : Mat, HeadDepth h m.elementsGraph →
      Within (11 + lib + overhead c + (c.slot + 1) * (h + 3)) (framedMatToSympy c printable lib L m)
        (toSympyMatrix L m) := by
  unfold overhead
  rw [Nat.mul_add]
  refine ⟨fun e hd => ?_, fun m hd => ?_⟩
  · have h1 := within_toSympy c printable lib L e hd
    unfold reprBound linear at h1
    exact h1.mono (by omega)
  · have h1 := within_matToSympy c printable lib L m hd
    unfold reprBound linear at h1
    exact h1.mono (by omega)

theorem fromSympyMatrixLoop_elements (dok : List ((Nat × Nat) × SExpr)) : ∀ n s,
    (fromSympyMatrixLoop n dok s).2 = s.2 ++ dok.map Prod.snd := by
  induction dok with
  | nil => intro n s; simp [fromSympyMatrixLoop]
  | cons p dok ih =>
    intro n s
    obtain ⟨key, v⟩ := p
    obtain ⟨em, els⟩ := s
    rw [fromSympyMatrixLoop, ih]
    simp

/-- **C70.** `Matrix.from_sympy` of entries at most `d` deep. -/
theorem C70_from_sympy_matrix (c : FrameUse) (lib : Nat) (L : SymPyLib)
    (hL : ∀ ss t, L.tuple ss = .ok t → sympyDepth t ≤ 1 + sympyDepthList ss) (rows cols d : Nat)
    (dok : List ((Nat × Nat) × SExpr)) (hd : ∀ p ∈ dok, sympyDepth p.2 ≤ d) :
    Within ((2 + c.comp) * (1 + d) + 14 + lib + overhead c) (framedMatFromSympy c lib L rows cols dok)
      (fromSympyMatrix L rows cols dok) := by
  have h1 := within_matFromSympy c lib L rows cols (1 + d) dok (by
    intro t ht
    rw [fromSympyMatrixLoop_elements] at ht
    refine Nat.le_trans (hL _ t ht) (Nat.add_le_add_left ?_ 1)
    clear ht
    simp only [List.nil_append]
    induction dok with
    | nil => exact Nat.zero_le _
    | cons p dok ih =>
      exact Nat.max_le.2 ⟨hd p (by simp), ih (fun q hq => hd q (by simp [hq]))⟩)
  unfold sympyBound linear at h1
  unfold overhead
  exact h1.mono (by omega)

/-- **C70.** Assigning rules: `diff[pattern, sym] = expr`, `add_distributive_rule(head)`,
`evaluator[pattern] = call`. -/
theorem C70_rules (c : FrameUse) :
    (∀ p expr sym dexpr, Within (5 + overhead c) (framedSetDiffRule c p expr sym dexpr)
      (SymDifferentiator.setItem p expr sym dexpr)) ∧
    (∀ p head, Within 2 (framedAddDistributive p head) (.ok (p.addDistributive head))) ∧
    ∀ {T : Type} (ev : Evaluator PyM Val T) pattern call,
      Within (5 + overhead c) (framedAssign c ev pattern call) (afterwards (setItem pattern call) ev) := by
  unfold overhead
  exact ⟨fun p expr sym dexpr => (within_setDiffRule c p expr sym dexpr).mono (by omega),
    fun p head => within_addDistributive p head,
    fun ev pattern call => (within_assign c ev pattern call).mono (by omega)⟩

/-! ### Satisfiability -/

/-- `Matrix([[0, sin(sin(…x…))], [1, 0]])` with `n` sines. -/
def _root_.Verif.Samples.towerMatrix (n : Nat) : Mat :=
  Mat.mk' 2 2 [tower Expr.sinH Expr.x n, Expr.one] ((Dict.empty.set (0, 1) 0).set (1, 0) 1)

theorem headDepth_leaf {x : Expr} (hx : x.children = []) : HeadDepth 0 x := by
  intro hd args h
  have := argSub_of_leaf hx h
  rw [← this] at hx
  cases hx

theorem headDepth_towerMatrix (n : Nat) : HeadDepth 0 (towerMatrix n).elementsGraph := by
  intro hd args h
  cases h with
  | refl _ => exact Nat.le_refl 0
  | down _ hc hr =>
    have hc' : _ ∈ [tower Expr.sinH Expr.x n, Expr.one] := hc
    rw [List.mem_cons, List.mem_singleton] at hc'
    rcases hc' with rfl | rfl
    · exact headDepth_tower (by decide) rfl n hd args hr
    · exact headDepth_leaf rfl hd args hr

theorem proper_towerMatrix (n : Nat) : Proper (towerMatrix n).elementsGraph := by
  intro hr
  cases hr with
  | down _ hc hr =>
    have hc' : _ ∈ [Expr.listH, tower Expr.sinH Expr.x n, Expr.one] := hc
    rw [List.mem_cons, List.mem_cons, List.mem_singleton] at hc'
    rcases hc' with rfl | rfl | rfl
    · exact proper_atom _ hr
    · exact proper_tower (proper_atom _) (proper_atom _) n hr
    · exact proper_atom _ hr

/-- The hypotheses hold for matrices with entries of any depth, and the conclusions say that the results
do not depend on the limit: `Matrix([[0, sin(sin(…x…))], [1, 0]])`. -/
example (n : Nat) : HeadDepth 0 (towerMatrix n).elementsGraph ∧ Proper (towerMatrix n).elementsGraph ∧
    Compilable 0 (.matrix (towerMatrix n)) ∧ (∀ s, .expr s ∈ [PyObj.expr Expr.x] → depth s ≤ 0) ∧
    ∀ rows, (towerMatrix n).tolist = .ok rows → ∀ row ∈ rows, ∀ e ∈ row, HeadDepth 0 e := by
  refine ⟨headDepth_towerMatrix n, proper_towerMatrix n, ⟨proper_towerMatrix n, headDepth_towerMatrix n⟩,
    ?_, ?_⟩
  · intro s hs
    rw [List.mem_singleton] at hs
    cases hs
    decide
  · intro rows hr row hrow e he
    have h : (towerMatrix n).tolist =
      .ok [[Expr.zero, tower Expr.sinH Expr.x n], [Expr.one, Expr.zero]] := rfl
    rw [h] at hr
    cases hr
    simp only [List.mem_cons, List.not_mem_nil, or_false] at hrow
    rcases hrow with rfl | rfl <;> simp only [List.mem_cons, List.not_mem_nil, or_false] at he <;>
      rcases he with rfl | rfl
    · exact headDepth_leaf rfl
    · exact headDepth_tower (by decide) rfl n
    · exact headDepth_leaf rfl
    · exact headDepth_leaf rfl

/-- Differentiating a matrix in Python 3.10: 13 frames are enough whatever the entries, 5 are not enough for
this one. -/
example : Within 13 (framedMatDiff python310 builtinDiff (towerMatrix 2) (.expr Expr.x))
    ((towerMatrix 2).diff (.expr Expr.x)) ∧
    framedMatDiff python310 builtinDiff (towerMatrix 2) (.expr Expr.x) 5 = none ∧
    ((towerMatrix 2).diff (.expr Expr.x)).toOption.isSome := by
  refine ⟨(C70_matrix python310).2.2.2.2.2 builtinDiff _ _, ?_, ?_⟩
  · decide +kernel
  · decide +kernel

/-- SymPy whose constructors do not simplify meets the condition of `C70_from_sympy_matrix`:
`Matrix([[sin(0)]])`. -/
example : (∀ ss t, inertLib.tuple ss = .ok t → sympyDepth t ≤ 1 + sympyDepthList ss) ∧
    ∀ p ∈ [((0, 0), SExpr.app .sin [.int 0])], sympyDepth p.2 ≤ 1 := by
  refine ⟨fun ss t h => ?_, ?_⟩
  · cases h
    exact Nat.le_refl _
  · intro p hp
    rw [List.mem_singleton] at hp
    subst hp
    decide

/-- Rules that are assigned and a rule that is refused (`eval_f64[sin(a)] = f64_cos(b)`). -/
example : (SymDifferentiator.setItem builtinDiff (Expr.f.call [Expr.wild "a"]) (Expr.wild "a")
      (Expr.cos (Expr.wild "a"))).toOption.isSome ∧
    (afterwards (setItem (.sym (Expr.sin Expr.wa)) (some ⟨.op1 (arity1 intOps.sin), [Expr.wa]⟩))
      Evaluator.new).toOption.isSome ∧
    (afterwards (setItem (.sym (Expr.sin Expr.wa)) (some ⟨.op1 (arity1 intOps.sin), [Expr.wb]⟩))
      Evaluator.new).toOption.isNone := by
  refine ⟨?_, rfl, rfl⟩
  decide +kernel

end Verif.Props
