import Verif.Props.Lambdify
import Verif.Props.LLVMMatrix

/-!
# C38 for matrices: `lambdify(args, M)` against `eval_f64` of the elements
-/

set_option linter.unusedSectionVars false
set_option exponentiation.threshold 2000

namespace Verif.Props
open Spec Expr

variable {F : Type} [HasNone F]

theorem lambdifyCode_matrix (symargs : List Expr) (m : Mat) :
    lambdifyCode (symargs.map .expr) (.matrix m) = toLlvmMatrix symargs m := by
  have : (symargs.map PyObj.expr).mapM PyObj.rep = .ok symargs := by
    induction symargs with
    | nil => rfl
    | cons a l ih => rw [List.map_cons, List.mapM_cons, ih]; rfl
  unfold lambdifyCode
  rw [this]
  rfl

theorem zero_supported (symargs : List Expr) : Supported symargs zero := by
  have hsub : ∀ t, ArgSub zero t → t = zero := by
    intro t ht
    rw [← reach_topo] at ht
    revert t
    decide +kernel
  constructor
  · intro t ht _
    exact Or.inr ⟨0, hsub t ht, by norm_num⟩
  · intro h args ht
    cases hsub _ ht

/-- **C38 for matrices, partial.**  `lambdify(args, M)(*vals)` fills its array with what
`M[i, j].eval_f64(dict(zip(args, vals)))` returns, if that returns for all elements: for every
matrix of supported elements, all values, and every arithmetic in which the float primitives agree
with the machine's instructions, where `math.fsum` need agree with repeated `fadd` only for the
numbers of terms that occur.

Missing from the full claim: the same as in `C38_lambdify_partial`. -/
theorem C38_matrix_partial (symargs : List Expr) (m : Mat) (hm : MatHistory m)
    (hg : GoodParams symargs ["_out"]) (hs : MatSupported symargs m) (hz : zero ∉ symargs)
    (hsize : m.nrows * m.ncols ≤ 2 ^ 31)
    (sums : Nat → Prop) (B : FloatOps F) (A : IRArith F) (hAB : SameArithmetic sums B A)
    (vs : List F) (hlen : symargs.length = vs.length)
    (hnone : ∀ v ∈ vs, HasNone.isNone v = false) (v : Nat → Nat → F)
    (hv : ∀ i j : Nat, i < m.nrows → j < m.ncols → ∃ e, m.getItem (.pair i j) = .ok e ∧
      (∀ args, ArgSub e (.node (addH :: args)) → sums args.length) ∧
      e.evalF64 B (some (Dict.ofPairs (symargs.zip vs))) = .ok (v i j)) :
    ∃ fn mem', lambdifyCode (symargs.map .expr) (.matrix m) = .ok fn ∧ SSA fn ∧
      IRFunction.run A fn vs (List.replicate (m.nrows * m.ncols) (A.const 0)) =
        some (none, mem') ∧
      mem'.length = m.nrows * m.ncols ∧
      ∀ i j : Nat, i < m.nrows → j < m.ncols → mem'[i * m.ncols + j]? = some (v i j) := by
  obtain ⟨fn, hfn, hssa⟩ := C36_generated symargs m hm hg hs
  obtain ⟨mem', h1, h2, h3⟩ := C36_call symargs m hm fn hs hfn hssa hsize hz A vs hlen
  refine ⟨fn, mem', by rw [lambdifyCode_matrix]; exact hfn, hssa, h1, h2, ?_⟩
  intro i j hi hj
  obtain ⟨e, w, he, hw, hmem⟩ := h3 i j hi hj
  obtain ⟨e', he', hsum, hev⟩ := hv i j hi hj
  rw [he] at he'
  obtain rfl := Except.ok.inj he'
  have hse : Supported symargs e := by
    by_cases hst : Stores m i j
    · exact hs i j e hst he
    · have hwf := history_wf hm
      have he0 : e = zero := by
        rw [hwf.getItem i j hi hj] at he
        have hnone : m.entry i j = none := by
          cases hme : m.entry i j with
          | none => rfl
          | some w => exact absurd ((hwf.stores_iff i j).2 (by rw [hme]; rfl)) hst
        rw [hnone] at he
        exact (Except.ok.inj he).symm
      rw [he0]; exact zero_supported symargs
  rw [evalF64_ok_iff B e _ (keys_ofPairs_nodup _)] at hev
  have hget : (Dict.ofPairs (symargs.zip vs)).get? = fun t => lastAssoc t (symargs.zip vs) := by
    funext t; exact Dict.get?_ofPairs _ _
  rw [hget] at hev
  have h4 := eval_transfer hAB hnone e hse hsum hlen _ hev
  have h5 := evaluates_iff.1 hw
  rw [h4] at h5
  rw [Except.ok.inj h5]
  exact hmem

/-- **C38 for matrices up to rounding.**  Without rounding of the operations the array is filled
with the values `eval_f64` returns for the elements, for every matrix of supported elements and all
values for which it returns. -/
theorem C38_matrix_exact_partial (symargs : List Expr) (m : Mat) (hm : MatHistory m)
    (hg : GoodParams symargs ["_out"]) (hs : MatSupported symargs m) (hz : zero ∉ symargs)
    (hsize : m.nrows * m.ncols ≤ 2 ^ 31) (vs : List ℝ) (hlen : symargs.length = vs.length)
    (v : Nat → Nat → ℝ)
    (hv : ∀ i j : Nat, i < m.nrows → j < m.ncols → ∃ e, m.getItem (.pair i j) = .ok e ∧
      e.evalF64 exactFloats (some (Dict.ofPairs (symargs.zip vs))) = .ok (v i j)) :
    ∃ fn mem', lambdifyCode (symargs.map .expr) (.matrix m) = .ok fn ∧ SSA fn ∧
      IRFunction.run exactMachine fn vs (List.replicate (m.nrows * m.ncols) 0) =
        some (none, mem') ∧
      mem'.length = m.nrows * m.ncols ∧
      ∀ i j : Nat, i < m.nrows → j < m.ncols → mem'[i * m.ncols + j]? = some (v i j) := by
  have h0 : exactMachine.const 0 = 0 := by
    have : doubleValue 0 = some 0 := by decide +kernel
    simp only [exactMachine, this, Option.getD_some]
    norm_num
  have hwf := history_wf hm
  have hmain := C38_matrix_partial symargs m hm hg hs hz hsize (1 ≤ ·) exactFloats exactMachine
    exact_same vs hlen (fun _ _ => rfl) v (fun i j hi hj => by
      obtain ⟨e, he, hev⟩ := hv i j hi hj
      refine ⟨e, he, ?_, hev⟩
      intro args ht
      by_cases hst : Stores m i j
      · rcases (hs i j e hst he).heads addH args ht with ⟨_, h⟩ | ⟨h, _⟩ | ⟨h | h, _⟩
        · exact h
        · exact absurd h.symm heads_distinct.2.1
        · exact absurd h.symm heads_distinct.2.2.2.1
        · exact absurd h.symm heads_distinct.2.2.2.2.2.2.1
      · exfalso
        have he0 : e = zero := by
          rw [hwf.getItem i j hi hj] at he
          have hnone : m.entry i j = none := by
            cases hme : m.entry i j with
            | none => rfl
            | some w => exact absurd ((hwf.stores_iff i j).2 (by rw [hme]; rfl)) hst
          rw [hnone] at he
          exact (Except.ok.inj he).symm
        subst he0
        rcases (zero_supported symargs).heads addH args ht with ⟨_, h⟩ | ⟨h, _⟩ | ⟨h | h, _⟩
        · rw [← reach_topo] at ht
          have : (topologicalSort false [] zero) = [zero] := by decide +kernel
          rw [this] at ht
          simp at ht
          cases ht
        · exact absurd h.symm heads_distinct.2.1
        · exact absurd h.symm heads_distinct.2.2.2.1
        · exact absurd h.symm heads_distinct.2.2.2.2.2.2.1)
  rw [h0] at hmain
  exact hmain

/-- The hypotheses hold of `Matrix([[x, 0], [2, x*y + 1]])` at `x = 3`, `y = 5`: the array becomes
`[3, 0, 2, 16]`. -/
example : MatHistory sampleMat ∧ GoodParams [x, y] ["_out"] ∧ MatSupported [x, y] sampleMat ∧
    zero ∉ [x, y] ∧ sampleMat.nrows * sampleMat.ncols ≤ 2 ^ 31 ∧
    ∀ i j : Nat, i < sampleMat.nrows → j < sampleMat.ncols →
      ∃ e, sampleMat.getItem (.pair i j) = .ok e ∧
      e.evalF64 exactFloats (some (Dict.ofPairs ([x, y].zip [3, 5]))) =
        .ok (if i = 0 then (if j = 0 then 3 else 0) else if j = 0 then 2 else 16) := by
  obtain ⟨h1, h2, h3, h4, h5, _⟩ := sampleMat_compiles
  refine ⟨h1, h3, h2, h4, h5, ?_⟩
  have hint : ∀ (n : Int) (b : Nat) (q : ℚ), doubleBits n = some b → doubleValue b = some q →
      exactFloats.ofInt n = .ok (q : ℝ) := by
    intro n b q hb hd
    simp only [exactFloats, hb, hd, Option.getD_some]
  have i0 := hint 0 0 0 (by decide +kernel) (by decide +kernel)
  have i1 := hint 1 0x3ff0000000000000 1 (by decide +kernel) (by decide +kernel)
  have i2 := hint 2 0x4000000000000000 2 (by decide +kernel) (by decide +kernel)
  intro i j hi hj
  have hi' : i < 2 := hi
  have hj' : j < 2 := hj
  have e0 : ∀ n, evalTree (meaning (evalF64 exactFloats)
      (Dict.ofPairs ([x, y].zip [(3 : ℝ), 5])).get?) (integer n) = exactFloats.ofInt n :=
    fun n => f64_integer _ _ _ rfl
  interval_cases i <;> interval_cases j
  · refine ⟨x, by decide +kernel, ?_⟩
    rw [evalF64_ok_iff _ _ _ (keys_ofPairs_nodup _)]; rfl
  · refine ⟨integer 0, by decide +kernel, ?_⟩
    rw [evalF64_ok_iff _ _ _ (keys_ofPairs_nodup _), e0, i0]; simp
  · refine ⟨integer 2, by decide +kernel, ?_⟩
    rw [evalF64_ok_iff _ _ _ (keys_ofPairs_nodup _), e0, i2]; simp
  · refine ⟨add (mul x y) (integer 1), by decide +kernel, ?_⟩
    rw [evalF64_ok_iff _ _ _ (keys_ofPairs_nodup _)]
    have hx : evalTree (meaning (evalF64 exactFloats)
        (Dict.ofPairs ([x, y].zip [(3 : ℝ), 5])).get?) x = .ok 3 := rfl
    have hy : evalTree (meaning (evalF64 exactFloats)
        (Dict.ofPairs ([x, y].zip [(3 : ℝ), 5])).get?) y = .ok 5 := rfl
    have hm : evalTree (meaning (evalF64 exactFloats)
        (Dict.ofPairs ([x, y].zip [(3 : ℝ), 5])).get?) (mul x y) = .ok 15 := by
      show evalTree _ (.node (mulH :: [x, y])) = _
      rw [f64_node]
      simp only [List.mapM_cons, List.mapM_nil, hx, hy]
      show (Except.ok ([3, 5] : List ℝ).prod : PyM ℝ) = _
      norm_num
    show evalTree _ (.node (addH :: [mul x y, integer 1])) = _
    rw [f64_node]
    simp only [List.mapM_cons, List.mapM_nil, hm, e0, i1]
    show (Except.ok ([15, ((1 : ℚ) : ℝ)] : List ℝ).sum : PyM ℝ) = _
    norm_num

/-- **`lambdify` of an expression and of its `bin_expand()` compile the same code.** -/
theorem C35_bin_expand_same (symargs : List Expr) (e u : Expr) (hu : binExpand e = .ok u) :
    lambdifyCode (symargs.map .expr) (.expr u) = lambdifyCode (symargs.map .expr) (.expr e) := by
  rw [lambdifyCode_expr, lambdifyCode_expr]
  unfold toLlvm
  rw [hu, (C20_bin_expand_idempotent e u hu).1]

/-- `x + y + 2` in one sum and as nested sums. -/
example : binExpand (addH.call [x, y, integer 2]) = .ok (add (add x y) (integer 2)) ∧
    add (add x y) (integer 2) ≠ addH.call [x, y, integer 2] := by
  exact ⟨by decide +kernel, by decide⟩

end Verif.Props
