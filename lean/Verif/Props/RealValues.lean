import Verif.Spec.RealOperators
import Verif.Spec.Operators
import Verif.Props.Operators
import Verif.Props.Arith
import Verif.Props.RealDiff

/-!
# C40 and C20: values in exact arithmetic
-/

namespace Verif.Props
open Spec Expr

theorem pair_value {F : Type} [HasNone F] {A : FloatOps F} {env : Expr → Option F} {h a b : Expr}
    {va vb v : F}
    (ha : evalTree (meaning (evalF64 A) env) a = .ok va)
    (hb : evalTree (meaning (evalF64 A) env) b = .ok vb) :
    evalTree (meaning (evalF64 A) env) (.node [h, a, b]) = .ok v ↔ f64Op A h [va, vb] = .ok v := by
  rw [f64_node]
  have : [a, b].mapM (evalTree (meaning (evalF64 A) env)) = .ok [va, vb] := by
    rw [List.mapM_cons, ha, List.mapM_cons, hb]; rfl
  rw [this]; rfl

theorem evalF64_integer {values : Dict Expr ℝ} (hv : SymbolValues values) (n : Int) :
    (integer n).evalF64 realOps (some values) = .ok (n : ℝ) := by
  rw [evalF64_ok_iff _ _ _ hv.unique, f64_integer _ _ _ (hv.noInteger n)]
  rfl

/-- **C40, value.** If the operands have the values `va` and `vb`, then `a <op> b` has the
value of the corresponding operation on real numbers, and has no value exactly where that
operation is undefined (division by zero, undefined powers); likewise `+a` and `-a`. -/
theorem C40_operator_values (values : Dict Expr ℝ) (hv : SymbolValues values) (op : BinOp)
    (a b : PyObj) (hab : IsExpr a ∨ IsExpr b) (ea eb r : Expr) (va vb : ℝ)
    (ha : operand a = some ea) (hb : operand b = some eb)
    (hva : ea.evalF64 realOps (some values) = .ok va)
    (hvb : eb.evalF64 realOps (some values) = .ok vb)
    (hr : pyBinOp op a b = .ok r) :
    (∀ v, r.evalF64 realOps (some values) = .ok v ↔ realOp op va vb = .ok v) ∧
    (pyPos ea).evalF64 realOps (some values) = .ok va ∧
    (pyNeg ea).evalF64 realOps (some values) = .ok (-va) := by
  rw [(C40_operators op a b hab).1 ea eb ha hb] at hr
  cases hr
  have hneg : evalTree (meaning (evalF64 realOps) values.get?) (integer (-1)) = .ok (-1 : ℝ) := by
    have := (evalF64_ok_iff _ _ _ hv.unique _).1 (evalF64_integer hv (-1))
    simpa using this
  have hnegmul : ∀ (e : Expr) (w : ℝ),
      evalTree (meaning (evalF64 realOps) values.get?) e = .ok w →
      evalTree (meaning (evalF64 realOps) values.get?) (.node [mulH, integer (-1), e]) =
        .ok (-w) := by
    intro e w he
    rw [pair_value hneg he]
    show Except.ok _ = Except.ok _
    simp
  refine ⟨fun v => ?_, hva, ?_⟩
  · rw [evalF64_ok_iff _ _ _ hv.unique] at hva hvb ⊢
    cases op with
    | add =>
      show evalTree _ (.node [addH, ea, eb]) = _ ↔ _
      rw [pair_value hva hvb]
      show Except.ok _ = Except.ok _ ↔ Except.ok _ = Except.ok _
      simp
    | sub =>
      show evalTree _ (.node [addH, ea, .node [mulH, integer (-1), eb]]) = _ ↔ _
      rw [pair_value hva (hnegmul eb vb hvb)]
      show Except.ok _ = Except.ok _ ↔ Except.ok _ = Except.ok _
      simp [sub_eq_add_neg]
    | mul =>
      show evalTree _ (.node [mulH, ea, eb]) = _ ↔ _
      rw [pair_value hva hvb]
      show Except.ok _ = Except.ok _ ↔ Except.ok _ = Except.ok _
      simp
    | truediv =>
      show evalTree _ (.node [mulH, ea, .node [powH, eb, integer (-1)]]) = _ ↔ _
      have hpow : ∀ w, evalTree (meaning (evalF64 realOps) values.get?)
          (.node [powH, eb, integer (-1)]) = .ok w ↔ (vb ≠ 0 ∧ w = vb⁻¹) := by
        intro w
        rw [pair_value hvb hneg]
        show realOps.pow vb (-1) = .ok w ↔ _
        simp only [realOps]
        by_cases h0 : vb = 0
        · rw [if_neg (fun h => by have := h.1 h0; norm_num at this)]
          simp [h0]
        · rw [if_pos ⟨fun h => absurd h h0, fun _ => ⟨-1, by norm_num⟩⟩, Real.rpow_neg_one]
          simp [h0, eq_comm]
      by_cases h0 : vb = 0
      · simp only [realOp, h0, if_true, reduceCtorEq, iff_false]
        intro h
        obtain ⟨vs, h1, _⟩ := f64_node_ok h
        obtain ⟨w, hw⟩ := mapM_ok_mem _ _ _ h1 (.node [powH, eb, integer (-1)]) (by simp)
        exact ((hpow w).1 hw).1 h0
      · rw [pair_value hva ((hpow vb⁻¹).2 ⟨h0, rfl⟩)]
        simp only [realOp, if_neg h0]
        show Except.ok _ = Except.ok _ ↔ Except.ok _ = Except.ok _
        simp [div_eq_mul_inv]
    | pow =>
      show evalTree _ (.node [powH, ea, eb]) = _ ↔ _
      rw [pair_value hva hvb]
      rfl
  · rw [evalF64_ok_iff _ _ _ hv.unique] at hva ⊢
    exact hnegmul ea va hva

/-- `x / 2` at `x = 5`, and `1 / x` at `x = 0` has no value. -/
example :
    let values : Dict Expr ℝ := ⟨[(x, 5)]⟩
    SymbolValues values ∧ operand (.expr x) = some x ∧ operand (.int 2) = some (integer 2) ∧
    x.evalF64 realOps (some values) = .ok 5 ∧
    (integer 2).evalF64 realOps (some values) = .ok ((2 : ℤ) : ℝ) ∧
    (∃ r, pyBinOp .truediv (.expr x) (.int 2) = .ok r) ∧
    realOp .truediv 1 0 = .error .valueError := by
  have hs : SymbolValues (⟨[(x, 5)]⟩ : Dict Expr ℝ) := ⟨by simp [Dict.keys], fun n => rfl⟩
  refine ⟨hs, rfl, rfl, ?_, evalF64_integer hs 2, ⟨_, rfl⟩, ?_⟩
  · rw [evalF64_ok_iff _ _ _ hs.unique]; rfl
  · simp [realOp]

/-- **C20, value with `eval_f64`.** In every arithmetic whose `fsum` and `prod` are iterated
binary operations, `e.bin_expand()` evaluates to what `e` evaluates to. -/
theorem C20_bin_expand_eval_f64 {F : Type} [HasNone F] (A : FloatOps F) (hs : LeftAssoc A.fsum)
    (hp : LeftAssoc A.prod) (values : Dict Expr F) (hd : values.keys.Nodup) (e u : Expr)
    (h : binExpand e = .ok u) (v : F) (hv : e.evalF64 A (some values) = .ok v) :
    u.evalF64 A (some values) = .ok v := by
  rw [evalF64_ok_iff _ _ _ hd, ← evaluates_iff] at *
  refine C20_bin_expand_value _ ?_ ?_ e u h v hv
  · rw [f64_op]; exact hs
  · rw [f64_op]; exact hp

/-- Exact real arithmetic is such an arithmetic. -/
theorem C20_real_arithmetic : LeftAssoc realOps.fsum ∧ LeftAssoc realOps.prod := by
  refine ⟨⟨fun v => ?_, fun v vs w => ?_⟩, ⟨fun v => ?_, fun v vs w => ?_⟩⟩
  all_goals show Except.ok _ = Except.ok _
  · simp
  · simp [add_assoc]
  · simp
  · simp [mul_assoc]

end Verif.Props
