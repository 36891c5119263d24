import Verif.Spec.Operators

/-!
# C40 operators and C41 `expressify` (structure; the values are in `Props/RealValues.lean`)
-/

namespace Verif.Props
open Spec

/-- **C40, structure.** For every operator and every pair of operands of which at least one
is an expression (otherwise protosym is not involved): if both stand for expressions the
result is exactly the documented one, in the written order whichever side the `Expr` is on;
if one is any other object, Python raises `TypeError`.  `+a` is `a`, `-a` is `Mul(-1, a)`. -/
theorem C40_operators (op : BinOp) (a b : PyObj) (hab : IsExpr a ∨ IsExpr b) :
    (∀ ea eb, operand a = some ea → operand b = some eb →
      pyBinOp op a b = .ok (documented op ea eb)) ∧
    (operand a = none ∨ operand b = none → pyBinOp op a b = .error .typeError) ∧
    (∀ e, pyPos e = e ∧ pyNeg e = app "Mul" [minusOne, e]) := by
  refine ⟨?_, ?_, fun e => ⟨rfl, rfl⟩⟩
  · intro ea eb ha hb
    cases a <;> cases b <;> simp only [operand, Option.some.injEq, reduceCtorEq] at ha hb <;>
      subst ha <;> subst hb <;>
      first
        | (cases op <;> rfl)
        | (rcases hab with ⟨_, h⟩ | ⟨_, h⟩ <;> cases h)
  · intro h
    cases a <;> cases b <;> simp only [operand, reduceCtorEq, or_self, or_true, true_or] at h <;>
      first
        | rfl
        | (rcases hab with ⟨_, h⟩ | ⟨_, h⟩ <;> cases h)

/-- `1 - x`, `x - 1`, `x + "s"`. -/
example : pyBinOp .sub (.int 1) (.expr Expr.x) =
      .ok (app "Add" [.atom ⟨Ty.integer, .int 1⟩, app "Mul" [minusOne, Expr.x]]) ∧
    pyBinOp .pow (.expr Expr.x) (.int 2) = .ok (app "pow" [Expr.x, .atom ⟨Ty.integer, .int 2⟩]) ∧
    pyBinOp .add (.expr Expr.x) (.other 0) = .error .typeError := by decide

/-- **C40, inert.** Nothing is simplified or reordered: the same operator gives the same
expression only for the same operands, and a negation determines its operand. -/
theorem C40_operators_injective (op : BinOp) (a b a' b' : PyObj) (ha : IsExpr a ∨ IsExpr b)
    (ha' : IsExpr a' ∨ IsExpr b') (r : Expr) (h : pyBinOp op a b = .ok r)
    (h' : pyBinOp op a' b' = .ok r) : operand a = operand a' ∧ operand b = operand b' := by
  have get : ∀ a b : PyObj, IsExpr a ∨ IsExpr b → pyBinOp op a b = .ok r →
      ∃ ea eb, operand a = some ea ∧ operand b = some eb ∧ documented op ea eb = r := by
    intro a b hab h
    obtain ⟨h1, h2, _⟩ := C40_operators op a b hab
    cases hoa : operand a with
    | none => rw [h2 (Or.inl hoa)] at h; cases h
    | some ea =>
      cases hob : operand b with
      | none => rw [h2 (Or.inr hob)] at h; cases h
      | some eb =>
        rw [h1 ea eb hoa hob] at h
        cases h
        exact ⟨ea, eb, rfl, rfl, rfl⟩
  obtain ⟨ea, eb, h1, h2, h3⟩ := get a b ha h
  obtain ⟨ea', eb', h1', h2', h3'⟩ := get a' b' ha' h'
  rw [h1, h2, h1', h2']
  rw [← h3'] at h3
  cases op <;>
    simp only [documented, app, Tree.node.injEq, List.cons.injEq, true_and, and_true] at h3 <;>
    exact ⟨congrArg some h3.1, congrArg some h3.2⟩

/-- Different operators can meet: `a - b` is by design `a + (-1)*b`. -/
example : pyBinOp .sub (.expr Expr.x) (.expr Expr.y) =
    pyBinOp .add (.expr Expr.x) (.expr (pyNeg Expr.y)) := by decide

/-- **C41.** `expressify` returns expressions as they are, maps integers injectively to
`Integer` atoms, raises `ExpressifyError` for everything else, and is idempotent. -/
theorem C41_expressify :
    (∀ e, expressify (.expr e) = .ok e) ∧
    (∀ n, expressify (.int n) = .ok (.atom ⟨Ty.integer, .int n⟩)) ∧
    (∀ m n, expressify (.int m) = expressify (.int n) → m = n) ∧
    (∀ k, expressify (.other k) = .error .expressify) ∧
    (∀ v e, expressify v = .ok e → expressify (.expr e) = .ok e ∧ operand v = some e) := by
  refine ⟨fun _ => rfl, fun _ => rfl, ?_, fun _ => rfl, ?_⟩
  · intro m n h
    simpa [expressify, Expr.integer] using h
  · intro v e h
    refine ⟨rfl, ?_⟩
    cases v <;> cases h <;> rfl

/-- **C41, calling an expression.** `f(v₁, …, vₙ)` is the expression with head `f` and the
converted arguments in order, and raises `ExpressifyError` if some argument is neither an
expression nor an int. -/
theorem C41_call (f : Expr) (vs : List PyObj) :
    (∀ es, vs.map operand = es.map some → f.pyCall vs = .ok (.node (f :: es))) ∧
    (none ∈ vs.map operand → f.pyCall vs = .error .expressify) := by
  have h1 : ∀ es, vs.map operand = es.map some → vs.mapM expressify = .ok es := by
    induction vs with
    | nil => intro es h; cases es with
      | nil => rfl
      | cons e es => cases h
    | cons v vs ih =>
      intro es h
      cases es with
      | nil => cases h
      | cons e es =>
        simp only [List.map_cons, List.cons.injEq] at h
        rw [List.mapM_cons, ih es h.2]
        cases v <;> cases h.1 <;> rfl
  have h2 : none ∈ vs.map operand → vs.mapM expressify = .error .expressify := by
    intro h
    induction vs with
    | nil => cases h
    | cons v vs ih =>
      rw [List.mapM_cons]
      cases v with
      | other k => rfl
      | expr e =>
        rw [ih (by intro es h'; exact absurd h (by
          intro hn
          rw [List.map_cons, List.mem_cons] at hn
          rcases hn with hn | hn
          · cases hn
          · rw [h'] at hn; simp at hn)) (by simpa [operand] using h)]
        rfl
      | int n =>
        rw [ih (by intro es h'; exact absurd h (by
          intro hn
          rw [List.map_cons, List.mem_cons] at hn
          rcases hn with hn | hn
          · cases hn
          · rw [h'] at hn; simp at hn)) (by simpa [operand] using h)]
        rfl
  constructor
  · intro es h
    simp only [Expr.pyCall, h1 es h]; rfl
  · intro h
    simp only [Expr.pyCall, h2 h]; rfl

example : Expr.sinH.pyCall [.int 2] = .ok (app "sin" [.atom ⟨Ty.integer, .int 2⟩]) ∧
    Expr.sinH.pyCall [.int 2, .other 1] = .error .expressify := by decide

end Verif.Props
