import Verif.Lemmas.Rules
import Verif.Lemmas.Dict

/-!
# Evaluation with `eval_f64`, in any arithmetic
-/

set_option linter.unusedSectionVars false

namespace Verif
open Expr Spec

variable {F : Type} [HasNone F]

/-- What the heads known to `eval_f64` do. -/
def f64Op (A : FloatOps F) (h : Expr) (vs : List F) : PyM F :=
  if h = addH then A.fsum vs
  else if h = mulH then A.prod vs
  else if h = powH then arity2 A.pow vs
  else if h = sinH then arity1 A.sin vs
  else if h = cosH then arity1 A.cos vs
  else .error .noEvaluationRule

theorem f64_op (A : FloatOps F) (env : Expr → Option F) :
    (meaning (evalF64 A) env).op = f64Op A := by
  funext h vs
  simp only [meaning, evalF64_eq, Dict.get?, Dict.lookup, f64Op]
  simp only [eq_comm (a := h)]
  by_cases h1 : addH = h
  · simp only [h1, if_true]
  by_cases h2 : mulH = h
  · simp only [h1, h2, if_true, if_false]
  by_cases h3 : powH = h
  · simp only [h1, h2, h3, if_true, if_false]
  by_cases h4 : sinH = h
  · simp only [h1, h2, h3, h4, if_true, if_false]
  by_cases h5 : cosH = h
  · simp only [h1, h2, h3, h4, h5, if_true, if_false]
  simp only [h1, h2, h3, h4, h5, if_false]

theorem f64_integer (A : FloatOps F) (env : Expr → Option F) (n : Int)
    (h : env (integer n) = none) : evalTree (meaning (evalF64 A) env) (integer n) = A.ofInt n := by
  show (meaning (evalF64 A) env).leaf (integer n) = _
  simp only [meaning, h]
  rfl

theorem f64_node (A : FloatOps F) (env : Expr → Option F) (h : Expr) (args : List Expr) :
    evalTree (meaning (evalF64 A) env) (.node (h :: args)) =
      (args.mapM (evalTree (meaning (evalF64 A) env))) >>= f64Op A h := by
  rw [evalTree_node _ rfl, f64_op]
  rfl

theorem f64_node_ok {A : FloatOps F} {env : Expr → Option F} {h : Expr} {args : List Expr} {v : F}
    (hv : evalTree (meaning (evalF64 A) env) (.node (h :: args)) = .ok v) :
    ∃ vs, args.mapM (evalTree (meaning (evalF64 A) env)) = .ok vs ∧ f64Op A h vs = .ok v := by
  rw [f64_node] at hv
  cases hm : args.mapM (evalTree (meaning (evalF64 A) env)) with
  | error err => rw [hm] at hv; cases hv
  | ok vs => rw [hm] at hv; exact ⟨vs, rfl, hv⟩

theorem Dict.get?_ofPairs_items {K W : Type} [DecidableEq K] (d : Dict K W) (h : d.keys.Nodup)
    (k : K) : (Dict.ofPairs d.items).get? k = d.get? k := by
  rw [Dict.get?_ofPairs]
  obtain ⟨l⟩ := d
  simp only [Dict.keys, Dict.get?] at *
  induction l with
  | nil => rfl
  | cons p l ih =>
    obtain ⟨k', w⟩ := p
    simp only [List.map_cons, List.nodup_cons] at h
    simp only [lastAssoc, Dict.lookup, ih h.2]
    by_cases hk : k' = k
    · subst hk
      have : Dict.lookup k' l = none := by
        rw [← ih h.2, lastAssoc_eq_none_iff]
        exact h.1
      rw [this]
    · simp only [hk, if_false]
      cases Dict.lookup k l <;> rfl

theorem Dict.keys_set_nodup {K W : Type} [DecidableEq K] (d : Dict K W) (h : d.keys.Nodup) (k : K)
    (w : W) : (d.set k w).keys.Nodup := by
  obtain ⟨l⟩ := d
  simp only [Dict.keys, Dict.set] at *
  have hmem : ∀ l : List (K × W), ∀ k', k' ∈ (Dict.assign k w l).map Prod.fst →
      k' ∈ l.map Prod.fst ∨ k' = k := by
    intro l
    induction l with
    | nil => intro k' h; simp [Dict.assign] at h; exact Or.inr h
    | cons p l ih =>
      obtain ⟨k1, w1⟩ := p
      intro k' h
      unfold Dict.assign at h
      split at h
      · simp only [List.map_cons, List.mem_cons] at *
        exact Or.inl h
      · simp only [List.map_cons, List.mem_cons] at *
        rcases h with h | h
        · exact Or.inl (Or.inl h)
        · rcases ih k' h with h | h
          · exact Or.inl (Or.inr h)
          · exact Or.inr h
  induction l with
  | nil => simp [Dict.assign]
  | cons p l ih =>
    obtain ⟨k1, w1⟩ := p
    simp only [List.map_cons, List.nodup_cons] at h
    unfold Dict.assign
    split
    · simp only [List.map_cons, List.nodup_cons]; exact h
    · rename_i hne
      simp only [List.map_cons, List.nodup_cons]
      refine ⟨fun hm => ?_, ih h.2⟩
      rcases hmem l k1 hm with h' | h'
      · exact h.1 h'
      · exact hne h'

/-- `e.eval_f64(values)` for a dict `values`. -/
theorem evalF64_ok_iff (A : FloatOps F) (e : Expr) (values : Dict Expr F) (hd : values.keys.Nodup)
    (v : F) : e.evalF64 A (some values) = .ok v ↔
      evalTree (meaning (evalF64 A) values.get?) e = .ok v := by
  show (evalF64 A).evalForward e (Dict.ofPairs values.items) = .ok v ↔ _
  rw [evalForward_ok_iff]
  have : (Dict.ofPairs values.items).get? = values.get? := by
    funext k; exact Dict.get?_ofPairs_items values hd k
  rw [this]

end Verif
