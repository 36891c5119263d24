import Verif.Props.LLVMErrors
import Verif.Lemmas.F64
import Verif.Spec.Real
import Verif.Spec.LLVMReal

/-!
# C38: `lambdify` against `eval_f64`
-/

set_option linter.unusedSectionVars false
set_option linter.unusedSimpArgs false
set_option exponentiation.threshold 2000

namespace Verif.Props
open Spec Expr

theorem keys_update_nodup {K W : Type} [DecidableEq K] (ps : List (K × W)) :
    ∀ d : Dict K W, d.keys.Nodup → (d.update ps).keys.Nodup := by
  induction ps with
  | nil => intro d h; exact h
  | cons p ps ih => intro d h; exact ih _ (Dict.keys_set_nodup d h p.1 p.2)

theorem keys_ofPairs_nodup {K W : Type} [DecidableEq K] (ps : List (K × W)) :
    (Dict.ofPairs ps).keys.Nodup := keys_update_nodup ps _ (by simp [Dict.keys, Dict.empty])

variable {F : Type} [HasNone F]

/-- A value found by `eval_f64` is the value of the machine's arithmetic. -/
theorem eval_transfer {sums : Nat → Prop} {B : FloatOps F} {A : IRArith F}
    (hAB : SameArithmetic sums B A) {symargs : List Expr} {vs : List F}
    (hnone : ∀ v ∈ vs, HasNone.isNone v = false) (e : Expr) :
    Supported symargs e → (∀ args, ArgSub e (.node (addH :: args)) → sums args.length) →
    symargs.length = vs.length →
    ∀ v, evalTree (meaning (evalF64 B) (fun t => lastAssoc t (symargs.zip vs))) e = .ok v →
      evalTree (irMeaning A symargs vs) e = .ok v := by
  induction e using Tree.induction with
  | _ e ih =>
  intro hs hsum hlen v hv
  by_cases hne : e.children = []
  · have hat := hs.atoms e (Reach.refl (by simp)) hne
    have hleaf : ∀ M : Meaning Val F, evalTree M e = M.leaf e := by
      intro M
      cases e with
      | atom a => rfl
      | node cs =>
        cases cs with
        | nil => rfl
        | cons c cs => cases hne
    rw [hleaf] at hv ⊢
    simp only [meaning, irMeaning] at hv ⊢
    cases hl : lastAssoc e (symargs.zip vs) with
    | some w =>
      rw [hl] at hv
      have hw : w ∈ vs := (List.of_mem_zip (lastAssoc_mem hl)).2
      simp only [hnone w hw, Bool.false_eq_true, if_false] at hv
      exact hv
    | none =>
      rw [hl] at hv
      simp only at hv ⊢
      rcases hat with hm | ⟨n, rfl, hn⟩
      · exfalso
        rw [lastAssoc_eq_none_iff] at hl
        apply hl
        rw [List.map_fst_zip (by omega)]
        exact hm
      · obtain ⟨b, hb⟩ := doubleBits_some n hn
        have : B.ofInt n = .ok v := hv
        show (match doubleBits n with | some b => Except.ok (A.const b) | none => _) = _
        rw [hb]
        simp only
        rw [hAB.int n v b this hb]
  · obtain ⟨h, args, rfl⟩ : ∃ h args, e = .node (h :: args) := by
      cases e with
      | atom a => exact absurd rfl hne
      | node cs =>
        cases cs with
        | nil => exact absurd rfl hne
        | cons h args => exact ⟨h, args, rfl⟩
    obtain ⟨ws, hws, hop⟩ := f64_node_ok hv
    have hsub : ∀ c ∈ args, ∀ t, ArgSub c t → ArgSub (.node (h :: args)) t := fun c hc t ht =>
      argSub_node.2 (Or.inr ⟨c, hc, ht⟩)
    have hmap : args.mapM (evalTree (irMeaning A symargs vs)) = .ok ws := by
      have : ∀ (l : List Expr) (ws : List F), (∀ c ∈ l, c ∈ args) →
          l.mapM (evalTree (meaning (evalF64 B) (fun t => lastAssoc t (symargs.zip vs)))) = .ok ws →
          l.mapM (evalTree (irMeaning A symargs vs)) = .ok ws := by
        intro l
        induction l with
        | nil => intro ws _ h; exact h
        | cons c l ihl =>
          intro ws hm h
          rw [List.mapM_cons] at h ⊢
          cases hc : evalTree (meaning (evalF64 B) (fun t => lastAssoc t (symargs.zip vs))) c with
          | error err => rw [hc] at h; cases h
          | ok w =>
            rw [hc] at h
            have hca := hm c (by simp)
            rw [ih c (by simp [Tree.children, hca]) ⟨fun t ht => hs.atoms t (hsub c hca t ht),
              fun h' as ht => hs.heads h' as (hsub c hca _ ht)⟩
              (fun as ht => hsum as (hsub c hca _ ht)) hlen w hc]
            cases hl : l.mapM (evalTree (meaning (evalF64 B)
                (fun t => lastAssoc t (symargs.zip vs)))) with
            | error err => rw [hl] at h; cases h
            | ok ws' =>
              rw [hl] at h
              rw [ihl ws' (fun c hc => hm c (by simp [hc])) hl]
              exact h
      exact this args ws (fun c hc => hc) hws
    rw [evalTree_node _ rfl]
    have hhd := hs.heads h args (argSub_node.2 (Or.inl rfl))
    have hwl : args.length = ws.length := mapM_length _ _ _ hws
    show (args.mapM (evalTree (irMeaning A symargs vs))) >>= _ = _
    rw [hmap]
    show (irMeaning A symargs vs).op h ws = _
    obtain ⟨d1, d2, d3, d4, d5, d6, d7, d8, d9, d10, _, _⟩ := heads_distinct
    unfold f64Op at hop
    simp only [irMeaning]
    by_cases h1 : h = addH
    · subst h1
      simp only [if_true] at hop ⊢
      exact hAB.fsum ws v (hwl ▸ hsum args (argSub_node.2 (Or.inl rfl))) hop
    by_cases h2 : h = mulH
    · subst h2
      simp only [h1, if_true, if_false] at hop ⊢
      refine hAB.prod ws v ?_ hop
      rintro rfl
      rcases hhd with ⟨_, h'⟩ | ⟨h', _⟩ | ⟨h' | h', _⟩
      · rw [hwl] at h'; simp at h'
      · exact d3 h'.symm
      · exact d5 h'.symm
      · exact d8 h'.symm
    by_cases h3 : h = powH
    · subst h3
      simp only [h1, h2, if_true, if_false] at hop ⊢
      obtain ⟨a, b, rfl⟩ : ∃ a b, ws = [a, b] := by
        rcases ws with _ | ⟨a, _ | ⟨b, _ | ⟨c, ws⟩⟩⟩ <;> first | exact ⟨_, _, rfl⟩ | cases hop
      simp only [if_true]
      rw [hAB.pow a b v hop]
    by_cases h4 : h = sinH
    · subst h4
      simp only [h1, h2, h3, if_true, if_false] at hop ⊢
      obtain ⟨a, rfl⟩ : ∃ a, ws = [a] := by
        rcases ws with _ | ⟨a, _ | ⟨b, ws⟩⟩ <;> first | exact ⟨_, rfl⟩ | cases hop
      simp only [if_true]
      rw [hAB.sin a v hop]
    by_cases h5 : h = cosH
    · subst h5
      simp only [h1, h2, h3, h4, if_true, if_false] at hop ⊢
      obtain ⟨a, rfl⟩ : ∃ a, ws = [a] := by
        rcases ws with _ | ⟨a, _ | ⟨b, ws⟩⟩ <;> first | exact ⟨_, rfl⟩ | cases hop
      simp only [if_true]
      rw [hAB.cos a v hop]
    · simp only [h1, h2, h3, h4, h5, if_false] at hop
      cases hop

/-- `lambdify(args, e)` compiles `toLlvm`'s code. -/
theorem lambdifyCode_expr (symargs : List Expr) (e : Expr) :
    lambdifyCode (symargs.map .expr) (.expr e) = toLlvm symargs e := by
  have : (symargs.map PyObj.expr).mapM PyObj.rep = .ok symargs := by
    induction symargs with
    | nil => rfl
    | cons a l ih => rw [List.map_cons, List.mapM_cons, ih]; rfl
  unfold lambdifyCode
  rw [this]
  rfl

/-- **C38, partial.**  `lambdify(args, e)(*vals)` returns what `e.eval_f64(dict(zip(args, vals)))`
returns, whenever the latter returns, for every supported expression and all values, in every
arithmetic in which the float primitives agree with the machine's instructions, where
`math.fsum` need agree with repeated `fadd` only for the numbers of terms that occur in `e`.

Missing from the full claim: `eval_f64` may raise where the compiled code returns
(`C38_raises_false`), and `math.fsum` of three or more floats is not repeated addition
(`C38_sums_false`). -/
theorem C38_lambdify_partial (symargs : List Expr) (e : Expr) (hg : GoodParams symargs)
    (hs : Supported symargs e) (sums : Nat → Prop) (B : FloatOps F) (A : IRArith F)
    (hAB : SameArithmetic sums B A)
    (hsum : ∀ args, ArgSub e (.node (addH :: args)) → sums args.length)
    (vs : List F) (hlen : symargs.length = vs.length)
    (hnone : ∀ v ∈ vs, HasNone.isNone v = false) (v : F)
    (hv : e.evalF64 B (some (Dict.ofPairs (symargs.zip vs))) = .ok v) :
    ∃ fn, lambdifyCode (symargs.map .expr) (.expr e) = .ok fn ∧ SSA fn ∧
      ∀ mem, IRFunction.run A fn vs mem = some (some v, mem) := by
  obtain ⟨fn, hfn, hssa⟩ := C35_generated symargs e hg hs
  refine ⟨fn, by rw [lambdifyCode_expr]; exact hfn, hssa, fun mem => ?_⟩
  obtain ⟨w, hw, hrun⟩ := C35_computes_expression symargs e fn hs hfn hssa A vs mem hlen
  rw [evalF64_ok_iff B e _ (keys_ofPairs_nodup _)] at hv
  have hget : (Dict.ofPairs (symargs.zip vs)).get? = fun t => lastAssoc t (symargs.zip vs) := by
    funext t; exact Dict.get?_ofPairs _ _
  rw [hget] at hv
  have h1 := eval_transfer hAB hnone e hs hsum hlen v hv
  have h2 := evaluates_iff.1 hw
  rw [h1] at h2
  obtain rfl := Except.ok.inj h2
  exact hrun

/-- **C38 for binary sums.**  The compiled code computes `e.bin_expand().eval_f64(…)`, for every
supported expression, in every arithmetic in which `math.fsum([a, b])` is `fadd`. -/
theorem C38_bin_expand_partial (symargs : List Expr) (e u : Expr) (hg : GoodParams symargs)
    (hs : Supported symargs e) (hu : binExpand e = .ok u) (B : FloatOps F) (A : IRArith F)
    (hAB : SameArithmetic (· = 2) B A)
    (vs : List F) (hlen : symargs.length = vs.length)
    (hnone : ∀ v ∈ vs, HasNone.isNone v = false) (v : F)
    (hv : u.evalF64 B (some (Dict.ofPairs (symargs.zip vs))) = .ok v) :
    ∃ fn, lambdifyCode (symargs.map .expr) (.expr e) = .ok fn ∧ SSA fn ∧
      ∀ mem, IRFunction.run A fn vs mem = some (some v, mem) := by
  have hbe := (C20_bin_expand_nests e u).1 hu
  have hsame : toLlvm symargs u = toLlvm symargs e := by
    unfold toLlvm
    rw [hu, (C20_bin_expand_idempotent e u hu).1]
  have hbin := C20_bin_expand_binary e u hu
  have hsu : Supported symargs u := by
    constructor
    · intro t ht hc
      have hl : isLeaf t = true := by unfold isLeaf; rw [hc]; rfl
      obtain ⟨s, hs', hk, _⟩ := (binExpands_occurs _ hbe).1 ⟨t, ht, rfl, Or.inl hl⟩
      unfold key at hk
      rw [hl] at hk
      by_cases hsl : isLeaf s = true
      · rw [hsl] at hk
        simp only [if_true, Prod.mk.injEq, and_true] at hk
        subst hk
        exact hs.atoms _ hs' hc
      · simp [hsl] at hk
    · intro h args ht
      by_cases hh : IsAssocHead h
      · exact Or.inl ⟨hh, by rw [hbin h args ht hh]; omega⟩
      · obtain ⟨s, hs', hk, _⟩ := (binExpands_occurs _ hbe).1
          ⟨.node (h :: args), ht, rfl, Or.inr hh⟩
        by_cases hsl : isLeaf s = true
        · unfold key at hk
          rw [hsl] at hk
          simp [isLeaf, Tree.children] at hk
        · have hne : s ≠ .node [] := by rintro rfl; exact hsl rfl
          rcases leaf_cases hne with ⟨h1, _⟩ | ⟨h', as, rfl⟩
          · exact absurd h1 hsl
          · have : (h', as.length + 1) = (h, args.length + 1) := hk
            simp only [Prod.mk.injEq, Nat.add_right_cancel_iff] at this
            rw [← this.1, ← this.2]
            exact hs.heads h' as hs'
  obtain ⟨fn, h1, h2, h3⟩ := C38_lambdify_partial symargs u hg hsu (· = 2) B A hAB
    (fun args ht => hbin addH args ht (Or.inl rfl)) vs hlen hnone v hv
  refine ⟨fn, ?_, h2, h3⟩
  rw [lambdifyCode_expr] at h1 ⊢
  rw [← hsame]; exact h1

/-! ### A machine that rounds -/

instance : HasNone ℚ := ⟨fun _ => false⟩

/-- Rounding of an integer to the nearest double (numbers that are not integers do not occur
below). -/
def roundInt (q : ℚ) : ℚ := ((doubleBits q.num).bind doubleValue).getD 0

/-- IEEE-754 addition and multiplication of doubles with integer values. -/
def roundingMachine : IRArith ℚ where
  const b := (doubleValue b).getD 0
  fadd a b := roundInt (a + b)
  fmul a b := roundInt (a * b)
  pow _ _ := 0
  sin _ := 0
  cos _ := 0

/-- Python's `float`, `math.fsum` (the correctly rounded sum of all terms) and `math.prod` (a left
fold) on doubles with integer values. -/
def roundingFloats : FloatOps ℚ where
  ofInt n := match doubleBits n with
    | some b => .ok ((doubleValue b).getD 0)
    | none => .error .overflowError
  fsum vs := .ok (roundInt vs.sum)
  prod vs := leftFold roundingMachine.fmul vs
  pow _ _ := .error .valueError
  sin _ := .error .valueError
  cos _ := .error .valueError

/-- In this arithmetic `math.fsum([a, b])` is the machine's addition. -/
theorem rounding_same : SameArithmetic (· = 2) roundingFloats roundingMachine where
  int n v b h1 h2 := by
    simp only [roundingFloats, h2] at h1
    exact Except.ok.inj h1
  fsum vs v hn h := by
    match vs, hn with
    | [a, b], _ =>
      rw [← Except.ok.inj h]
      simp [leftFold, roundingMachine]
  prod vs v _ h := h
  pow a b v h := by cases h
  sin a v h := by cases h
  cos a v h := by cases h

/-- `Add(10**16, 1, -10**16)` -/
def cancelling : Expr := addH.call [integer (10 ^ 16), integer 1, integer (-10 ^ 16)]

theorem cancelling_supported : Supported [] cancelling := by
  have hsub : ∀ t, ArgSub cancelling t → t = cancelling ∨ t = integer (10 ^ 16) ∨ t = integer 1 ∨
      t = integer (-10 ^ 16) := by
    intro t ht
    rw [← reach_topo] at ht
    revert t
    decide +kernel
  constructor
  · intro t ht hc
    rcases hsub t ht with rfl | rfl | rfl | rfl
    · cases hc
    · exact Or.inr ⟨_, rfl, by norm_num⟩
    · exact Or.inr ⟨_, rfl, by norm_num⟩
    · exact Or.inr ⟨_, rfl, by norm_num⟩
  · intro h args ht
    rcases hsub _ ht with h' | h' | h' | h'
    · cases h'; exact Or.inl ⟨Or.inl rfl, by decide⟩
    · cases h'
    · cases h'
    · cases h'

/-- **C38 refuted for sums of three terms.**  `Add(10**16, 1, -10**16)` evaluates to 1 with
`eval_f64`, whose `math.fsum` rounds once, but the compiled code rounds after each addition and
returns 0.  The arithmetic is one to which `C38_bin_expand_partial` applies. -/
theorem C38_sums_false :
    SameArithmetic (· = 2) roundingFloats roundingMachine ∧ GoodParams [] ∧
    Supported [] cancelling ∧
    cancelling.evalF64 roundingFloats (some Dict.empty) = .ok 1 ∧
    ∃ fn, lambdifyCode [] (.expr cancelling) = .ok fn ∧ SSA fn ∧
      IRFunction.run roundingMachine fn [] [] = some (some 0, []) := by
  have hg : GoodParams [] := ⟨[], rfl, by simp, by simp⟩
  refine ⟨rounding_same, hg, cancelling_supported, by decide +kernel, ?_⟩
  have hu : binExpand cancelling =
      .ok (add (add (integer (10 ^ 16)) (integer 1)) (integer (-10 ^ 16))) := by decide +kernel
  obtain ⟨fn, h1, h2, h3⟩ := C38_bin_expand_partial [] cancelling _ hg cancelling_supported hu
    roundingFloats roundingMachine rounding_same [] rfl (by simp) 0 (by decide +kernel)
  exact ⟨fn, h1, h2, h3 []⟩

/-! ### Exact arithmetic -/

theorem exact_same : SameArithmetic (1 ≤ ·) exactFloats exactMachine where
  int n v b h1 h2 := by
    simp only [exactFloats, h2] at h1
    exact Except.ok.inj h1
  fsum vs v hn h := by
    obtain rfl := Except.ok.inj (show Except.ok vs.sum = _ from h)
    match vs, hn with
    | a :: vs, _ =>
      simp only [leftFold, exactMachine, List.sum_cons]
      congr 1
      rw [← List.sum_cons, List.sum_eq_foldl, List.foldl_cons, zero_add]
  prod vs v hn h := by
    obtain rfl := Except.ok.inj (show Except.ok vs.prod = _ from h)
    match vs, hn with
    | a :: vs, _ =>
      simp only [leftFold, exactMachine, List.prod_cons]
      congr 1
      rw [← List.prod_cons, List.prod_eq_foldl, List.foldl_cons, one_mul]
  pow a b v h := by
    simp only [exactFloats, realOps] at h
    split at h
    · exact Except.ok.inj h
    · cases h
  sin a v h := Except.ok.inj h
  cos a v h := Except.ok.inj h

/-- **C38 up to rounding.**  Without rounding of the operations, `lambdify` and `eval_f64` agree
for every supported expression and all values for which `eval_f64` returns. -/
theorem C38_exact_partial (symargs : List Expr) (e : Expr) (hg : GoodParams symargs)
    (hs : Supported symargs e) (vs : List ℝ) (hlen : symargs.length = vs.length) (v : ℝ)
    (hv : e.evalF64 exactFloats (some (Dict.ofPairs (symargs.zip vs))) = .ok v) :
    ∃ fn, lambdifyCode (symargs.map .expr) (.expr e) = .ok fn ∧ SSA fn ∧
      ∀ mem, IRFunction.run exactMachine fn vs mem = some (some v, mem) := by
  refine C38_lambdify_partial symargs e hg hs (1 ≤ ·) exactFloats exactMachine exact_same ?_ vs hlen
    (fun _ _ => rfl) v hv
  intro args ht
  rcases hs.heads addH args ht with ⟨_, h⟩ | ⟨h, _⟩ | ⟨h | h, _⟩
  · exact h
  · exact absurd h.symm heads_distinct.2.1
  · exact absurd h.symm heads_distinct.2.2.2.1
  · exact absurd h.symm heads_distinct.2.2.2.2.2.2.1

/-- The hypotheses hold of `lambdify([x, y], x*(y + x + 2))(3, 5)`: both return 30. -/
example : GoodParams [x, y] ∧ Supported [x, y] (mul x (addH.call [y, x, integer 2])) ∧
    (mul x (addH.call [y, x, integer 2])).evalF64 exactFloats
      (some (Dict.ofPairs ([x, y].zip [3, 5]))) = .ok 30 := by
  refine ⟨?_, supported_of_check (by decide +kernel), ?_⟩
  · refine ⟨["x", "y"], rfl, by decide, ?_⟩
    intro s hs
    have key : ∀ t : String, t.toList.head? ≠ some '.' → ∀ n : Nat, t ≠ "." ++ toString n := by
      intro t ht n he
      rw [he] at ht
      simp [String.toList_append] at ht
    simp only [List.mem_cons, List.not_mem_nil, or_false] at hs
    rcases hs with rfl | rfl
    · exact ⟨⟨by decide, by decide⟩, key _ (by decide), by simp⟩
    · exact ⟨⟨by decide, by decide⟩, key _ (by decide), by simp⟩
  · rw [evalF64_ok_iff _ _ _ (keys_ofPairs_nodup _)]
    have hx : evalTree (meaning (evalF64 exactFloats) (Dict.ofPairs ([x, y].zip [(3 : ℝ), 5])).get?) x
        = .ok 3 := rfl
    have hy : evalTree (meaning (evalF64 exactFloats) (Dict.ofPairs ([x, y].zip [(3 : ℝ), 5])).get?) y
        = .ok 5 := rfl
    have h2 : evalTree (meaning (evalF64 exactFloats) (Dict.ofPairs ([x, y].zip [(3 : ℝ), 5])).get?)
        (integer 2) = .ok 2 := by
      rw [f64_integer _ _ _ rfl]
      have hb : doubleBits 2 = some 0x4000000000000000 := by decide +kernel
      have hd : doubleValue 0x4000000000000000 = some 2 := by decide +kernel
      simp only [exactFloats, hb, hd, Option.getD_some]
      norm_num
    have hs : evalTree (meaning (evalF64 exactFloats) (Dict.ofPairs ([x, y].zip [(3 : ℝ), 5])).get?)
        (addH.call [y, x, integer 2]) = .ok 10 := by
      show evalTree _ (.node (addH :: [y, x, integer 2])) = _
      rw [f64_node]
      simp only [List.mapM_cons, List.mapM_nil, hx, hy, h2]
      show (Except.ok ([5, 3, 2] : List ℝ).sum : PyM ℝ) = _
      norm_num
    show evalTree _ (.node (mulH :: [x, addH.call [y, x, integer 2]])) = _
    rw [f64_node]
    simp only [List.mapM_cons, List.mapM_nil, hx, hs]
    show (Except.ok ([3, 10] : List ℝ).prod : PyM ℝ) = _
    norm_num

/-- **C38 refuted where `eval_f64` raises.**  `Integer(0)**Integer(-1)` is supported; `eval_f64`
raises `ValueError` (also without rounding) but the compiled code returns whatever the machine's
`pow` returns.  `sin(x, y)` makes `eval_f64` raise `TypeError` in every arithmetic, but the
compiled code returns `sin(x)`. -/
theorem C38_raises_false :
    (Supported [] (pow (integer 0) (integer (-1))) ∧
      (pow (integer 0) (integer (-1))).evalF64 exactFloats (some Dict.empty) = .error .valueError ∧
      ∀ {F : Type} (A : IRArith F), ∃ fn v, lambdifyCode [] (.expr (pow (integer 0) (integer (-1)))) =
        .ok fn ∧ SSA fn ∧ IRFunction.run A fn [] [] = some (some v, [])) ∧
    ∀ {F : Type} [HasNone F] (B : FloatOps F) (A : IRArith F) (a b : F),
      HasNone.isNone a = false → HasNone.isNone b = false →
      Expr.evalF64 B (sinH.call [x, y]) (some (Dict.ofPairs ([x, y].zip [a, b]))) = .error .typeError ∧
      ∃ fn, lambdifyCode [.expr x, .expr y] (.expr (sinH.call [x, y])) = .ok fn ∧ SSA fn ∧
        IRFunction.run A fn [a, b] [] = some (some (A.sin a), []) := by
  have hsup : Supported [] (pow (integer 0) (integer (-1))) := by
    have hsub : ∀ t, ArgSub (pow (integer 0) (integer (-1))) t →
        t = pow (integer 0) (integer (-1)) ∨ t = integer 0 ∨ t = integer (-1) := by
      intro t ht
      rw [← reach_topo] at ht
      revert t
      decide +kernel
    constructor
    · intro t ht hc
      rcases hsub t ht with rfl | rfl | rfl
      · cases hc
      · exact Or.inr ⟨_, rfl, by norm_num⟩
      · exact Or.inr ⟨_, rfl, by norm_num⟩
    · intro h args ht
      rcases hsub _ ht with h' | h' | h'
      · cases h'; exact Or.inr (Or.inl ⟨rfl, rfl⟩)
      · cases h'
      · cases h'
  refine ⟨⟨hsup, ?_, ?_⟩, ?_⟩
  · show (evalF64 exactFloats).evalForward (pow (integer 0) (integer (-1))) (Dict.ofPairs []) = _
    rw [evalForward_py]
    have hord : graphOrder (pow (integer 0) (integer (-1))) =
        [integer 0, integer (-1), pow (integer 0) (integer (-1))] := by decide +kernel
    have h0 : evalTree (meaning (evalF64 exactFloats) (Dict.ofPairs []).get?) (integer 0) = .ok 0 := by
      rw [f64_integer _ _ _ rfl]
      have hb : doubleBits 0 = some 0 := by decide +kernel
      have hd : doubleValue 0 = some 0 := by decide +kernel
      simp only [exactFloats, hb, hd, Option.getD_some]
      norm_num
    have h1 : evalTree (meaning (evalF64 exactFloats) (Dict.ofPairs []).get?) (integer (-1)) =
        .ok (-1) := by
      rw [f64_integer _ _ _ rfl]
      have hb : doubleBits (-1) = some 0xbff0000000000000 := by decide +kernel
      have hd : doubleValue 0xbff0000000000000 = some (-1) := by decide +kernel
      simp only [exactFloats, hb, hd, Option.getD_some]
      norm_num
    have h2 : evalTree (meaning (evalF64 exactFloats) (Dict.ofPairs []).get?)
        (pow (integer 0) (integer (-1))) = .error .valueError := by
      show evalTree _ (.node (powH :: [integer 0, integer (-1)])) = _
      rw [f64_node]
      simp only [List.mapM_cons, List.mapM_nil, h0, h1]
      show exactFloats.pow 0 (-1) = _
      have : ¬ PowDefined 0 (-1) := by
        intro h
        have := h.1 rfl
        norm_num at this
      simp only [exactFloats, realOps, this, if_false]
    rw [hord]
    simp only [List.mapM_cons, h0, h1, h2]
    rfl
  · intro F A
    have hg : GoodParams [] := ⟨[], rfl, by simp, by simp⟩
    obtain ⟨fn, hfn, hssa⟩ := C35_generated [] _ hg hsup
    obtain ⟨v, _, hrun⟩ := C35_computes_expression [] _ fn hsup hfn hssa A [] [] rfl
    exact ⟨fn, v, (lambdifyCode_expr [] _).trans hfn, hssa, hrun⟩
  · intro F _ B A a b ha hb
    constructor
    · show (evalF64 B).evalForward (sinH.call [x, y]) (Dict.ofPairs (Dict.ofPairs [(x, a), (y, b)]).items)
        = _
      rw [evalForward_py]
      have hord : graphOrder (sinH.call [x, y]) = [x, y, sinH.call [x, y]] := by decide +kernel
      have hx : evalTree (meaning (evalF64 B) (Dict.ofPairs (Dict.ofPairs [(x, a), (y, b)]).items).get?)
          x = .ok a := by
        show (if HasNone.isNone a then _ else Except.ok a) = _
        rw [ha]; rfl
      have hy : evalTree (meaning (evalF64 B) (Dict.ofPairs (Dict.ofPairs [(x, a), (y, b)]).items).get?)
          y = .ok b := by
        show (if HasNone.isNone b then _ else Except.ok b) = _
        rw [hb]; rfl
      have hs : evalTree (meaning (evalF64 B) (Dict.ofPairs (Dict.ofPairs [(x, a), (y, b)]).items).get?)
          (sinH.call [x, y]) = .error .typeError := by
        show evalTree _ (.node (sinH :: [x, y])) = _
        rw [f64_node]
        simp only [List.mapM_cons, List.mapM_nil, hx, hy]
        rfl
      rw [hord]
      simp only [List.mapM_cons, hx, hy, hs]
      rfl
    · refine ⟨⟨false, ["%\"x\"", "%\"y\""], [.call "%\".0\"" "sin" ["%\"x\""], .ret "%\".0\""]⟩,
        by decide +kernel, ?_, rfl⟩
      rw [C34_ssa [x, y] (sinH.call [x, y]) _ (by decide +kernel)]
      refine ⟨["x", "y"], rfl, by decide, ?_⟩
      intro s hs
      have key : ∀ t : String, t.toList.head? ≠ some '.' → ∀ n : Nat, t ≠ "." ++ toString n := by
        intro t ht n he
        rw [he] at ht
        simp [String.toList_append] at ht
      simp only [List.mem_cons, List.not_mem_nil, or_false] at hs
      rcases hs with rfl | rfl
      · exact ⟨⟨by decide, by decide⟩, fun n _ => key _ (by decide) n⟩
      · exact ⟨⟨by decide, by decide⟩, fun n _ => key _ (by decide) n⟩

end Verif.Props
