import Verif.Lemmas.SymPy
import Verif.Props.Print
import Verif.Props.Matrix

/-!
# C43, C44: conversion to and from SymPy
-/

set_option linter.unusedSectionVars false
set_option linter.unusedSimpArgs false

namespace Verif.Props
open Spec Expr

/-- **C43, `from_sympy`.**  For every SymPy object, however often its parts are repeated in it,
`from_sympy` returns exactly its image: the cache never changes the result. -/
theorem C43_from_sympy (s : SExpr) (e : Expr) : fromSympy s = .ok e ↔ Converts s e := by
  rcases fromSympy_cases s with ⟨e', h, h1⟩ | ⟨err, h, h1, _⟩
  · rw [h]
    constructor
    · intro h'; obtain rfl := Except.ok.inj h'; exact h1
    · intro h'; rw [converts_unique h1 _ h']
  · rw [h]
    constructor
    · intro h'; cases h'
    · intro h'; exact absurd h' (h1 e)

/-- **C43, the rest.**  A SymPy expression without an image raises `NotImplementedError`; another
exception needs a function class (`sympy.Function("f")` itself, not `f(x)`) inside. -/
theorem C43_unconvertible (s : SExpr) :
    (∀ err, fromSympy s = .error err →
      err = .notImplementedError ∨ err = .typeError ∧ ∃ f, SSub s (.cls f)) ∧
    ((¬ ∃ e, Converts s e) → (∀ f, ¬ SSub s (.cls f)) →
      fromSympy s = .error .notImplementedError) := by
  rcases fromSympy_cases s with ⟨e', h, h1⟩ | ⟨err, h, h1, h2⟩
  · rw [h]
    exact ⟨(by intro err h'; cases h'), fun h' => absurd ⟨e', h1⟩ h'⟩
  · rw [h]
    constructor
    · intro err' h'; cases h'; exact h2
    · intro _ hn
      rcases h2 with rfl | ⟨_, f, hf⟩
      · rfl
      · exact absurd hf (hn f)

/-! ### `to_sympy` -/

theorem evalToSympy_eq (L : SymPyLib) :
    evalToSympy L =
      { atoms := ⟨[(Ty.integer, L.fromInt), (Ty.symbol, fromStr L.symbol),
          (Ty.function, fromStr L.function)]⟩,
        operations := ⟨[(addH, .seq L.add), (mulH, .seq L.mul), (powH, .star (arity2 L.pow)),
          (sinH, .star (arity1 L.sin)), (cosH, .star (arity1 L.cos)), (listH, .seq L.tuple)]⟩,
        genericOperationFunc := L.undefCall,
        genericAtomFunc := fun _ => .error .noEvaluationRule } := by
  rfl

/-- None of the assignments raises. -/
theorem toSympy_installed (L : SymPyLib) :
    (installRules (toSympyRules L) Evaluator.new).1 = .ok () := rfl

/-- The meaning of the rules of `eval_to_sympy`. -/
def sympyMeaning (L : SymPyLib) : Meaning Val SExpr where
  leaf
    | .atom a =>
      if a.atomType = Ty.integer then L.fromInt a.value
      else if a.atomType = Ty.symbol then fromStr L.symbol a.value
      else if a.atomType = Ty.function then fromStr L.function a.value
      else .error .noEvaluationRule
    | .node _ => .error .attributeError
  op h ss :=
    if h = addH then L.add ss
    else if h = mulH then L.mul ss
    else if h = powH then arity2 L.pow ss
    else if h = sinH then arity1 L.sin ss
    else if h = cosH then arity1 L.cos ss
    else if h = listH then L.tuple ss
    else L.undefCall h ss

theorem toSympy_meaning (L : SymPyLib) :
    meaning (evalToSympy L) (fun _ => none) = sympyMeaning L := by
  unfold meaning sympyMeaning
  congr 1
  · funext t
    cases t with
    | node cs => rfl
    | atom a =>
      obtain ⟨ty, v⟩ := a
      simp only [meaning.rule, evalToSympy_eq, Dict.get?, Dict.lookup]
      simp only [eq_comm (a := ty)]
      by_cases h1 : Ty.integer = ty
      · simp only [h1, if_true]
      by_cases h2 : Ty.symbol = ty
      · simp only [h1, h2, if_true, if_false]
      by_cases h3 : Ty.function = ty
      · simp only [h1, h2, h3, if_true, if_false]
      simp only [h1, h2, h3, if_false]
  · funext h ss
    simp only [evalToSympy_eq, Dict.get?, Dict.lookup]
    simp only [eq_comm (a := h)]
    by_cases h1 : addH = h
    · simp only [h1, if_true]
    by_cases h2 : mulH = h
    · simp only [h1, h2, if_true, if_false]
    by_cases h3 : powH = h
    · simp only [h1, h2, h3, if_true, if_false]
    by_cases h4 : sinH = h
    · simp only [h1, h2, h3, h4, if_true, if_false]
    by_cases h5 : cosH = h
    · simp only [h1, h2, h3, h4, h5, if_true, if_false]
    by_cases h6 : listH = h
    · simp only [h1, h2, h3, h4, h5, h6, if_true, if_false]
    simp only [h1, h2, h3, h4, h5, h6, if_false]

theorem undefCall_ok {L : SymPyLib} {h : Expr} {ss : List SExpr} {s : SExpr} :
    L.undefCall h ss = .ok s ↔ ∃ name, Shows h name ∧ L.undef name ss = .ok s := by
  unfold SymPyLib.undefCall
  cases h1 : treeStr h with
  | error err =>
    constructor
    · intro h'; cases h'
    · rintro ⟨t, ht, _⟩
      rw [shows_treeStr ht] at h1; cases h1
  | ok t =>
    constructor
    · intro h'; exact ⟨t, treeStr_iff.1 h1, h'⟩
    · rintro ⟨t', ht, h'⟩
      rw [shows_treeStr ht] at h1
      obtain rfl := Except.ok.inj h1
      exact h'

mutual
theorem builds_evaluates {L : SymPyLib} {e : Expr} {s : SExpr} : Builds L e s →
    Evaluates (sympyMeaning L) e s
  | .int h => .leaf rfl h
  | .sym h => .leaf rfl h
  | .fn h => .leaf rfl h
  | .add h h' => .op (buildsAll_evaluates h) (by simpa [sympyMeaning] using h')
  | .mul h h' => .op (buildsAll_evaluates h) h'
  | .pow h1 h2 h' => .op (.cons (builds_evaluates h1) (.cons (builds_evaluates h2) .nil)) h'
  | .sin h h' => .op (.cons (builds_evaluates h) .nil) h'
  | .cos h h' => .op (.cons (builds_evaluates h) .nil) h'
  | .list h h' => .op (buildsAll_evaluates h) h'
  | .call hk hs h h' => .op (buildsAll_evaluates h) (by
      simp only [IsKnown, not_or] at hk
      obtain ⟨k1, k2, k3, k4, k5, k6⟩ := hk
      simp only [sympyMeaning, k1, k2, k3, k4, k5, k6, if_false]
      exact undefCall_ok.2 ⟨_, hs, h'⟩)
theorem buildsAll_evaluates {L : SymPyLib} {es : List Expr} {ss : List SExpr} : BuildsAll L es ss →
    EvaluatesAll (sympyMeaning L) es ss
  | .nil => .nil
  | .cons h1 h2 => .cons (builds_evaluates h1) (buildsAll_evaluates h2)
end

mutual
theorem evaluates_builds {L : SymPyLib} {e : Expr} {s : SExpr} :
    Evaluates (sympyMeaning L) e s → Builds L e s
  | .leaf (t := t) hc h => by
    cases t with
    | node cs => cases h
    | atom a =>
      obtain ⟨ty, v⟩ := a
      simp only [sympyMeaning] at h
      split at h
      · rename_i ht; subst ht
        cases v with
        | int n => exact .int h
        | str n => cases h
      split at h
      · rename_i ht; subst ht
        cases v with
        | int n => cases h
        | str n => exact .sym h
      split at h
      · rename_i ht; subst ht
        cases v with
        | int n => cases h
        | str n => exact .fn h
      cases h
  | .op (h := h) (args := args) (vs := vs) hargs hop => by
    have ih := evaluatesAll_builds hargs
    simp only [sympyMeaning] at hop
    by_cases h1 : h = addH
    · subst h1
      simp only [if_true] at hop
      exact .add ih hop
    by_cases h2 : h = mulH
    · subst h2
      simp only [h1, if_true, if_false] at hop
      exact .mul ih hop
    by_cases h3 : h = powH
    · subst h3
      simp only [h1, h2, if_true, if_false] at hop
      match vs, ih, hop with
      | [a, b], .cons ha (.cons hb .nil), hop => exact .pow ha hb hop
      | [], _, hop => cases hop
      | [_], _, hop => cases hop
      | _ :: _ :: _ :: _, _, hop => cases hop
    by_cases h4 : h = sinH
    · subst h4
      simp only [h1, h2, h3, if_true, if_false] at hop
      match vs, ih, hop with
      | [a], .cons ha .nil, hop => exact .sin ha hop
      | [], _, hop => cases hop
      | _ :: _ :: _, _, hop => cases hop
    by_cases h5 : h = cosH
    · subst h5
      simp only [h1, h2, h3, h4, if_true, if_false] at hop
      match vs, ih, hop with
      | [a], .cons ha .nil, hop => exact .cos ha hop
      | [], _, hop => cases hop
      | _ :: _ :: _, _, hop => cases hop
    by_cases h6 : h = listH
    · subst h6
      simp only [h1, h2, h3, h4, h5, if_true, if_false] at hop
      exact .list ih hop
    simp only [h1, h2, h3, h4, h5, h6, if_false] at hop
    obtain ⟨name, hs, hu⟩ := undefCall_ok.1 hop
    exact .call (by simp [IsKnown, h1, h2, h3, h4, h5, h6]) hs ih hu
theorem evaluatesAll_builds {L : SymPyLib} {es : List Expr} {ss : List SExpr} :
    EvaluatesAll (sympyMeaning L) es ss → BuildsAll L es ss
  | .nil => .nil
  | .cons h1 h2 => .cons (evaluates_builds h1) (evaluatesAll_builds h2)
end

/-- **C43, `to_sympy`.**  Whatever SymPy's constructors do with their arguments, `to_sympy` returns
exactly what they build from the converted arguments. -/
theorem C43_to_sympy (L : SymPyLib) (e : Expr) (s : SExpr) : toSympy L e = .ok s ↔ Builds L e s := by
  show (evalToSympy L).call e none = .ok s ↔ _
  rw [C14_no_values, toSympy_meaning]
  exact ⟨evaluates_builds, builds_evaluates⟩

mutual
theorem mirrors_builds {L : SymPyLib} {s : SExpr} {e : Expr} : Plain s → Converts s e →
    Stable L s → Builds L e s
  | .int, .int, hs => .int (hs _ .refl)
  | .sym, .sym, hs => .sym (hs _ .refl)
  | .add _ hp, .add _ hc, hs =>
    .add (mirrorsAll_builds hp hc (fun t ht u hu => hs u (.arg ht hu))) (hs _ .refl)
  | .mul _ hp, .mul _ hc, hs =>
    .mul (mirrorsAll_builds hp hc (fun t ht u hu => hs u (.arg ht hu))) (hs _ .refl)
  | .pow (a := a) (b := b) h1 h2, .pow _ (.cons c1 (.cons c2 .nil)), hs =>
    .pow (mirrors_builds h1 c1 (fun u hu => hs u (.arg (a := a) (by simp) hu)))
      (mirrors_builds h2 c2 (fun u hu => hs u (.arg (a := b) (by simp) hu))) (hs _ .refl)
  | .sin (a := a) h1, .sin _ (.cons c1 .nil), hs =>
    .sin (mirrors_builds h1 c1 (fun u hu => hs u (.arg (a := a) (by simp) hu))) (hs _ .refl)
  | .cos (a := a) h1, .cos _ (.cons c1 .nil), hs =>
    .cos (mirrors_builds h1 c1 (fun u hu => hs u (.arg (a := a) (by simp) hu))) (hs _ .refl)
  | .tuple _ hp, .tuple _ hc, hs =>
    .list (mirrorsAll_builds hp hc (fun t ht u hu => hs u (.arg ht hu))) (hs _ .refl)
  | .undef hk _ hp, .undef _ hc, hs =>
    .call hk .atom (mirrorsAll_builds hp hc (fun t ht u hu => hs u (.arg ht hu))) (hs _ .refl)
theorem mirrorsAll_builds {L : SymPyLib} {ss : List SExpr} {es : List Expr} : PlainAll ss →
    ConvertsAll ss es → (∀ s ∈ ss, Stable L s) → BuildsAll L es ss
  | .nil, .nil, _ => .nil
  | .cons h1 h2, .cons c1 c2, hs =>
    .cons (mirrors_builds h1 c1 (hs _ (by simp)))
      (mirrorsAll_builds h2 c2 (fun s h => hs s (by simp [h])))
end

mutual
theorem plain_converts : ∀ {s : SExpr}, Plain s → ∃ e, Converts s e
  | _, .int => ⟨_, .int⟩
  | _, .sym => ⟨_, .sym⟩
  | _, .add hn h => (plainAll_converts h).elim fun _ h' => ⟨_, .add hn h'⟩
  | _, .mul hn h => (plainAll_converts h).elim fun _ h' => ⟨_, .mul hn h'⟩
  | _, .pow h1 h2 => (plain_converts h1).elim fun _ h1' => (plain_converts h2).elim fun _ h2' =>
      ⟨_, .pow (by simp) (.cons h1' (.cons h2' .nil))⟩
  | _, .sin h1 => (plain_converts h1).elim fun _ h1' => ⟨_, .sin (by simp) (.cons h1' .nil)⟩
  | _, .cos h1 => (plain_converts h1).elim fun _ h1' => ⟨_, .cos (by simp) (.cons h1' .nil)⟩
  | _, .tuple hn h => (plainAll_converts h).elim fun _ h' => ⟨_, .tuple hn h'⟩
  | _, .undef _ hn h => (plainAll_converts h).elim fun _ h' => ⟨_, .undef hn h'⟩
theorem plainAll_converts : ∀ {ss : List SExpr}, PlainAll ss → ∃ es, ConvertsAll ss es
  | _, .nil => ⟨_, .nil⟩
  | _, .cons h1 h2 => (plain_converts h1).elim fun _ h1' => (plainAll_converts h2).elim
      fun _ h2' => ⟨_, .cons h1' h2'⟩
end

/-- **C43, round trip from SymPy.**  `to_sympy(from_sympy(s))` is `s` for every SymPy expression
of integers, plain symbols, sums, products, powers, `sin`, `cos`, tuples and applied undefined
functions that SymPy's constructors leave alone. -/
theorem C43_round_trip_sympy (L : SymPyLib) (s : SExpr) (hp : Plain s) (hs : Stable L s) :
    ∃ e, fromSympy s = .ok e ∧ toSympy L e = .ok s := by
  obtain ⟨e, he⟩ := plain_converts hp
  exact ⟨e, (C43_from_sympy s e).2 he, (C43_to_sympy L e s).2 (mirrors_builds hp he hs)⟩

mutual
theorem ordinary_mirror {e : Expr} : Ordinary e → ∃ s, Mirrors s e
  | .int => ⟨_, .int, .int⟩
  | .sym => ⟨_, .sym, .sym⟩
  | .add hn h => (ordinaryAll_mirror h).elim fun ss hs =>
      ⟨.app .add ss, .add (hs.2.2 hn) hs.1, .add (hs.2.2 hn) hs.2.1⟩
  | .mul hn h => (ordinaryAll_mirror h).elim fun ss hs =>
      ⟨.app .mul ss, .mul (hs.2.2 hn) hs.1, .mul (hs.2.2 hn) hs.2.1⟩
  | .pow h1 h2 => (ordinary_mirror h1).elim fun _ g1 => (ordinary_mirror h2).elim fun _ g2 =>
      ⟨_, .pow g1.1 g2.1, .pow (by simp) (.cons g1.2 (.cons g2.2 .nil))⟩
  | .sin h1 => (ordinary_mirror h1).elim fun _ g1 =>
      ⟨_, .sin g1.1, .sin (by simp) (.cons g1.2 .nil)⟩
  | .cos h1 => (ordinary_mirror h1).elim fun _ g1 =>
      ⟨_, .cos g1.1, .cos (by simp) (.cons g1.2 .nil)⟩
  | .list hn h => (ordinaryAll_mirror h).elim fun ss hs =>
      ⟨.app .tuple ss, .tuple (hs.2.2 hn) hs.1, .tuple (hs.2.2 hn) hs.2.1⟩
  | .call (name := name) hk hn h => (ordinaryAll_mirror h).elim fun ss hs =>
      ⟨.app (.undef name) ss, .undef hk (hs.2.2 hn) hs.1, .undef (hs.2.2 hn) hs.2.1⟩
theorem ordinaryAll_mirror {es : List Expr} : OrdinaryAll es → ∃ ss, PlainAll ss ∧
    ConvertsAll ss es ∧ (es ≠ [] → ss ≠ [])
  | .nil => ⟨[], .nil, .nil, fun h => absurd rfl h⟩
  | .cons h1 h2 => (ordinary_mirror h1).elim fun s g1 => (ordinaryAll_mirror h2).elim
      fun ss g2 => ⟨s :: ss, .cons g1.1 g2.1, .cons g1.2 g2.2.1, by simp⟩
end

/-- **C43, round trip from protosym.**  Every ordinary expression `e` has a counterpart `s`, and
`to_sympy(e)` is `s` and `from_sympy(to_sympy(e))` is `e` whenever SymPy's constructors leave `s`
alone. -/
theorem C43_round_trip (e : Expr) (he : Ordinary e) :
    ∃ s, Mirrors s e ∧ ∀ L, Stable L s → toSympy L e = .ok s ∧ fromSympy s = .ok e := by
  obtain ⟨s, hs⟩ := ordinary_mirror he
  exact ⟨s, hs, fun L hL => ⟨(C43_to_sympy L e s).2 (mirrors_builds hs.1 hs.2 hL),
    (C43_from_sympy s e).2 hs.2⟩⟩

theorem inert_stable {s : SExpr} (h : Plain s) : Stable inertLib s := by
  intro u hu
  have : Plain u := by
    have key : ∀ {s u : SExpr}, SSub s u → Plain s → Plain u := by
      intro s u h
      induction h with
      | refl => exact id
      | @arg k as a u ha _ ih =>
        intro hp
        have hall : ∀ {ss : List SExpr}, PlainAll ss → ∀ a ∈ ss, Plain a := by
          intro ss
          induction ss with
          | nil => intro _ a h; cases h
          | cons b ss ihs =>
            intro hp a h
            cases hp with
            | cons h1 h2 =>
              rcases List.mem_cons.1 h with rfl | h
              · exact h1
              · exact ihs h2 a h
        refine ih ?_
        cases hp with
        | add _ h => exact hall h a ha
        | mul _ h => exact hall h a ha
        | pow h1 h2 => exact hall (.cons h1 (.cons h2 .nil)) a ha
        | sin h1 => exact hall (.cons h1 .nil) a ha
        | cos h1 => exact hall (.cons h1 .nil) a ha
        | tuple _ h => exact hall h a ha
        | undef _ _ h => exact hall h a ha
    exact key hu h
  cases this <;> rfl

/-- `[sin(x)**2 + f(x, 3), x]` survives both ways when SymPy does not rewrite. -/
example :
    let e := listH.call [add (pow (sin x) (integer 2)) ((function "f").call [x, integer 3]), x]
    let s := SExpr.app .tuple [.app .add [.app .pow [.app .sin [.sym "x" 0], .int 2],
      .app (.undef "f") [.sym "x" 0, .int 3]], .sym "x" 0]
    Ordinary e ∧ Mirrors s e ∧ Stable inertLib s ∧ toSympy inertLib e = .ok s ∧
      fromSympy s = .ok e := by
  intro e s
  have hk : ¬ IsKnown (function "f") := by unfold IsKnown; decide
  have ho : Ordinary e := .list (by simp) (.cons (.add (by simp) (.cons (.pow (.sin .sym) .int)
    (.cons (.call hk (by simp) (.cons .sym (.cons .int .nil))) .nil))) (.cons .sym .nil))
  have hp : Plain s := .tuple (by simp) (.cons (.add (by simp) (.cons (.pow (.sin .sym) .int)
    (.cons (.undef hk (by simp) (.cons .sym (.cons .int .nil))) .nil))) (.cons .sym .nil))
  have hc : Converts s e := .tuple (by simp) (.cons (.add (by simp) (.cons (.pow (by simp)
    (.cons (.sin (by simp) (.cons .sym .nil)) (.cons .int .nil)))
    (.cons (.undef (by simp) (.cons .sym (.cons .int .nil))) .nil))) (.cons .sym .nil))
  have hs := inert_stable hp
  exact ⟨ho, ⟨hp, hc⟩, hs, (C43_to_sympy _ _ _).2 (mirrors_builds hp hc hs),
    (C43_from_sympy _ _).2 hc⟩

/-- `sqrt(x) + x` with the rational `1/2`: no image. -/
example : fromSympy (.app .add [.sym "x" 0, .app .pow [.sym "x" 0, .leaf 7]]) =
    .error .notImplementedError := by decide

/-- **C43, limits.**  The round trips fail on the rest: a function without arguments cannot come
back, a call of a call comes back as a call of a function with a longer name, a symbol loses its
assumptions, an undefined function of SymPy named `Add` comes back as a sum, and a bare function
goes to a class, which raises `TypeError` on the way back. -/
theorem C43_round_trip_false :
    (toSympy inertLib ((function "f").call []) = .ok (.app (.undef "f") []) ∧
      fromSympy (.app (.undef "f") []) = .error .notImplementedError) ∧
    (∃ s, toSympy inertLib (((function "f").call [x]).call [y]) = .ok s ∧
      fromSympy s = .ok ((function "f(x)").call [y])) ∧
    (fromSympy (.sym "x" 1) = .ok x ∧ toSympy inertLib x = .ok (.sym "x" 0)) ∧
    (fromSympy (.app (.undef "Add") [.sym "x" 0]) = .ok (addH.call [x]) ∧
      toSympy inertLib (addH.call [x]) = .ok (.app .add [.sym "x" 0])) ∧
    (toSympy inertLib (function "f") = .ok (.cls "f") ∧
      fromSympy (.cls "f") = .error .typeError) := by
  have hk : ¬ IsKnown (function "f") := by unfold IsKnown; decide
  have hk' : ¬ IsKnown ((function "f").call [x]) := by unfold IsKnown; decide
  have hx : Builds inertLib x (.sym "x" 0) := .sym rfl
  have hy : Builds inertLib y (.sym "y" 0) := .sym rfl
  refine ⟨⟨(C43_to_sympy _ _ _).2 (.call hk .atom .nil rfl), by decide⟩,
    ⟨.app (.undef "f(x)") [.sym "y" 0], (C43_to_sympy _ _ _).2
      (.call hk' (.node .atom (.cons .atom .nil)) (.cons hy .nil) ?_), by decide⟩,
    ⟨by decide, (C43_to_sympy _ _ _).2 hx⟩,
    ⟨by decide, (C43_to_sympy _ _ _).2 (.add (.cons hx .nil) rfl)⟩,
    (C43_to_sympy _ _ _).2 (.fn rfl), by decide⟩
  decide

/-! ### Matrices -/

theorem buildsAll_get {L : SymPyLib} : ∀ {es : List Expr} {ss : List SExpr}, BuildsAll L es ss →
    ∀ (n : Nat) (e : Expr), es[n]? = some e → ∃ s, ss[n]? = some s ∧ Builds L e s
  | _, _, .nil, n, e, h => by simp at h
  | _, _, .cons h1 h2, 0, e, h => by
    simp only [List.getElem?_cons_zero, Option.some.injEq] at h
    subst h; exact ⟨_, rfl, h1⟩
  | _, _, .cons h1 h2, n + 1, e, h => by
    simp only [List.getElem?_cons_succ] at h ⊢
    exact buildsAll_get h2 n e h

theorem buildsAll_length {L : SymPyLib} : ∀ {es : List Expr} {ss : List SExpr}, BuildsAll L es ss →
    es.length = ss.length
  | _, _, .nil => rfl
  | _, _, .cons _ h2 => by rw [List.length_cons, List.length_cons, buildsAll_length h2]

theorem buildsAll_of {L : SymPyLib} : ∀ (es : List Expr), (∀ e ∈ es, ∃ s, Builds L e s) →
    ∃ ss, BuildsAll L es ss
  | [], _ => ⟨[], .nil⟩
  | e :: es, h => by
    obtain ⟨s, hs⟩ := h e (by simp)
    obtain ⟨ss, hss⟩ := buildsAll_of es (fun e he => h e (by simp [he]))
    exact ⟨_, .cons hs hss⟩

theorem builds_list {L : SymPyLib} {es : List Expr} {s : SExpr} :
    Builds L (.node (listH :: es)) s ↔ ∃ ss, BuildsAll L es ss ∧ L.tuple ss = .ok s := by
  constructor
  · generalize hh : listH = h
    intro hb
    cases hb with
    | add => exact absurd hh (by decide)
    | mul => exact absurd hh (by decide)
    | pow => exact absurd hh (by decide)
    | sin => exact absurd hh (by decide)
    | cos => exact absurd hh (by decide)
    | list h1 h2 => exact ⟨_, h1, h2⟩
    | call hk => exact absurd (by simp [IsKnown, ← hh]) hk
  · rintro ⟨ss, h1, h2⟩
    exact .list h1 h2

theorem toSympyMatrixLoop_spec (els : List SExpr) : ∀ (items : List ((Nat × Nat) × Nat)) (m : SMat),
    (items.map Prod.fst).Nodup →
    (∀ i j n, ((i, j), n) ∈ items → i < m.rows ∧ j < m.cols ∧ n < els.length) →
    ∃ m', toSympyMatrixLoop els items m = .ok m' ∧ m'.rows = m.rows ∧ m'.cols = m.cols ∧
      (∀ k n, (k, n) ∈ items → m'.entries.get? k = els[n]?) ∧
      (∀ k, k ∉ items.map Prod.fst → m'.entries.get? k = m.entries.get? k)
  | [], m, _, _ => ⟨m, rfl, rfl, rfl, (by simp), (by simp)⟩
  | (k, n) :: items, m, hnd, hin => by
    obtain ⟨i, j⟩ := k
    obtain ⟨h1, h2, h3⟩ := hin i j n (by simp)
    simp only [List.map_cons, List.nodup_cons] at hnd
    have hset : m.setItem (i, j) els[n] = .ok { m with entries := m.entries.set (i, j) els[n] } := by
      unfold SMat.setItem; rw [if_pos ⟨h1, h2⟩]
    obtain ⟨m', e1, e2, e3, e4, e5⟩ := toSympyMatrixLoop_spec els items
      { m with entries := m.entries.set (i, j) els[n] } hnd.2
      (fun i j n h => hin i j n (by simp [h]))
    refine ⟨m', ?_, e2, e3, ?_, ?_⟩
    · unfold toSympyMatrixLoop
      rw [pyGet_ok (List.getElem?_eq_getElem h3)]
      show (do let m ← m.setItem (i, j) els[n]; toSympyMatrixLoop els items m) = _
      rw [hset]; exact e1
    · intro k' n' hm
      rcases List.mem_cons.1 hm with hm | hm
      · cases hm
        rw [e5 _ hnd.1, List.getElem?_eq_getElem h3]
        exact Dict.get?_set_self _ _ _
      · exact e4 k' n' hm
    · intro k' hk'
      simp only [List.map_cons, List.mem_cons, not_or] at hk'
      rw [e5 _ hk'.2]
      exact Dict.get?_set_ne _ _ (fun h => hk'.1 h.symm)

theorem toSympyMatrix_ok {L : SymPyLib} (ht : ∀ l, L.tuple l = .ok (.app .tuple l)) {m : Mat}
    (hw : MatWF m) {ss : List SExpr} (hb : BuildsAll L m.elements ss) :
    ∃ sm, toSympyMatrix L m = .ok sm ∧ sm.rows = m.nrows ∧ sm.cols = m.ncols ∧
      ∀ k, sm.entries.get? k = (m.entrymap.get? k).bind (fun n => ss[n]?) := by
  have hg : toSympy L m.elementsGraph = .ok (.app .tuple ss) := by
    rw [C43_to_sympy, hw.graph, builds_list]
    exact ⟨ss, hb, ht ss⟩
  have hmem := Dict.mem_items_iff m.entrymap hw.store.nodup
  obtain ⟨sm, e1, e2, e3, e4, e5⟩ := toSympyMatrixLoop_spec ss m.entrymap.items
    ⟨m.nrows, m.ncols, Dict.empty⟩ hw.store.nodup (by
      intro i j n h
      have h := (hmem (i, j) n).1 h
      obtain ⟨h1, h2⟩ := hw.inside i j (by rw [Stores, h]; rfl)
      exact ⟨h1, h2, by rw [← buildsAll_length hb]; exact hw.store.bound _ _ h⟩)
  refine ⟨sm, ?_, e2, e3, ?_⟩
  · unfold toSympyMatrix
    rw [hg]; exact e1
  · intro k
    cases hk : m.entrymap.get? k with
    | none =>
      rw [e5 k]
      · rfl
      · intro hm
        obtain ⟨⟨k', n⟩, hm', rfl⟩ := List.mem_map.1 hm
        rw [(hmem k' n).1 hm'] at hk; cases hk
    | some n => exact e4 k n ((hmem k n).2 hk)

/-- **C44, `to_sympy`.**  For every matrix a program can make, whatever the other constructors of
SymPy do: `M.to_sympy()` returns if and only if every entry can be converted, and then the result
has the shape of `M` and its entries are the entries of `M` converted. -/
theorem C44_to_sympy (L : SymPyLib) (ht : ∀ l, L.tuple l = .ok (.app .tuple l))
    (h0 : L.integer 0 = .ok (.int 0)) (m : Mat) (hm : MatHistory m) :
    ((∃ sm, toSympyMatrix L m = .ok sm) ↔
      ∀ i j : Nat, i < m.nrows → j < m.ncols → ∃ e s, m.getItem (.pair i j) = .ok e ∧
        toSympy L e = .ok s) ∧
    ∀ sm, toSympyMatrix L m = .ok sm → sm.rows = m.nrows ∧ sm.cols = m.ncols ∧
      ∀ i j : Nat, i < m.nrows → j < m.ncols → ∃ e, m.getItem (.pair i j) = .ok e ∧
        toSympy L e = .ok (sm.get i j) := by
  have hw := history_wf hm
  have key : ∀ sm, toSympyMatrix L m = .ok sm → sm.rows = m.nrows ∧ sm.cols = m.ncols ∧
      ∀ i j : Nat, i < m.nrows → j < m.ncols → ∃ e, m.getItem (.pair i j) = .ok e ∧
        toSympy L e = .ok (sm.get i j) := by
    intro sm h
    have h' := h
    unfold toSympyMatrix at h'
    cases hg : toSympy L m.elementsGraph with
    | error err => rw [hg] at h'; cases h'
    | ok g =>
      rw [C43_to_sympy, hw.graph, builds_list] at hg
      obtain ⟨ss, hb, _⟩ := hg
      obtain ⟨sm', e1, e2, e3, e4⟩ := toSympyMatrix_ok ht hw hb
      rw [h] at e1
      obtain rfl := Except.ok.inj e1
      refine ⟨e2, e3, fun i j hi hj => ⟨_, hw.getItem i j hi hj, ?_⟩⟩
      rw [C43_to_sympy]
      unfold SMat.get
      rw [e4]
      cases hk : m.entrymap.get? (i, j) with
      | none => simp only [Mat.entry, entry, hk, Option.bind_none, Option.getD_none]; exact .int h0
      | some n =>
        obtain ⟨e, he, hent⟩ := entry_of_get hw.store hk
        obtain ⟨s, hs, hbs⟩ := buildsAll_get hb n e he
        simp only [Mat.entry, hent, Option.bind_some, hs, Option.getD_some]
        exact hbs
  refine ⟨⟨?_, ?_⟩, key⟩
  · rintro ⟨sm, h⟩ i j hi hj
    obtain ⟨_, _, h3⟩ := key sm h
    obtain ⟨e, h4, h5⟩ := h3 i j hi hj
    exact ⟨e, _, h4, h5⟩
  · intro h
    obtain ⟨ss, hb⟩ := buildsAll_of (L := L) m.elements (by
      intro e he
      obtain ⟨n, hn⟩ := List.getElem?_of_mem he
      have hlt : n < m.elements.length := by
        rcases Nat.lt_or_ge n m.elements.length with h | h
        · exact h
        · rw [List.getElem?_eq_none h] at hn; cases hn
      obtain ⟨⟨i, j⟩, hk⟩ := hw.store.surj n hlt
      obtain ⟨hi, hj⟩ := hw.inside i j (by rw [Stores, hk]; rfl)
      obtain ⟨e', s, h1, h2⟩ := h i j hi hj
      obtain ⟨e'', he'', hent⟩ := entry_of_get hw.store hk
      rw [hn] at he''
      obtain rfl := Option.some.inj he''
      rw [hw.getItem i j hi hj, Mat.entry, hent] at h1
      obtain rfl := Except.ok.inj h1
      exact ⟨s, (C43_to_sympy _ _ _).1 h2⟩)
    obtain ⟨sm, e1, _⟩ := toSympyMatrix_ok ht hw hb
    exact ⟨sm, e1⟩

theorem convertsAll_of : ∀ (ss : List SExpr), (∀ s ∈ ss, ∃ e, Converts s e) →
    ∃ es, ConvertsAll ss es
  | [], _ => ⟨[], .nil⟩
  | s :: ss, h => by
    obtain ⟨e, he⟩ := h s (by simp)
    obtain ⟨es, hes⟩ := convertsAll_of ss (fun s hs => h s (by simp [hs]))
    exact ⟨_, .cons he hes⟩

/-- **C44, `from_sympy`.**  For every SymPy matrix with an entry that is not 0, in whatever order
`todok` lists the entries: `Matrix.from_sympy(S)` returns if and only if every entry can be
converted, and then the result has the shape of `S` and its entries are the entries of `S`
converted. -/
theorem C44_from_sympy (L : SymPyLib) (ht : ∀ l, L.tuple l = .ok (.app .tuple l)) (sm : SMat)
    (dok : List ((Nat × Nat) × SExpr)) (hd : IsDok sm dok)
    (hne : ∃ i j, i < sm.rows ∧ j < sm.cols ∧ sm.get i j ≠ .int 0) :
    ((∃ m, fromSympyMatrix L sm.rows sm.cols dok = .ok m) ↔
      ∀ i j, i < sm.rows → j < sm.cols → ∃ e, fromSympy (sm.get i j) = .ok e) ∧
    ∀ m, fromSympyMatrix L sm.rows sm.cols dok = .ok m → MatHistory m ∧
      m.nrows = sm.rows ∧ m.ncols = sm.cols ∧
      ∀ i j : Nat, i < sm.rows → j < sm.cols → ∃ e, m.getItem (.pair i j) = .ok e ∧
        fromSympy (sm.get i j) = .ok e := by
  have key : ∀ m, fromSympyMatrix L sm.rows sm.cols dok = .ok m → MatHistory m ∧
      m.nrows = sm.rows ∧ m.ncols = sm.cols ∧
      ∀ i j : Nat, i < sm.rows → j < sm.cols → ∃ e, m.getItem (.pair i j) = .ok e ∧
        fromSympy (sm.get i j) = .ok e := by
    intro m h
    obtain ⟨hw, h1, h2, h3⟩ := fromSympyMatrix_wf ht hd h
    refine ⟨.sympy ht hd h, h1, h2, fun i j hi hj => ⟨_, hw.getItem i j (h1 ▸ hi) (h2 ▸ hj), ?_⟩⟩
    rw [C43_from_sympy]
    exact h3 i j hi hj
  refine ⟨⟨?_, ?_⟩, key⟩
  · rintro ⟨m, h⟩ i j hi hj
    obtain ⟨e, _, he⟩ := (key m h).2.2.2 i j hi hj
    exact ⟨e, he⟩
  · intro h
    obtain ⟨es, hes⟩ := convertsAll_of (dok.map Prod.snd) (by
      intro s hs
      obtain ⟨⟨⟨i, j⟩, v⟩, hm, rfl⟩ := List.mem_map.1 hs
      obtain ⟨hi, hj, hv, _⟩ := (hd.mem i j v).1 hm
      obtain ⟨e, he⟩ := h i j hi hj
      rw [hv, C43_from_sympy] at he
      exact ⟨e, he⟩)
    have hdne : dok.map Prod.snd ≠ [] := by
      obtain ⟨i, j, hi, hj, hz⟩ := hne
      have := (hd.mem i j _).2 ⟨hi, hj, rfl, hz⟩
      intro h0
      rw [List.map_eq_nil_iff] at h0
      rw [h0] at this; cases this
    have hels := fromSympyMatrixLoop_els dok 0 Dict.empty []
    unfold fromSympyMatrix
    cases hl : fromSympyMatrixLoop 0 dok (Dict.empty, []) with
    | mk em els =>
    rw [hl] at hels
    simp only [List.nil_append] at hels
    subst hels
    refine ⟨Mat.mk' sm.rows sm.cols es em, ?_⟩
    simp only [ht]
    show (do let e ← fromSympy (.app .tuple (dok.map Prod.snd))
             pure (Mat.mk' sm.rows sm.cols e.args em)) = _
    rw [(C43_from_sympy _ _).2 (.tuple hdne hes)]
    rfl

/-- **C44, round trip.**  For every matrix a program can make, with entries that survive the
conversion and of which at least one is not 0: `Matrix.from_sympy(M.to_sympy())` has the same shape
and the same entries, in whatever order SymPy lists them. -/
theorem C44_round_trip (L : SymPyLib) (ht : ∀ l, L.tuple l = .ok (.app .tuple l))
    (h0 : L.integer 0 = .ok (.int 0)) (m : Mat) (hm : MatHistory m)
    (hent : ∀ (i j : Nat) e, i < m.nrows → j < m.ncols → m.getItem (.pair i j) = .ok e →
      ∃ s, Mirrors s e ∧ Stable L s)
    (hne : ∃ i j : Nat, i < m.nrows ∧ j < m.ncols ∧ m.getItem (.pair i j) ≠ .ok zero) :
    ∃ sm, toSympyMatrix L m = .ok sm ∧ ∀ dok, IsDok sm dok →
      ∃ m', fromSympyMatrix L sm.rows sm.cols dok = .ok m' ∧ m'.nrows = m.nrows ∧
        m'.ncols = m.ncols ∧
        ∀ i j : Nat, i < m.nrows → j < m.ncols → m'.getItem (.pair i j) = m.getItem (.pair i j) := by
  have hw := history_wf hm
  obtain ⟨h1, h2⟩ := C44_to_sympy L ht h0 m hm
  obtain ⟨sm, hsm⟩ := h1.2 (by
    intro i j hi hj
    obtain ⟨s, hs, hst⟩ := hent i j _ hi hj (hw.getItem i j hi hj)
    exact ⟨_, s, hw.getItem i j hi hj, (C43_to_sympy _ _ _).2 (mirrors_builds hs.1 hs.2 hst)⟩)
  obtain ⟨hr, hc, hget⟩ := h2 sm hsm
  have hconv : ∀ i j : Nat, i < m.nrows → j < m.ncols → ∃ e, m.getItem (.pair i j) = .ok e ∧
      fromSympy (sm.get i j) = .ok e := by
    intro i j hi hj
    obtain ⟨e, he, hto⟩ := hget i j hi hj
    obtain ⟨s, hs, hst⟩ := hent i j e hi hj he
    rw [(C43_to_sympy _ _ _).2 (mirrors_builds hs.1 hs.2 hst)] at hto
    obtain rfl := Except.ok.inj hto
    exact ⟨e, he, (C43_from_sympy _ _).2 hs.2⟩
  refine ⟨sm, hsm, fun dok hd => ?_⟩
  obtain ⟨g1, g2⟩ := C44_from_sympy L ht sm dok hd (by
    obtain ⟨i, j, hi, hj, hz⟩ := hne
    refine ⟨i, j, hr ▸ hi, hc ▸ hj, fun h => hz ?_⟩
    obtain ⟨e, he, hfrom⟩ := hconv i j hi hj
    rw [h, show fromSympy (.int 0) = .ok zero from by decide] at hfrom
    rw [he, ← Except.ok.inj hfrom])
  obtain ⟨m', hm'⟩ := g1.2 (fun i j hi hj => by
    obtain ⟨e, _, he⟩ := hconv i j (hr ▸ hi) (hc ▸ hj)
    exact ⟨e, he⟩)
  obtain ⟨_, k1, k2, k3⟩ := g2 m' hm'
  refine ⟨m', hm', k1.trans hr, k2.trans hc, fun i j hi hj => ?_⟩
  obtain ⟨e, he, hf⟩ := hconv i j hi hj
  obtain ⟨e', he', hf'⟩ := k3 i j (hr ▸ hi) (hc ▸ hj)
  rw [hf] at hf'
  rw [he', he, Except.ok.inj hf']

/-- `Matrix([[0, x]])` meets the hypotheses. -/
example : ∃ m, Mat.new (.list [.list [.int 0, .expr x]]) = .ok m ∧ MatHistory m ∧
    (∀ (i j : Nat) e, i < m.nrows → j < m.ncols → m.getItem (.pair i j) = .ok e →
      ∃ s, Mirrors s e ∧ Stable inertLib s) ∧
    (∃ i j : Nat, i < m.nrows ∧ j < m.ncols ∧ m.getItem (.pair i j) ≠ .ok zero) := by
  have hm : Mat.new (.list [.list [.int 0, .expr x]]) =
    .ok (Mat.mk' 1 2 [x] ⟨[((0, 1), 0)]⟩) := by decide
  refine ⟨_, hm, .new hm, ?_, 0, 1, by decide, by decide, by decide⟩
  intro i j e hi hj h
  obtain rfl : i = 0 := by simp only [Mat.mk'] at hi; omega
  rcases (by simp only [Mat.mk'] at hj; omega : j = 0 ∨ j = 1) with rfl | rfl
  · obtain rfl := Except.ok.inj h
    exact ⟨.int 0, ⟨.int, .int⟩, inert_stable .int⟩
  · obtain rfl := Except.ok.inj h
    exact ⟨.sym "x" 0, ⟨.sym, .sym⟩, inert_stable .sym⟩

/-- **C44, limits.**  A matrix of zeros goes to SymPy but cannot come back:
`Matrix.from_sympy` raises `NotImplementedError` for every SymPy matrix of zeros, because
`Tuple()` has no arguments. -/
theorem C44_zero_matrix_false (L : SymPyLib) (ht : L.tuple [] = .ok (.app .tuple []))
    (rows cols : Nat) : fromSympyMatrix L rows cols [] = .error .notImplementedError := by
  unfold fromSympyMatrix fromSympyMatrixLoop
  simp only [ht]
  rfl

/-- `Matrix([[0, x], [2, 0]])` there and back, listed in the other order; and `Matrix([[0]])`. -/
example : ∃ m m' sm z sz, Mat.new (.list [.list [.int 0, .expr x], .list [.int 2, .int 0]]) = .ok m ∧
    toSympyMatrix inertLib m = .ok sm ∧
    sm.get 0 1 = .sym "x" 0 ∧ sm.get 1 0 = .int 2 ∧ sm.get 1 1 = .int 0 ∧
    fromSympyMatrix inertLib 2 2 [((1, 0), .int 2), ((0, 1), .sym "x" 0)] = .ok m' ∧
    m'.tolist = m.tolist ∧ m' ≠ m ∧
    Mat.new (.list [.list [.int 0]]) = .ok z ∧ toSympyMatrix inertLib z = .ok sz ∧
    sz.get 0 0 = .int 0 := by
  refine ⟨Mat.mk' 2 2 [x, integer 2] ⟨[((0, 1), 0), ((1, 0), 1)]⟩,
    Mat.mk' 2 2 [integer 2, x] ⟨[((1, 0), 0), ((0, 1), 1)]⟩,
    ⟨2, 2, ⟨[((0, 1), .sym "x" 0), ((1, 0), .int 2)]⟩⟩, Mat.mk' 1 1 [] ⟨[]⟩, ⟨1, 1, ⟨[]⟩⟩,
    by decide, ?_, rfl, rfl, rfl, by decide, by decide, by decide, by decide, ?_, rfl⟩
  · have h : toSympy inertLib (Mat.mk' 2 2 [x, integer 2]
        ⟨[((0, 1), 0), ((1, 0), 1)]⟩).elementsGraph = .ok (.app .tuple [.sym "x" 0, .int 2]) :=
      (C43_to_sympy inertLib _ _).2 (.list (.cons (.sym rfl) (.cons (.int rfl) .nil)) rfl)
    unfold toSympyMatrix
    rw [h]; rfl
  · have h : toSympy inertLib (Mat.mk' 1 1 [] ⟨[]⟩).elementsGraph = .ok (.app .tuple []) :=
      (C43_to_sympy inertLib _ _).2 (.list .nil rfl)
    unfold toSympyMatrix
    rw [h]; rfl

end Verif.Props
