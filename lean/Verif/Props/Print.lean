import Verif.Spec.Print
import Verif.Lemmas.Rules
import Verif.Lemmas.LLVM
import Verif.Props.Eval
import Verif.Props.Arith

/-!
# C46: printing
-/

set_option linter.unusedSectionVars false
set_option linter.unusedSimpArgs false

namespace Verif.Props
open Spec Expr

/-! ### `str` of a head -/

mutual
theorem treeStr_shows {s : String} : ∀ e : Expr, treeStr e = .ok s → Shows e s
  | .atom a, h => by cases h; exact .atom
  | .node [], h => by cases h
  | .node (hd :: args), h => by
    unfold treeStr at h
    cases h1 : treeStrList args with
    | error err => rw [h1] at h; cases h
    | ok ss =>
      cases h2 : treeStr hd with
      | error err => rw [h1, h2] at h; cases h
      | ok t =>
        rw [h1, h2] at h
        obtain rfl := Except.ok.inj h
        exact .node (treeStr_shows hd h2) (treeStrList_shows args h1)
theorem treeStrList_shows {ss : List String} : ∀ es : List Expr, treeStrList es = .ok ss →
    ShowsAll es ss
  | [], h => by cases h; exact .nil
  | e :: es, h => by
    unfold treeStrList at h
    cases h1 : treeStr e with
    | error err => rw [h1] at h; cases h
    | ok t =>
      cases h2 : treeStrList es with
      | error err => rw [h1, h2] at h; cases h
      | ok ts =>
        rw [h1, h2] at h
        obtain rfl := Except.ok.inj h
        exact .cons (treeStr_shows e h1) (treeStrList_shows es h2)
end

mutual
theorem shows_treeStr {e : Expr} {s : String} : Shows e s → treeStr e = .ok s
  | .atom => rfl
  | .node h1 h2 => by
    unfold treeStr
    rw [shows_treeStr h1, showsAll_treeStr h2]
    rfl
theorem showsAll_treeStr {es : List Expr} {ss : List String} : ShowsAll es ss →
    treeStrList es = .ok ss
  | .nil => rfl
  | .cons h1 h2 => by
    unfold treeStrList
    rw [shows_treeStr h1, showsAll_treeStr h2]
    rfl
end

/-- `str` of a head returns the plain form. -/
theorem treeStr_iff {e : Expr} {s : String} : treeStr e = .ok s ↔ Shows e s :=
  ⟨treeStr_shows e, shows_treeStr⟩

theorem reprCall_ok {h : Expr} {ss : List String} {s : String} :
    reprCall h ss = .ok s ↔ ∃ t, Shows h t ∧ s = t ++ "(" ++ String.intercalate ", " ss ++ ")" := by
  unfold reprCall
  cases h1 : treeStr h with
  | error err =>
    constructor
    · intro h'; cases h'
    · rintro ⟨t, ht, _⟩
      rw [shows_treeStr ht] at h1; cases h1
  | ok t =>
    constructor
    · intro h'
      obtain rfl := Except.ok.inj h'
      exact ⟨t, treeStr_iff.1 h1, rfl⟩
    · rintro ⟨t', ht, rfl⟩
      rw [shows_treeStr ht] at h1
      obtain rfl := Except.ok.inj h1
      rfl

/-! ### The rules -/

/-- The meaning of evaluating with a style. -/
def styleMeaning (st : Style) [∀ ty, Decidable (st.atoms ty)] : Meaning Val String where
  leaf
    | .atom a => if st.atoms a.atomType then .ok (valStr a.value) else .error .noEvaluationRule
    | .node _ => .error .attributeError
  op h ss :=
    if h = addH then .ok ("(" ++ String.intercalate st.plus ss ++ ")")
    else if h = mulH then .ok ("(" ++ String.intercalate st.times ss ++ ")")
    else if h = powH then arity2 (fun b e => .ok (st.power b e)) ss
    else match st.named h with
      | some name => arity1 (fun a => .ok (name ++ "(" ++ a ++ ")")) ss
      | none => reprCall h ss

instance (ty : AtomType) : Decidable (reprStyle.atoms ty) := inferInstanceAs (Decidable True)
instance (ty : AtomType) : Decidable (latexStyle.atoms ty) :=
  inferInstanceAs (Decidable (ty = Ty.integer ∨ ty = Ty.symbol ∨ ty = Ty.function))

theorem repr_meaning : meaning evalRepr (fun _ => none) = styleMeaning reprStyle := by
  unfold meaning styleMeaning
  congr 1
  · funext t
    cases t with
    | node cs => rfl
    | atom a =>
      obtain ⟨ty, v⟩ := a
      simp only [meaning.rule, evalRepr_eq, Dict.get?, Dict.lookup, reprStyle, if_true]
      by_cases h1 : Ty.integer = ty
      · simp only [h1, if_true]; rfl
      by_cases h2 : Ty.symbol = ty
      · simp only [h1, h2, if_true, if_false]; rfl
      by_cases h3 : Ty.function = ty
      · simp only [h1, h2, h3, if_true, if_false]; rfl
      simp only [h1, h2, h3, if_false]
      rfl
  · funext h ss
    simp only [evalRepr_eq, Dict.get?, Dict.lookup, reprStyle]
    simp only [eq_comm (a := h)]
    by_cases h1 : addH = h
    · simp only [h1, if_true]
    by_cases h2 : mulH = h
    · simp only [h1, h2, if_true, if_false]
    by_cases h3 : powH = h
    · simp only [h1, h2, h3, if_true, if_false]
    simp only [h1, h2, h3, if_false]

theorem latex_meaning : meaning evalLatex (fun _ => none) = styleMeaning latexStyle := by
  unfold meaning styleMeaning
  congr 1
  · funext t
    cases t with
    | node cs => rfl
    | atom a =>
      obtain ⟨ty, v⟩ := a
      simp only [meaning.rule, evalLatex_eq, Dict.get?, Dict.lookup, latexStyle]
      by_cases h1 : Ty.integer = ty
      · simp [h1]
      by_cases h2 : Ty.symbol = ty
      · simp [h1, h2]
      by_cases h3 : Ty.function = ty
      · simp [h1, h2, h3]
      have h4 : ¬ latexStyle.atoms ty := by
        rintro (h | h | h)
        · exact h1 h.symm
        · exact h2 h.symm
        · exact h3 h.symm
      rw [if_neg h1, if_neg h2, if_neg h3]
      exact (if_neg h4).symm
  · funext h ss
    simp only [evalLatex_eq, Dict.get?, Dict.lookup, latexStyle]
    simp only [eq_comm (a := h)]
    by_cases h1 : addH = h
    · simp only [h1, if_true]
    by_cases h2 : mulH = h
    · simp only [h1, h2, if_true, if_false]
    by_cases h3 : powH = h
    · simp only [h1, h2, h3, if_true, if_false]
    by_cases h4 : sinH = h
    · simp only [h1, h2, h3, h4, if_true, if_false]
      rfl
    by_cases h5 : cosH = h
    · simp only [h1, h2, h3, h4, h5, if_true, if_false]
      rfl
    simp only [h1, h2, h3, h4, h5, if_false]

section
variable {st : Style} [∀ ty, Decidable (st.atoms ty)]
  (hst : ∀ h, st.named h ≠ none → h ≠ addH ∧ h ≠ mulH ∧ h ≠ powH)
include hst

mutual
theorem prints_evaluates {e : Expr} {s : String} : Prints st e s → Evaluates (styleMeaning st) e s
  | .atom h => .leaf rfl (by simp [styleMeaning, h])
  | .add h => .op (printsAll_evaluates h) (by simp [styleMeaning])
  | .mul h => .op (printsAll_evaluates h) (by simp [styleMeaning, heads_distinct.1.symm])
  | .pow h1 h2 => .op (.cons (prints_evaluates h1) (.cons (prints_evaluates h2) .nil))
      (by simp [styleMeaning, heads_distinct.2.1, heads_distinct.2.2.1, arity2])
  | .named hn h => .op (.cons (prints_evaluates h) .nil) (by
      obtain ⟨h1, h2, h3⟩ := hst _ (by rw [hn]; simp)
      simp [styleMeaning, h1, h2, h3, hn, arity1])
  | .call h1 h2 h3 hn hs h => .op (printsAll_evaluates h) (by
      simp [styleMeaning, h1, h2, h3, hn]
      exact reprCall_ok.2 ⟨_, hs, rfl⟩)
theorem printsAll_evaluates {es : List Expr} {ss : List String} : PrintsAll st es ss →
    EvaluatesAll (styleMeaning st) es ss
  | .nil => .nil
  | .cons h1 h2 => .cons (prints_evaluates h1) (printsAll_evaluates h2)
end

omit hst in
mutual
theorem evaluates_prints {e : Expr} {s : String} : Evaluates (styleMeaning st) e s → Prints st e s
  | .leaf (t := t) hc h => by
    cases t with
    | node cs => cases h
    | atom a =>
      simp only [styleMeaning] at h
      split at h
      · rename_i ha
        obtain rfl := Except.ok.inj h
        exact .atom ha
      · cases h
  | .op (h := h) (args := args) (vs := vs) hargs hop => by
    have ih := evaluatesAll_prints hargs
    simp only [styleMeaning] at hop
    by_cases h1 : h = addH
    · subst h1
      simp only [if_true] at hop
      obtain rfl := Except.ok.inj hop
      exact .add ih
    by_cases h2 : h = mulH
    · subst h2
      simp only [h1, if_true, if_false] at hop
      obtain rfl := Except.ok.inj hop
      exact .mul ih
    by_cases h3 : h = powH
    · subst h3
      simp only [h1, h2, if_true, if_false] at hop
      match vs, ih, hop with
      | [a, b], .cons ha (.cons hb .nil), hop =>
        obtain rfl := Except.ok.inj hop
        exact .pow ha hb
      | [], _, hop => cases hop
      | [_], _, hop => cases hop
      | _ :: _ :: _ :: _, _, hop => cases hop
    simp only [h1, h2, h3, if_false] at hop
    cases hn : st.named h with
    | none =>
      rw [hn] at hop
      obtain ⟨t, ht, rfl⟩ := reprCall_ok.1 hop
      exact .call h1 h2 h3 hn ht ih
    | some name =>
      rw [hn] at hop
      match vs, ih, hop with
      | [a], .cons ha .nil, hop =>
        obtain rfl := Except.ok.inj hop
        exact .named hn ha
      | [], _, hop => cases hop
      | _ :: _ :: _, _, hop => cases hop
theorem evaluatesAll_prints {es : List Expr} {ss : List String} :
    EvaluatesAll (styleMeaning st) es ss → PrintsAll st es ss
  | .nil => .nil
  | .cons h1 h2 => .cons (evaluates_prints h1) (evaluatesAll_prints h2)
end
end

theorem reprStyle_named : ∀ h, reprStyle.named h ≠ none → h ≠ addH ∧ h ≠ mulH ∧ h ≠ powH := by
  intro h hn; exact absurd rfl hn

theorem latexStyle_named : ∀ h, latexStyle.named h ≠ none → h ≠ addH ∧ h ≠ mulH ∧ h ≠ powH := by
  intro h hn
  simp only [latexStyle] at hn
  split at hn
  · rename_i h1; subst h1; decide
  · split at hn
    · rename_i h1; subst h1; decide
    · exact absurd rfl hn

/-- **C46, text.**  `repr(e)` (and `str(e)`) returns exactly the text built from the texts of the
arguments. -/
theorem C46_repr (e : Expr) (s : String) : e.repr = .ok s ↔ Prints reprStyle e s := by
  show evalRepr.call e none = .ok s ↔ _
  rw [C14_no_values, repr_meaning]
  exact ⟨evaluates_prints, prints_evaluates reprStyle_named⟩

/-- **C46, LaTeX text.** -/
theorem C46_latex (e : Expr) (s : String) : e.latex = .ok s ↔ Prints latexStyle e s := by
  show evalLatex.call e none = .ok s ↔ _
  rw [C14_no_values, latex_meaning]
  exact ⟨evaluates_prints, prints_evaluates latexStyle_named⟩

/-! ### When printing returns -/

theorem proper_child {h : Expr} {args : List Expr} (hp : Proper (.node (h :: args))) :
    ∀ c ∈ h :: args, Proper c := fun c hc hr => hp (Reach.down (by simp) (by simpa [kids] using hc) hr)

/-- Going down through arguments is going down. -/
theorem argSub_reach {e t : Expr} (h : ArgSub e t) : Reach true (fun _ => False) e t := by
  induction h with
  | refl h => exact .refl h
  | @down e c t h1 h2 h3 ih =>
    refine .down h1 ?_ ih
    cases e with
    | atom a => cases h2
    | node cs =>
      cases cs with
      | nil => cases h2
      | cons h args =>
        simp only [kids, Bool.false_eq_true, if_false, if_true, List.mem_cons] at h2 ⊢
        exact Or.inr h2

theorem proper_noDeg {e : Expr} (hp : Proper e) : ¬ ArgSub e (.node []) := fun h =>
  hp (argSub_reach h)

/-- Every proper expression has a plain form. -/
theorem shows_total (e : Expr) : Proper e → ∃ s, Shows e s := by
  induction e using Tree.induction with
  | _ e ih =>
  intro hp
  cases e with
  | atom a => exact ⟨_, .atom⟩
  | node cs =>
    cases cs with
    | nil => exact absurd (Reach.refl (by simp)) hp
    | cons h args =>
      have hall : ∀ l : List Expr, (∀ c ∈ l, c ∈ args) → ∃ ss, ShowsAll l ss := by
        intro l
        induction l with
        | nil => intro _; exact ⟨_, .nil⟩
        | cons c l ihl =>
          intro hm
          obtain ⟨ss, hss⟩ := ihl (fun c hc => hm c (by simp [hc]))
          have hc := hm c (by simp)
          obtain ⟨s, hs⟩ := ih c (by simp [Tree.children, hc]) (proper_child hp c (by simp [hc]))
          exact ⟨_, .cons hs hss⟩
      obtain ⟨ss, hss⟩ := hall args (fun c hc => hc)
      obtain ⟨s, hs⟩ := ih h (by simp [Tree.children]) (proper_child hp h (by simp))
      exact ⟨_, .node hs hss⟩

theorem _root_.Verif.Spec.Printable.child {st : Style} {h : Expr} {args : List Expr}
    (hp : Printable st (.node (h :: args))) : ∀ c ∈ args, Printable st c := fun c hc =>
  ⟨fun a ha => hp.atoms a (argSub_node.2 (Or.inr ⟨c, hc, ha⟩)),
   fun as ha => hp.pow as (argSub_node.2 (Or.inr ⟨c, hc, ha⟩)),
   fun h as ha => hp.named h as (argSub_node.2 (Or.inr ⟨c, hc, ha⟩))⟩

theorem prints_total {st : Style} (e : Expr) : Proper e → Printable st e → ∃ s, Prints st e s := by
  induction e using Tree.induction with
  | _ e ih =>
  intro hp hr
  cases e with
  | atom a => exact ⟨_, .atom (hr.atoms a (Reach.refl (by simp)))⟩
  | node cs =>
    cases cs with
    | nil => exact absurd (Reach.refl (by simp)) hp
    | cons h args =>
      have hall : ∀ l : List Expr, (∀ c ∈ l, c ∈ args) → ∃ ss, PrintsAll st l ss := by
        intro l
        induction l with
        | nil => intro _; exact ⟨_, .nil⟩
        | cons c l ihl =>
          intro hm
          obtain ⟨ss, hss⟩ := ihl (fun c hc => hm c (by simp [hc]))
          have hc := hm c (by simp)
          obtain ⟨s, hs⟩ := ih c (by simp [Tree.children, hc]) (proper_child hp c (by simp [hc]))
            (hr.child c hc)
          exact ⟨_, .cons hs hss⟩
      obtain ⟨ss, hss⟩ := hall args (fun c hc => hc)
      have hself : ArgSub (.node (h :: args)) (.node (h :: args)) := Reach.refl (by simp)
      by_cases h1 : h = addH
      · subst h1; exact ⟨_, .add hss⟩
      by_cases h2 : h = mulH
      · subst h2; exact ⟨_, .mul hss⟩
      by_cases h3 : h = powH
      · subst h3
        have := hr.pow args hself
        match args, this, hss with
        | [b, e], _, .cons hb (.cons he .nil) => exact ⟨_, .pow hb he⟩
      cases hn : st.named h with
      | some name =>
        have := hr.named h args hself (by rw [hn]; simp)
        match args, this, hss with
        | [a], _, .cons ha .nil => exact ⟨_, .named hn ha⟩
      | none =>
        obtain ⟨s, hs⟩ := shows_total h (proper_child hp h (by simp))
        exact ⟨_, .call h1 h2 h3 hn hs hss⟩

theorem printable_node {st : Style} {h : Expr} {args : List Expr}
    (ih : ∀ c ∈ args, Printable st c) (hpow : h = powH → args.length = 2)
    (hnamed : st.named h ≠ none → args.length = 1) : Printable st (.node (h :: args)) := by
  constructor
  · intro a ha
    rcases argSub_node.1 ha with h' | ⟨c, hc, hs⟩
    · cases h'
    · exact (ih c hc).atoms a hs
  · intro as ha
    rcases argSub_node.1 ha with h' | ⟨c, hc, hs⟩
    · cases h'; exact hpow rfl
    · exact (ih c hc).pow as hs
  · intro h' as ha hn
    rcases argSub_node.1 ha with he | ⟨c, hc, hs⟩
    · cases he; exact hnamed hn
    · exact (ih c hc).named h' as hs hn

section
variable {st : Style} (hst : ∀ h, st.named h ≠ none → h ≠ addH ∧ h ≠ mulH ∧ h ≠ powH)
include hst
mutual
theorem prints_printable {e : Expr} {s : String} : Prints st e s → Printable st e
  | .atom h => by
    constructor
    · intro a ha
      cases ha with
      | refl => exact h
      | down _ hc _ => cases hc
    · intro _ ha
      cases ha with
      | down _ hc _ => cases hc
    · intro _ _ ha
      cases ha with
      | down _ hc _ => cases hc
  | .add h => by
    have ih := printsAll_printable h
    refine printable_node ih (fun h' => absurd h'.symm heads_distinct.2.1)
      (fun h' => absurd rfl (hst _ h').1)
  | .mul h => by
    have ih := printsAll_printable h
    refine printable_node ih (fun h' => absurd h'.symm heads_distinct.2.2.1)
      (fun h' => absurd rfl (hst _ h').2.1)
  | .pow h1 h2 => by
    have i1 := prints_printable h1
    have i2 := prints_printable h2
    refine printable_node ?_ (fun _ => rfl) (fun h' => absurd rfl (hst _ h').2.2)
    intro c hc
    simp only [List.mem_cons, List.not_mem_nil, or_false] at hc
    rcases hc with rfl | rfl
    · exact i1
    · exact i2
  | .named (h := h) (a := a) hn h1 => by
    have i1 := prints_printable h1
    refine printable_node ?_ (fun h' => absurd h' (hst _ (by rw [hn]; simp)).2.2) (fun _ => rfl)
    intro c hc
    simp only [List.mem_cons, List.not_mem_nil, or_false] at hc
    subst hc; exact i1
  | .call h1 h2 h3 hn _ h => by
    have ih := printsAll_printable h
    exact printable_node ih (fun h' => absurd h' h3) (fun h' => absurd hn h')
theorem printsAll_printable {es : List Expr} {ss : List String} : PrintsAll st es ss →
    ∀ c ∈ es, Printable st c
  | .nil => by intro c hc; cases hc
  | .cons h1 h2 => by
    have i1 := prints_printable h1
    have i2 := printsAll_printable h2
    intro c hc
    rcases List.mem_cons.1 hc with rfl | hc
    · exact i1
    · exact i2 c hc
end
end

/-- **C46, when `repr` returns.**  `repr(e)` returns exactly when every `pow` has two arguments;
otherwise it raises `TypeError`. -/
theorem C46_repr_returns (e : Expr) (hp : Proper e) :
    ((∃ s, e.repr = .ok s) ↔ ∀ args, ArgSub e (.node (powH :: args)) → args.length = 2) ∧
    ∀ err, e.repr = .error err → err = .typeError := by
  constructor
  · simp only [C46_repr]
    constructor
    · rintro ⟨s, hs⟩
      exact (prints_printable reprStyle_named hs).pow
    · intro h
      exact prints_total e hp ⟨fun _ _ => trivial, h, fun h _ _ hn => absurd rfl hn⟩
  · intro err herr
    obtain ⟨t, hs, ⟨h1, h2⟩ | ⟨h1, vs, h2, h3⟩⟩ := evalForward_error evalRepr e Dict.empty err herr
    · rw [show Dict.empty.get? = (fun _ => none : Expr → Option String) from rfl, repr_meaning] at h2
      cases t with
      | atom a => cases h2
      | node cs =>
        simp only [isLeaf, Tree.children, List.isEmpty_iff] at h1
        subst h1
        exact absurd hs (proper_noDeg hp)
    · rw [show Dict.empty.get? = (fun _ => none : Expr → Option String) from rfl, repr_meaning] at h3
      obtain ⟨h, args, rfl⟩ : ∃ h args, t = .node (h :: args) := by
        cases t with
        | atom a => cases h1
        | node cs =>
          cases cs with
          | nil => cases h1
          | cons h args => exact ⟨h, args, rfl⟩
      change (styleMeaning reprStyle).op h vs = .error err at h3
      have hph : Proper h := fun hr => hp (by
        have hreach := argSub_reach hs
        have : ∀ {a b c : Expr}, Reach true (fun _ => False) a b → Reach true (fun _ => False) b c →
            Reach true (fun _ => False) a c := by
          intro a b c h1 h2
          induction h1 with
          | refl => exact h2
          | down h h' _ ih => exact .down h h' (ih h2)
        exact this hreach (Reach.down (by simp) (by simp [kids]) hr))
      simp only [styleMeaning] at h3
      split at h3
      · cases h3
      · split at h3
        · cases h3
        · split at h3
          · unfold arity2 at h3
            split at h3 <;> cases h3
            rfl
          · obtain ⟨s, hs⟩ := shows_total h hph
            have : reprCall h vs = .error err := h3
            rw [reprCall_ok.2 ⟨s, hs, rfl⟩] at this
            cases this

/-- **C46, when `eval_latex` returns.**  Exactly when every `pow` has two arguments, every `sin`
and `cos` one, and every atom (in argument position) is an Integer, a Symbol or a Function. -/
theorem C46_latex_returns (e : Expr) (hp : Proper e) :
    (∃ s, e.latex = .ok s) ↔
      (∀ a, ArgSub e (.atom a) →
        a.atomType = Ty.integer ∨ a.atomType = Ty.symbol ∨ a.atomType = Ty.function) ∧
      (∀ args, ArgSub e (.node (powH :: args)) → args.length = 2) ∧
      (∀ args, ArgSub e (.node (sinH :: args)) → args.length = 1) ∧
      (∀ args, ArgSub e (.node (cosH :: args)) → args.length = 1) := by
  simp only [C46_latex]
  have hcos : latexStyle.named cosH ≠ none := by decide
  have hsin : latexStyle.named sinH ≠ none := by decide
  constructor
  · rintro ⟨s, hs⟩
    have := prints_printable latexStyle_named hs
    exact ⟨this.atoms, this.pow, fun args ha => this.named _ args ha hsin,
      fun args ha => this.named _ args ha hcos⟩
  · rintro ⟨h1, h2, h3, h4⟩
    refine prints_total e hp ⟨h1, h2, ?_⟩
    intro h args ha hn
    simp only [latexStyle] at hn
    split at hn
    · rename_i hh; subst hh; exact h3 args ha
    · split at hn
      · rename_i hh; subst hh; exact h4 args ha
      · exact absurd rfl hn

/-- `sin(x)**2` is proper and prints in both styles; `pow(x)` raises `TypeError`; a wildcard has
no LaTeX form; `sin(x, y)` has a `repr` but no LaTeX form. -/
example : Proper (pow (sin x) (integer 2)) ∧
    Expr.repr (pow (sin x) (integer 2)) = .ok "sin(x)**2" ∧
    Expr.latex (pow (sin x) (integer 2)) = .ok "\\sin(x)^{2}" ∧
    Expr.repr (powH.call [x]) = .error .typeError ∧
    Expr.repr wa = .ok "a" ∧ Expr.latex wa = .error .noEvaluationRule ∧
    Expr.repr (sinH.call [x, y]) = .ok "sin(x, y)" ∧
    Expr.latex (sinH.call [x, y]) = .error .typeError := by
  refine ⟨?_, by decide +kernel⟩
  intro h
  have key : ∀ t, Reach true (fun _ => False) (pow (sin x) (integer 2)) t →
      t ∈ [pow (sin x) (integer 2), sin x, integer 2, x, powH, sinH] := by
    have closed : ∀ e ∈ [pow (sin x) (integer 2), sin x, integer 2, x, powH, sinH],
        ∀ c ∈ kids true e, c ∈ [pow (sin x) (integer 2), sin x, integer 2, x, powH, sinH] := by
      decide
    have go : ∀ e t, Reach true (fun _ => False) e t →
        e ∈ [pow (sin x) (integer 2), sin x, integer 2, x, powH, sinH] →
        t ∈ [pow (sin x) (integer 2), sin x, integer 2, x, powH, sinH] := by
      intro e t hr
      induction hr with
      | refl => exact id
      | down _ hc _ ih => exact fun he => ih (closed _ he _ hc)
    exact fun t ht => go _ _ ht (by simp)
  exact absurd (key _ h) (by decide)

end Verif.Props
