import Verif.Props.PrintUnique

/-!
# C63: different expressions have different LaTeX
-/

set_option linter.unusedSectionVars false
set_option linter.unusedSimpArgs false

namespace Verif.Props
open Spec Expr

namespace LatexU

/-! ### Characters -/

/-- The characters of names, numbers and commands. -/
def isW (c : Char) : Bool := isWord c || c == '\\'

/-- What may follow a name, a number or a closing bracket. -/
def StopQ (r : List Char) : Prop := ∀ c r', r = c :: r' → isW c = false ∧ c ≠ '('

/-- What may follow an expression. -/
def StopL (r : List Char) : Prop := ∀ c r', r = c :: r' → isW c = false ∧ c ≠ '(' ∧ c ≠ '^'

theorem StopL.q {r : List Char} (h : StopL r) : StopQ r := fun c r' hr => ⟨(h c r' hr).1, (h c r' hr).2.1⟩

theorem w_unique {w w' r r' : List Char} (hw : ∀ c ∈ w, isW c = true)
    (hw' : ∀ c ∈ w', isW c = true) (hr : StopQ r) (hr' : StopQ r') (h : w ++ r = w' ++ r') :
    w = w' ∧ r = r' := by
  induction w generalizing w' with
  | nil =>
    cases w' with
    | nil => exact ⟨rfl, h⟩
    | cons c w' =>
      have := (hr c (w' ++ r') h).1
      rw [hw' c (by simp)] at this
      cases this
  | cons c w ih =>
    cases w' with
    | nil =>
      have := (hr' c (w ++ r) h.symm).1
      rw [hw c (by simp)] at this
      cases this
    | cons c' w' =>
      simp only [List.cons_append, List.cons.injEq] at h
      obtain ⟨h1, h2⟩ := ih (fun c hc => hw c (by simp [hc])) (fun c hc => hw' c (by simp [hc])) h.2
      exact ⟨by rw [h.1, h1], h2⟩

theorem w_paren_unique {w w' r r' : List Char} (hw : ∀ c ∈ w, isW c = true)
    (hw' : ∀ c ∈ w', isW c = true) (h : w ++ '(' :: r = w' ++ '(' :: r') : w = w' ∧ r = r' := by
  induction w generalizing w' with
  | nil =>
    cases w' with
    | nil => simp at h; exact ⟨rfl, h⟩
    | cons c w' =>
      simp only [List.nil_append, List.cons_append, List.cons.injEq] at h
      have := hw' c (by simp)
      rw [← h.1] at this
      exact absurd this (by decide)
  | cons c w ih =>
    cases w' with
    | nil =>
      simp only [List.nil_append, List.cons_append, List.cons.injEq] at h
      have := hw c (by simp)
      rw [h.1] at this
      exact absurd this (by decide)
    | cons c' w' =>
      simp only [List.cons_append, List.cons.injEq] at h
      obtain ⟨h1, h2⟩ := ih (fun c hc => hw c (by simp [hc])) (fun c hc => hw' c (by simp [hc])) h.2
      exact ⟨by rw [h.1, h1], h2⟩

theorem w_not_paren {w w' r r' : List Char} (hw : ∀ c ∈ w, isW c = true)
    (hw' : ∀ c ∈ w', isW c = true) (hr : StopQ r) : w ++ r ≠ w' ++ '(' :: r' := by
  induction w generalizing w' with
  | nil =>
    intro h
    cases w' with
    | nil => exact (hr '(' r' h).2 rfl
    | cons c w' =>
      have := (hr c _ h).1
      rw [hw' c (by simp)] at this
      cases this
  | cons c w ih =>
    intro h
    cases w' with
    | nil =>
      simp only [List.nil_append, List.cons_append, List.cons.injEq] at h
      have := hw c (by simp)
      rw [h.1] at this
      exact absurd this (by decide)
    | cons c' w' =>
      simp only [List.cons_append, List.cons.injEq] at h
      exact ih (fun c hc => hw c (by simp [hc])) (fun c hc => hw' c (by simp [hc])) h.2

theorem word_w {l : List Char} (h : ∀ c ∈ l, isWord c = true) : ∀ c ∈ l, isW c = true := by
  intro c hc
  simp [isW, h c hc]

/-! ### The shapes of texts -/

/-- Integers and symbols. -/
inductive Leaf : Expr → List Char → Prop
  | int {n} : Leaf (integer n) (toString n).toList
  | sym {s} : IsName s → Leaf (symbol s) s.toList

/-- How a call with a head begins and what its arguments are separated by. -/
inductive HeadText : Expr → Nat → List Char → List Char → Prop
  | add {n} : 2 ≤ n → HeadText addH n [] [' ', '+', ' ']
  | mul {n} : HeadText mulH n [] [' ', '\\', 't', 'i', 'm', 'e', 's', ' ']
  | sin {n} : HeadText sinH n ['\\', 's', 'i', 'n'] [',', ' ']
  | cos {n} : HeadText cosH n ['\\', 'c', 'o', 's'] [',', ' ']
  | fn {f n} : IsName f → HeadText (function f) n f.toList [',', ' ']

/-- The text between brackets. -/
inductive Body (sep : List Char) : List String → List Char → Prop
  | nil : Body sep [] []
  | cons {s ss} : Body sep (s :: ss) (s.toList ++ tailText sep ss)

/-- Texts of expressions that are not powers. -/
inductive Shape : Expr → List Char → Prop
  | leaf {e l} : Leaf e l → Shape e l
  | brack {h args w sep ss l} : HeadText h args.length w sep → LatexReadableAll args →
      PrintsAll latexStyle args ss → Body sep ss l →
      Shape (.node (h :: args)) (w ++ '(' :: (l ++ [')']))

theorem body_of (sep : String) (ss : List String) :
    Body sep.toList ss (String.intercalate sep ss).toList := by
  cases ss with
  | nil => exact .nil
  | cons s ss => rw [intercalate_cons]; exact .cons

theorem brack_text (w sep : String) (ss : List String) :
    (w ++ "(" ++ String.intercalate sep ss ++ ")").toList =
      w.toList ++ '(' :: ((String.intercalate sep ss).toList ++ [')']) := by
  simp [String.toList_append]

theorem plain_name {h : Expr} (hh : h ≠ sinH ∧ h ≠ cosH) : latexStyle.named h = none := by
  simp [latexStyle, hh.1, hh.2]

theorem cases_of {e : Expr} {s : String} (hr : LatexReadable e) (hp : Prints latexStyle e s) :
    Shape e s.toList ∨ ∃ b x sb sx, e = .node [powH, b, x] ∧ LatexReadable b ∧ LatexReadable x ∧
      Prints latexStyle b sb ∧ Prints latexStyle x sx ∧
      s.toList = sb.toList ++ '^' :: '{' :: (sx.toList ++ ['}']) := by
  obtain ⟨d1, d2, d3, _⟩ := heads_distinct
  cases hr with
  | int => left; cases hp; exact .leaf .int
  | sym hn => left; cases hp; exact .leaf (.sym hn)
  | @add args hl hra =>
    left
    generalize hff : addH = ff at hp
    cases hp with
    | mul => exact absurd hff d1
    | pow => exact absurd hff.symm d2
    | @add _ ss hall =>
      have := Shape.brack (.add hl) hra hall (body_of " + " ss)
      simpa [latexStyle, String.toList_append] using this
    | call h1 => exact absurd hff.symm h1
    | named h1 => subst hff; rw [plain_name (by decide)] at h1; cases h1
  | @mul args hra =>
    left
    generalize hff : mulH = ff at hp
    cases hp with
    | add => exact absurd hff.symm d1
    | pow => exact absurd hff.symm d3
    | @mul _ ss hall =>
      have := Shape.brack .mul hra hall (body_of " \\times " ss)
      simpa [latexStyle, String.toList_append] using this
    | call h1 h2 => exact absurd hff.symm h2
    | named h1 => subst hff; rw [plain_name (by decide)] at h1; cases h1
  | @pow b x hb hx =>
    right
    generalize hff : powH = ff at hp
    cases hp with
    | add => exact absurd hff d2
    | mul => exact absurd hff d3
    | @pow _ _ sb sx h1 h2 =>
      refine ⟨b, x, sb, sx, rfl, hb, hx, h1, h2, ?_⟩
      simp [latexStyle, String.toList_append]
    | call _ _ h3 => exact absurd hff.symm h3
  | @call f args hn h1 h2 h3 h4 hra =>
    left
    generalize hff : function f = ff at hp h1 h2 h3 h4
    cases hp with
    | add => exact absurd rfl h1
    | mul => exact absurd rfl h2
    | pow => exact absurd rfl h3
    | @named _ name a s hnm hpa =>
      have hall : PrintsAll latexStyle [a] [s] := .cons hpa .nil
      simp only [latexStyle] at hnm
      split at hnm
      · rename_i hs
        obtain rfl := Option.some.inj hnm
        subst hs
        have := Shape.brack .sin hra hall .cons
        simpa [tailText, String.toList_append] using this
      · split at hnm
        · rename_i hs
          obtain rfl := Option.some.inj hnm
          subst hs
          have := Shape.brack .cos hra hall .cons
          simpa [tailText, String.toList_append] using this
        · cases hnm
    | @call _ _ sf ss _ _ _ _ hs hall =>
      subst hff
      have := shows_function hs
      subst this
      have := Shape.brack (.fn hn) hra hall (body_of ", " ss)
      rw [brack_text]
      simpa using this

/-- `p ^{x₁} … ^{xₙ}` -/
def expText (ss : List String) : List Char := ss.flatMap fun s => '^' :: '{' :: (s.toList ++ ['}'])

theorem all_append {as bs : List Expr} (ha : LatexReadableAll as) (hb : LatexReadableAll bs) :
    LatexReadableAll (as ++ bs) := by
  induction as with
  | nil => exact hb
  | cons a as ih => cases ha with | cons h1 h2 => exact .cons h1 (ih h2)

theorem prints_append {as bs : List Expr} {ss ts : List String} (ha : PrintsAll latexStyle as ss)
    (hb : PrintsAll latexStyle bs ts) : PrintsAll latexStyle (as ++ bs) (ss ++ ts) := by
  induction as generalizing ss with
  | nil => cases ha; exact hb
  | cons a as ih => cases ha with | cons h1 h2 => exact .cons h1 (ih h2)

/-- An expression is a power tower to the left over something that is not a power. -/
theorem spine (e : Expr) : ∀ s, LatexReadable e → Prints latexStyle e s →
    ∃ p l xs ss, e = xs.foldl pow p ∧ Shape p l ∧ sizeOf p ≤ sizeOf e ∧
      (∀ x ∈ xs, sizeOf x < sizeOf e) ∧ LatexReadableAll xs ∧ PrintsAll latexStyle xs ss ∧
      s.toList = l ++ expText ss := by
  induction e using Tree.induction with
  | _ e ih =>
  intro s hr hp
  rcases cases_of hr hp with h | ⟨b, x, sb, sx, rfl, hb, hx, hpb, hpx, h⟩
  · exact ⟨e, s.toList, [], [], rfl, h, Nat.le_refl _, by simp, .nil, .nil, by simp [expText]⟩
  · obtain ⟨p, l, xs, ss, h1, h2, h3, h4, h5, h6, h7⟩ := ih b (by simp [Tree.children]) sb hb hpb
    have hsb : sizeOf b < sizeOf (Tree.node [powH, b, x] : Expr) := by
      simp only [Tree.node.sizeOf_spec, List.cons.sizeOf_spec]; omega
    have hsx : sizeOf x < sizeOf (Tree.node [powH, b, x] : Expr) := by
      simp only [Tree.node.sizeOf_spec, List.cons.sizeOf_spec]; omega
    refine ⟨p, l, xs ++ [x], ss ++ [sx], ?_, h2, by omega, ?_, all_append h5 (.cons hx .nil),
      prints_append h6 (.cons hpx .nil), ?_⟩
    · rw [List.foldl_append, ← h1]; rfl
    · intro c hc
      rcases List.mem_append.1 hc with hc | hc
      · have := h4 c hc; omega
      · obtain rfl := List.mem_singleton.1 hc; exact hsx
    · rw [h, h7]; simp [expText]

theorem leaf_w {e : Expr} {l : List Char} (h : Leaf e l) : (∀ c ∈ l, isW c = true) ∧ l ≠ [] := by
  cases h with
  | @int n =>
    refine ⟨word_w (int_chars n).1, ?_⟩
    obtain ⟨_, c, cs, h, _⟩ := int_chars n
    rw [h]; simp
  | sym hn => exact ⟨word_w (name_word hn), name_ne_nil hn⟩

theorem head_w {h : Expr} {n : Nat} {w sep : List Char} (hh : HeadText h n w sep) :
    ∀ c ∈ w, isW c = true := by
  cases hh with
  | add | mul => simp
  | sin | cos => decide
  | fn hn => exact word_w (name_word hn)

/-- No text begins with `)`. -/
theorem start {e : Expr} {s : String} (hr : LatexReadable e) (hp : Prints latexStyle e s) :
    ∃ c cs, s.toList = c :: cs ∧ c ≠ ')' := by
  obtain ⟨p, l, xs, ss, _, hs, _, _, _, _, h⟩ := spine e s hr hp
  have hl : ∃ c cs, l = c :: cs ∧ c ≠ ')' := by
    cases hs with
    | leaf hlf =>
      obtain ⟨h1, h2⟩ := leaf_w hlf
      cases l with
      | nil => exact absurd rfl h2
      | cons c cs =>
        refine ⟨c, cs, rfl, ?_⟩
        rintro rfl
        exact absurd (h1 ')' (by simp)) (by decide)
    | @brack hd args w sep ss l hh _ _ _ =>
      have := head_w hh
      cases w with
      | nil => exact ⟨_, _, rfl, by decide⟩
      | cons c cs =>
        refine ⟨c, _, rfl, ?_⟩
        rintro rfl
        exact absurd (this ')' (by simp)) (by decide)
  obtain ⟨c, cs, rfl, hc⟩ := hl
  rw [h]
  exact ⟨c, _, rfl, hc⟩

/-! ### Unique reading -/

/-- The LaTeX of `e` followed by something can be read in one way only. -/
def Uniq (e : Expr) : Prop := ∀ s e' s' r r', LatexReadable e → Prints latexStyle e s →
  LatexReadable e' → Prints latexStyle e' s' → StopL r → StopL r' →
  s.toList ++ r = s'.toList ++ r' → e = e' ∧ r = r'

/-- The separators. -/
def IsSepL (sep : List Char) : Prop :=
  sep = [' ', '+', ' '] ∨ sep = [' ', '\\', 't', 'i', 'm', 'e', 's', ' '] ∨ sep = [',', ' ']

theorem head_sep {h : Expr} {n : Nat} {w sep : List Char} (hh : HeadText h n w sep) : IsSepL sep := by
  cases hh with
  | add => exact Or.inl rfl
  | mul => exact Or.inr (Or.inl rfl)
  | sin | cos | fn => exact Or.inr (Or.inr rfl)

theorem stop_tail {sep : List Char} (hsep : IsSepL sep) (ss : List String) (r : List Char) :
    StopL (tailText sep ss ++ ')' :: r) := by
  intro c r' h
  cases ss with
  | nil => cases h; decide
  | cons s ss =>
    rcases hsep with rfl | rfl | rfl <;> cases h <;> decide

theorem tail_uniq {sep : List Char} (hsep : IsSepL sep) (as : List Expr) :
    (∀ a ∈ as, Uniq a) → ∀ (ss : List String) (as' : List Expr) (ss' : List String) (r r' : List Char),
    LatexReadableAll as → PrintsAll latexStyle as ss → LatexReadableAll as' →
    PrintsAll latexStyle as' ss' →
    tailText sep ss ++ ')' :: r = tailText sep ss' ++ ')' :: r' → as = as' ∧ r = r' := by
  induction as with
  | nil =>
    intro _ ss as' ss' r r' _ hp hr' hp' h
    cases hp
    cases hp' with
    | nil => simp [tailText] at h; exact ⟨rfl, h⟩
    | cons h1 h2 =>
      exfalso
      rcases hsep with rfl | rfl | rfl <;> simp [tailText] at h
  | cons a as ih =>
    intro hu ss as' ss' r r' hr hp hr' hp' h
    cases hp with
    | @cons _ _ s ss h1 h2 =>
    cases hr with
    | cons hr1 hr2 =>
    cases hp' with
    | nil =>
      exfalso
      rcases hsep with rfl | rfl | rfl <;> simp [tailText] at h
    | @cons a' as' s' ss' h1' h2' =>
    cases hr' with
    | cons hr1' hr2' =>
    have h' : s.toList ++ (tailText sep ss ++ ')' :: r) = s'.toList ++ (tailText sep ss' ++ ')' :: r') := by
      have : sep ++ (s.toList ++ (tailText sep ss ++ ')' :: r)) =
          sep ++ (s'.toList ++ (tailText sep ss' ++ ')' :: r')) := by
        simpa [tailText] using h
      exact List.append_cancel_left this
    obtain ⟨rfl, h3⟩ := hu a (by simp) s a' s' _ _ hr1 h1 hr1' h1' (stop_tail hsep ss r)
      (stop_tail hsep ss' r') h'
    obtain ⟨rfl, h4⟩ := ih (fun a ha => hu a (by simp [ha])) ss as' ss' r r' hr2 h2 hr2' h2' h3
    exact ⟨rfl, h4⟩

theorem exp_uniq (xs : List Expr) :
    (∀ x ∈ xs, Uniq x) → ∀ (ss : List String) (xs' : List Expr) (ss' : List String) (r r' : List Char),
    LatexReadableAll xs → PrintsAll latexStyle xs ss → LatexReadableAll xs' →
    PrintsAll latexStyle xs' ss' → StopL r → StopL r' →
    expText ss ++ r = expText ss' ++ r' → xs = xs' ∧ r = r' := by
  induction xs with
  | nil =>
    intro _ ss xs' ss' r r' _ hp hr' hp' hst hst' h
    cases hp
    cases hp' with
    | nil => exact ⟨rfl, h⟩
    | cons h1 h2 => exact absurd rfl (hst '^' _ h).2.2
  | cons a as ih =>
    intro hu ss as' ss' r r' hr hp hr' hp' hst hst' h
    cases hp with
    | @cons _ _ s ss h1 h2 =>
    cases hr with
    | cons hr1 hr2 =>
    cases hp' with
    | nil => exact absurd rfl (hst' '^' _ h.symm).2.2
    | @cons a' as' s' ss' h1' h2' =>
    cases hr' with
    | cons hr1' hr2' =>
    have h' : s.toList ++ ('}' :: (expText ss ++ r)) = s'.toList ++ ('}' :: (expText ss' ++ r')) := by
      simpa [expText] using h
    have hbr : ∀ l, StopL ('}' :: l) := by
      intro l c r' h; cases h; decide
    obtain ⟨rfl, h3⟩ := hu a (by simp) s a' s' _ _ hr1 h1 hr1' h1' (hbr _) (hbr _) h'
    obtain ⟨rfl, h4⟩ := ih (fun a ha => hu a (by simp [ha])) ss as' ss' r r' hr2 h2 hr2' h2' hst hst'
      (List.cons.inj h3).2
    exact ⟨rfl, h4⟩

/-- The text before the bracket determines the head, except for sums and products. -/
theorem head_uniq {h h' : Expr} {n n' : Nat} {w sep sep' : List Char} (hh : HeadText h n w sep)
    (hh' : HeadText h' n' w sep') : (h = h' ∧ sep = sep') ∨
      (2 ≤ n ∧ sep = [' ', '+', ' '] ∧ sep' = [' ', '\\', 't', 'i', 'm', 'e', 's', ' ']) ∨
      (2 ≤ n' ∧ sep' = [' ', '+', ' '] ∧ sep = [' ', '\\', 't', 'i', 'm', 'e', 's', ' ']) := by
  have hcmd : ∀ {f : String} {l : List Char}, IsName f → f.toList ≠ '\\' :: l := by
    intro f l hf h
    exact absurd (name_word hf '\\' (by rw [h]; simp)) (by decide)
  generalize hw : w = w' at hh'
  cases hh with
  | add hn =>
    cases hh' with
    | add => exact Or.inl ⟨rfl, rfl⟩
    | mul => exact Or.inr (Or.inl ⟨hn, rfl, rfl⟩)
    | sin | cos => cases hw
    | fn hf => exact absurd hw.symm (name_ne_nil hf)
  | mul =>
    cases hh' with
    | add hn => exact Or.inr (Or.inr ⟨hn, rfl, rfl⟩)
    | mul => exact Or.inl ⟨rfl, rfl⟩
    | sin | cos => cases hw
    | fn hf => exact absurd hw.symm (name_ne_nil hf)
  | sin =>
    cases hh' with
    | add | mul | cos => cases hw
    | sin => exact Or.inl ⟨rfl, rfl⟩
    | fn hf => exact absurd hw.symm (hcmd hf)
  | cos =>
    cases hh' with
    | add | mul | sin => cases hw
    | cos => exact Or.inl ⟨rfl, rfl⟩
    | fn hf => exact absurd hw.symm (hcmd hf)
  | fn hf0 =>
    cases hh' with
    | add | mul => exact absurd hw (name_ne_nil hf0)
    | sin | cos => exact absurd hw (hcmd hf0)
    | fn hf => rw [toList_inj hw]; exact Or.inl ⟨rfl, rfl⟩

theorem shape_uniq {e e' : Expr} {l l' r r' : List Char} (hs : Shape e l) (hs' : Shape e' l')
    (ih : ∀ c ∈ e.children, Uniq c) (hr : StopQ r) (hr' : StopQ r') (h : l ++ r = l' ++ r') :
    e = e' ∧ r = r' := by
  cases hs with
  | leaf hl =>
    cases hs' with
    | leaf hl' =>
      obtain ⟨h1, h2⟩ := w_unique (leaf_w hl).1 (leaf_w hl').1 hr hr' h
      refine ⟨?_, h2⟩
      cases hl with
      | int =>
        cases hl' with
        | int => rw [integer_inj h1]
        | sym hn => exact absurd h1.symm (sym_ne_int hn)
      | sym hn0 =>
        cases hl' with
        | int => exact absurd h1 (sym_ne_int hn0)
        | sym hn => rw [toList_inj h1]
    | brack hh =>
      simp only [List.append_assoc, List.cons_append, List.nil_append] at h
      exact absurd h (w_not_paren (leaf_w hl).1 (head_w hh) hr)
  | @brack hd args w sep ss l hh hra hpa hb =>
    simp only [List.append_assoc, List.cons_append, List.nil_append] at h
    cases hs' with
    | leaf hl' => exact absurd h.symm (w_not_paren (leaf_w hl').1 (head_w hh) hr')
    | @brack hd' args' w' sep' ss' l' hh' hra' hpa' hb' =>
      simp only [List.append_assoc, List.cons_append, List.nil_append] at h
      obtain ⟨rfl, h1⟩ := w_paren_unique (head_w hh) (head_w hh') h
      have hu := head_uniq hh hh'
      cases hpa with
      | nil =>
        cases hb
        cases hpa' with
        | nil =>
          cases hb'
          rcases hu with ⟨rfl, _⟩ | ⟨hn, _⟩ | ⟨hn, _⟩
          · exact ⟨rfl, (List.cons.inj h1).2⟩
          · simp at hn
          · simp at hn
        | cons hp1 _ =>
          exfalso
          cases hb'
          cases hra' with
          | cons hr1 _ =>
          obtain ⟨c, cs, hc, h3⟩ := start hr1 hp1
          rw [hc] at h1
          exact h3 (List.cons.inj h1).1.symm
      | @cons a as s ss hp1 hp2 =>
        cases hb
        cases hra with
        | cons hr1 hr2 =>
        cases hpa' with
        | nil =>
          exfalso
          cases hb'
          obtain ⟨c, cs, hc, h3⟩ := start hr1 hp1
          rw [hc] at h1
          exact h3 (List.cons.inj h1).1
        | @cons a' as' s' ss' hp1' hp2' =>
          cases hb'
          cases hra' with
          | cons hr1' hr2' =>
          simp only [List.append_assoc] at h1
          obtain ⟨rfl, h2⟩ := ih a (by simp [Tree.children]) s a' s' _ _ hr1 hp1 hr1' hp1'
            (stop_tail (head_sep hh) ss r) (stop_tail (head_sep hh') ss' r') h1
          have hmix : ∀ {as : List Expr} {ss ss' : List String} {r r' : List Char},
              2 ≤ (a :: as).length → PrintsAll latexStyle as ss →
              tailText [' ', '+', ' '] ss ++ ')' :: r ≠
                tailText [' ', '\\', 't', 'i', 'm', 'e', 's', ' '] ss' ++ ')' :: r' := by
            intro as ss ss' r r' hne hp h
            cases hp with
            | nil => simp at hne
            | cons _ _ => cases ss' <;> simp [tailText] at h
          rcases hu with ⟨rfl, rfl⟩ | ⟨hn, rfl, rfl⟩ | ⟨hn, rfl, rfl⟩
          · obtain ⟨h4, h5⟩ := tail_uniq (head_sep hh) as
              (fun c hc => ih c (by simp [Tree.children, hc])) ss as' ss' r r' hr2 hp2 hr2' hp2' h2
            rw [h4]
            exact ⟨rfl, h5⟩
          · exact absurd h2 (hmix hn hp2)
          · exact absurd h2.symm (hmix hn hp2')

theorem stop_exp (ss : List String) {r : List Char} (hr : StopL r) : StopQ (expText ss ++ r) := by
  intro c r' h
  cases ss with
  | nil => exact hr.q c r' h
  | cons s ss => cases h; decide

theorem child_lt {e c : Expr} (h : c ∈ e.children) : sizeOf c < sizeOf e := by
  cases e with
  | atom => simp [Tree.children] at h
  | node cs =>
    simp only [Tree.children] at h
    have := List.sizeOf_lt_of_mem h
    simp only [Tree.node.sizeOf_spec]
    omega

theorem uniq_of_size (n : Nat) : ∀ e : Expr, sizeOf e < n → Uniq e := by
  induction n with
  | zero => intro e h; omega
  | succ n ih =>
    intro e hn s e' s' r r' hr hp hr' hp' hst hst' h
    obtain ⟨p, l, xs, ss, h1, h2, h3, h4, h5, h6, h7⟩ := spine e s hr hp
    obtain ⟨p', l', xs', ss', h1', h2', _, _, h5', h6', h7'⟩ := spine e' s' hr' hp'
    rw [h7, h7', List.append_assoc, List.append_assoc] at h
    obtain ⟨rfl, h8⟩ := shape_uniq h2 h2' (fun c hc => ih c (by have := child_lt hc; omega))
      (stop_exp ss hst) (stop_exp ss' hst') h
    obtain ⟨rfl, h9⟩ := exp_uniq xs (fun x hx => ih x (by have := h4 x hx; omega)) ss xs' ss' r r'
      h5 h6 h5' h6' hst hst' h8
    exact ⟨h1.trans h1'.symm, h9⟩

/-! ### What LaTeX cannot tell apart -/

theorem latex_call_congr {h : Expr} {args args' : List Expr} {s : String}
    (hall : ∀ ss, PrintsAll latexStyle args ss → PrintsAll latexStyle args' ss)
    (hp : Prints latexStyle (.node (h :: args)) s) : Prints latexStyle (.node (h :: args')) s := by
  cases hp with
  | add h1 => exact .add (hall _ h1)
  | mul h1 => exact .mul (hall _ h1)
  | pow h1 h2 =>
    have := hall _ (.cons h1 (.cons h2 .nil))
    cases this with
    | cons g1 g2 =>
    cases g2 with
    | cons g2 g3 =>
    cases g3
    exact .pow g1 g2
  | named h1 h2 =>
    have := hall _ (.cons h2 .nil)
    cases this with
    | cons g1 g2 =>
    cases g2
    exact .named h1 g1
  | call h1 h2 h3 h4 h5 h6 => exact .call h1 h2 h3 h4 h5 (hall _ h6)

theorem latex_single {args : List Expr} (hl : args.length < 2) {s : String} :
    Prints latexStyle (.node (addH :: args)) s ↔ Prints latexStyle (.node (mulH :: args)) s := by
  obtain ⟨d1, d2, d3, _⟩ := heads_distinct
  constructor
  · intro hp
    generalize hff : addH = ff at hp
    cases hp with
    | mul => exact absurd hff d1
    | pow => exact absurd hff.symm d2
    | @add _ ss hall =>
      have := Prints.mul hall
      rwa [intercalate_single (sep' := latexStyle.plus)
        (show ss.length < 2 by rw [← printsAll_length hall]; exact hl)] at this
    | call h1 => exact absurd hff.symm h1
    | named h1 => subst hff; rw [plain_name (by decide)] at h1; cases h1
  · intro hp
    generalize hff : mulH = ff at hp
    cases hp with
    | add => exact absurd hff.symm d1
    | pow => exact absurd hff.symm d3
    | @mul _ ss hall =>
      have := Prints.add hall
      rwa [intercalate_single (sep' := latexStyle.times)
        (show ss.length < 2 by rw [← printsAll_length hall]; exact hl)] at this
    | call _ h1 => exact absurd hff.symm h1
    | named h1 => subst hff; rw [plain_name (by decide)] at h1; cases h1

mutual
theorem conflated_latex : ∀ {e e' : Expr}, LatexConflated e e' →
    ∀ s, Prints latexStyle e s ↔ Prints latexStyle e' s
  | _, _, .refl => fun _ => Iff.rfl
  | _, _, .symm h => fun s => (conflated_latex h s).symm
  | _, _, .trans h h' => fun s => (conflated_latex h s).trans (conflated_latex h' s)
  | _, _, .call h => fun _ => ⟨latex_call_congr fun ss => (conflatedAll_latex h ss).1,
      latex_call_congr fun ss => (conflatedAll_latex h ss).2⟩
  | _, _, .single hl => fun _ => latex_single hl
  | _, _, .name => fun _ => ⟨fun h => by cases h; exact .atom (by simp [latexStyle]),
      fun h => by cases h; exact .atom (by simp [latexStyle])⟩
theorem conflatedAll_latex : ∀ {es es' : List Expr}, LatexConflatedAll es es' →
    ∀ ss, PrintsAll latexStyle es ss ↔ PrintsAll latexStyle es' ss
  | _, _, .nil => fun _ => Iff.rfl
  | _, _, .cons h h' => by
    intro ss
    constructor
    · intro hp
      cases hp with
      | cons h1 h2 => exact .cons ((conflated_latex h _).1 h1) ((conflatedAll_latex h' _).1 h2)
    · intro hp
      cases hp with
      | cons h1 h2 => exact .cons ((conflated_latex h _).2 h1) ((conflatedAll_latex h' _).2 h2)
end

theorem latexConflatedAll_length : ∀ {es es' : List Expr}, LatexConflatedAll es es' →
    es.length = es'.length
  | _, _, .nil => rfl
  | _, _, .cons _ h => congrArg (· + 1) (latexConflatedAll_length h)

mutual
theorem latex_normal : ∀ {e : Expr}, LatexNamed e → ∃ n, LatexReadable n ∧ LatexConflated e n
  | _, .int => ⟨_, .int, .refl⟩
  | _, .sym h => ⟨_, .sym h, .refl⟩
  | _, .fn (s := s) h => ⟨symbol s, .sym h, .name⟩
  | _, .call (f := f) (args := args) h1 h2 h4 h3 => by
    obtain ⟨ns, hr, hc⟩ := latex_normals h3
    have hlen := latexConflatedAll_length hc
    by_cases ha : function f = addH
    · rw [ha]
      by_cases hl : args.length < 2
      · exact ⟨.node (mulH :: ns), .mul hr, .trans (.single hl) (.call hc)⟩
      · exact ⟨.node (addH :: ns), .add (by omega) hr, .call hc⟩
    · by_cases hm : function f = mulH
      · rw [hm]
        exact ⟨.node (mulH :: ns), .mul hr, .call hc⟩
      · exact ⟨.node (function f :: ns), .call h1 ha hm h2 (fun h => hlen ▸ h4 h) hr, .call hc⟩
  | _, .pow (b := b) (e := x) hb hx => by
    obtain ⟨nb, h1, h2⟩ := latex_normal hb
    obtain ⟨nx, h3, h4⟩ := latex_normal hx
    exact ⟨_, .pow h1 h3, .call (h := powH) (.cons h2 (.cons h4 .nil))⟩
theorem latex_normals : ∀ {es : List Expr}, LatexNamedAll es →
    ∃ ns, LatexReadableAll ns ∧ LatexConflatedAll es ns
  | _, .nil => ⟨[], .nil, .nil⟩
  | _, .cons h h' => by
    obtain ⟨n, h1, h2⟩ := latex_normal h
    obtain ⟨ns, h3, h4⟩ := latex_normals h'
    exact ⟨n :: ns, .cons h1 h3, .cons h2 h4⟩
end

theorem total (e : Expr) : LatexReadable e → ∃ s, Prints latexStyle e s := by
  induction e using Tree.induction with
  | _ e ih =>
  intro hr
  have hall : ∀ l : List Expr, (∀ c ∈ l, c ∈ e.children) → LatexReadableAll l →
      ∃ ss, PrintsAll latexStyle l ss := by
    intro l
    induction l with
    | nil => intro _ _; exact ⟨_, .nil⟩
    | cons c l ihl =>
      intro hm hra
      cases hra with
      | cons h1 h2 =>
      obtain ⟨ss, hss⟩ := ihl (fun c hc => hm c (by simp [hc])) h2
      obtain ⟨s, hs⟩ := ih c (hm c (by simp)) h1
      exact ⟨_, .cons hs hss⟩
  cases hr with
  | int => exact ⟨_, .atom (by simp [latexStyle])⟩
  | sym => exact ⟨_, .atom (by simp [latexStyle])⟩
  | @add args _ hra =>
    obtain ⟨ss, hss⟩ := hall args (fun c hc => by simp [Tree.children, hc]) hra
    exact ⟨_, .add hss⟩
  | @mul args hra =>
    obtain ⟨ss, hss⟩ := hall args (fun c hc => by simp [Tree.children, hc]) hra
    exact ⟨_, .mul hss⟩
  | @pow b x hb hx =>
    obtain ⟨s, hs⟩ := ih b (by simp [Tree.children]) hb
    obtain ⟨t, ht⟩ := ih x (by simp [Tree.children]) hx
    exact ⟨_, .pow hs ht⟩
  | @call f args _ h1 h2 h3 h4 hra =>
    obtain ⟨ss, hss⟩ := hall args (fun c hc => by simp [Tree.children, hc]) hra
    by_cases hn : latexStyle.named (function f) = none
    · exact ⟨_, .call h1 h2 h3 hn .atom hss⟩
    · have hsc : function f = sinH ∨ function f = cosH := by
        by_contra hc
        push Not at hc
        exact hn (by simp [latexStyle, hc.1, hc.2])
      obtain ⟨a, rfl⟩ := List.length_eq_one_iff.1 (h4 hsc)
      cases hss with
      | cons g1 g2 =>
      obtain ⟨nm, hnm⟩ := Option.ne_none_iff_exists'.1 hn
      exact ⟨_, .named hnm g1⟩

end LatexU
open LatexU

/-- **C63.**  Different readable expressions have different LaTeX; a power may be the base of a power. -/
theorem C63_latex_unambiguous (e e' : Expr) (h : LatexReadable e) (h' : LatexReadable e') :
    (∃ s, e.latex = .ok s) ∧ (e.latex = e'.latex → e = e') := by
  obtain ⟨s, hs⟩ := total e h
  have hse := (C46_latex e s).2 hs
  refine ⟨⟨s, hse⟩, ?_⟩
  intro heq
  have hs' := (C46_latex e' s).1 (heq ▸ hse)
  have hnil : StopL [] := fun c r h => by cases h
  exact (uniq_of_size _ e (Nat.lt_succ_self _) s e' s [] [] h hs h' hs' hnil hnil rfl).1

/-- **C63, exactly.**  Two expressions with proper names have the same LaTeX if and only if they are
equal up to `Add` and `Mul` of fewer than two terms, and a `Function` as an argument in place of the
`Symbol` of the same name. -/
theorem C63_latex_exact (e e' : Expr) (h : LatexNamed e) (h' : LatexNamed e') :
    (∃ s, e.latex = .ok s) ∧ (e.latex = e'.latex ↔ LatexConflated e e') := by
  obtain ⟨n, h1, h2⟩ := latex_normal h
  obtain ⟨n', h1', h2'⟩ := latex_normal h'
  obtain ⟨⟨s, hs⟩, hinj⟩ := C63_latex_unambiguous n n' h1 h1'
  have hse : e.latex = .ok s :=
    (C46_latex e s).2 ((conflated_latex h2 s).2 ((C46_latex n s).1 hs))
  refine ⟨⟨s, hse⟩, ?_⟩
  constructor
  · intro heq
    rw [hse] at heq
    have hs' : n'.latex = .ok s :=
      (C46_latex n' s).2 ((conflated_latex h2' s).1 ((C46_latex e' s).1 heq.symm))
    obtain rfl := hinj (hs.trans hs'.symm)
    exact .trans h2 (.symm h2')
  · intro hc
    rw [hse]
    exact ((C46_latex e' s).2 ((conflated_latex hc s).1 ((C46_latex e s).1 hse))).symm

/-- `(x**y)**sin(x)` and `x**(y**sin(x))` are readable, and have different LaTeX (the same `repr`). -/
example : LatexReadable (pow (pow x y) (sin x)) ∧ LatexReadable (pow x (pow y (sin x))) ∧
    Expr.latex (pow (pow x y) (sin x)) = .ok "x^{y}^{\\sin(x)}" ∧
    Expr.latex (pow x (pow y (sin x))) = .ok "x^{y^{\\sin(x)}}" ∧
    Expr.repr (pow (pow x y) (sin x)) = Expr.repr (pow x (pow y (sin x))) := by
  have hx : IsName "x" := ⟨⟨'x', rfl, by decide⟩, by decide⟩
  have hy : IsName "y" := ⟨⟨'y', rfl, by decide⟩, by decide⟩
  have hs : IsName "sin" := ⟨⟨'s', rfl, by decide⟩, by decide⟩
  have hsx : LatexReadable (sin x) := .call (f := "sin") hs (by decide) (by decide) (by decide)
    (fun _ => rfl) (.cons (.sym hx) .nil)
  exact ⟨.pow (.pow (.sym hx) (.sym hy)) hsx, .pow (.sym hx) (.pow (.sym hy) hsx),
    by decide +kernel, by decide +kernel, by decide +kernel⟩

/-- `Add(f)` and `Mul(Symbol('f'))` are well named, conflated, and both have the LaTeX `(f)`. -/
example : LatexNamed (addH.call [f]) ∧ LatexNamed (mulH.call [symbol "f"]) ∧
    Expr.latex (addH.call [f]) = .ok "(f)" ∧
    LatexConflated (addH.call [f]) (mulH.call [symbol "f"]) := by
  have hf : IsName "f" := ⟨⟨'f', rfl, by decide⟩, by decide⟩
  have hA : IsName "Add" := ⟨⟨'A', rfl, by decide⟩, by decide⟩
  have hM : IsName "Mul" := ⟨⟨'M', rfl, by decide⟩, by decide⟩
  have w1 : LatexNamed (addH.call [f]) :=
    .call (f := "Add") hA (by decide) (fun h => absurd h (by decide)) (.cons (.fn hf) .nil)
  have w2 : LatexNamed (mulH.call [symbol "f"]) :=
    .call (f := "Mul") hM (by decide) (fun h => absurd h (by decide)) (.cons (.sym hf) .nil)
  exact ⟨w1, w2, by decide +kernel, ((C63_latex_exact _ _ w1 w2).2).1 (by decide +kernel)⟩

end Verif.Props
