import Std.Data.String.ToInt
import Verif.Props.Print

/-!
# C42: different expressions print differently
-/

set_option linter.unusedSectionVars false
set_option linter.unusedSimpArgs false

namespace Verif.Props
open Spec Expr

/-! ### Characters -/

/-- The characters of names and numbers. -/
def isWord (c : Char) : Bool := c.isAlphanum || c == '_' || c == '-'

/-- What may follow a name, a number or a closing bracket. -/
def StopP (r : List Char) : Prop := ∀ c r', r = c :: r' → isWord c = false ∧ c ≠ '('

/-- What may follow an expression: not `**`. -/
def StopE (r : List Char) : Prop := StopP r ∧ ∀ r', r ≠ '*' :: '*' :: r'

/-- A word is read to its end. -/
theorem word_unique {w w' r r' : List Char} (hw : ∀ c ∈ w, isWord c = true)
    (hw' : ∀ c ∈ w', isWord c = true) (hr : StopP r) (hr' : StopP r') (h : w ++ r = w' ++ r') :
    w = w' ∧ r = r' := by
  induction w generalizing w' with
  | nil =>
    cases w' with
    | nil => exact ⟨rfl, h⟩
    | cons c w' =>
      have := (hr c (w' ++ r') h).1
      rw [hw' c (by simp)] at this
      cases this
  | cons c w ih =>
    cases w' with
    | nil =>
      have := (hr' c (w ++ r) h.symm).1
      rw [hw c (by simp)] at this
      cases this
    | cons c' w' =>
      simp only [List.cons_append, List.cons.injEq] at h
      obtain ⟨h1, h2⟩ := ih (fun c hc => hw c (by simp [hc])) (fun c hc => hw' c (by simp [hc])) h.2
      exact ⟨by rw [h.1, h1], h2⟩

/-- A word followed by `(` is read up to the bracket. -/
theorem word_paren_unique {w w' r r' : List Char} (hw : ∀ c ∈ w, isWord c = true)
    (hw' : ∀ c ∈ w', isWord c = true) (h : w ++ '(' :: r = w' ++ '(' :: r') : w = w' ∧ r = r' := by
  induction w generalizing w' with
  | nil =>
    cases w' with
    | nil => simp at h; exact ⟨rfl, h⟩
    | cons c w' =>
      simp only [List.nil_append, List.cons_append, List.cons.injEq] at h
      have := hw' c (by simp)
      rw [← h.1] at this
      exact absurd this (by decide)
  | cons c w ih =>
    cases w' with
    | nil =>
      simp only [List.nil_append, List.cons_append, List.cons.injEq] at h
      have := hw c (by simp)
      rw [h.1] at this
      exact absurd this (by decide)
    | cons c' w' =>
      simp only [List.cons_append, List.cons.injEq] at h
      obtain ⟨h1, h2⟩ := ih (fun c hc => hw c (by simp [hc])) (fun c hc => hw' c (by simp [hc])) h.2
      exact ⟨by rw [h.1, h1], h2⟩

/-- A word followed by `(` is not a word followed by something else. -/
theorem word_not_paren {w w' r r' : List Char} (hw : ∀ c ∈ w, isWord c = true)
    (hw' : ∀ c ∈ w', isWord c = true) (hr : StopP r) : w ++ r ≠ w' ++ '(' :: r' := by
  induction w generalizing w' with
  | nil =>
    intro h
    cases w' with
    | nil => exact (hr '(' r' h).2 rfl
    | cons c w' =>
      have := (hr c _ h).1
      rw [hw' c (by simp)] at this
      cases this
  | cons c w ih =>
    intro h
    cases w' with
    | nil =>
      simp only [List.nil_append, List.cons_append, List.cons.injEq] at h
      have := hw c (by simp)
      rw [h.1] at this
      exact absurd this (by decide)
    | cons c' w' =>
      simp only [List.cons_append, List.cons.injEq] at h
      exact ih (fun c hc => hw c (by simp [hc])) (fun c hc => hw' c (by simp [hc])) h.2

theorem name_word {s : String} (h : IsName s) : ∀ c ∈ s.toList, isWord c = true := by
  intro c hc
  rcases h.2 c hc with h' | h'
  · simp [isWord, h']
  · simp [isWord, h']

theorem toString_int (n : Int) : toString n = n.repr := rfl

/-- The characters of a number; the first is a digit or a sign. -/
theorem int_chars (n : Int) : (∀ c ∈ (toString n).toList, isWord c = true) ∧
    ∃ c cs, (toString n).toList = c :: cs ∧ (c.isDigit = true ∨ c = '-') := by
  have hnat : ∀ m : Nat, (∀ c ∈ m.repr.toList, c.isDigit = true) ∧ m.repr.toList ≠ [] := by
    intro m
    have : m.repr.toList = Nat.toDigits 10 m := by simp [Nat.repr]
    rw [this]
    exact ⟨fun c hc => Nat.isDigit_of_mem_toDigits (by decide) (by decide) hc,
      by exact Nat.toDigits_ne_nil⟩
  have hword : ∀ c : Char, c.isDigit = true → isWord c = true := by
    intro c hc
    simp [isWord, Char.isAlphanum, hc]
  rw [toString_int]
  cases n with
  | ofNat m =>
    have h := hnat m
    show (∀ c ∈ (Nat.repr m).toList, _) ∧ ∃ c cs, (Nat.repr m).toList = _ ∧ _
    refine ⟨fun c hc => hword c (h.1 c hc), ?_⟩
    cases hl : (Nat.repr m).toList with
    | nil => exact absurd hl h.2
    | cons c cs => exact ⟨c, cs, rfl, Or.inl (h.1 c (by rw [hl]; simp))⟩
  | negSucc m =>
    have h := hnat (m + 1)
    have he : (Int.negSucc m).repr.toList = '-' :: (Nat.repr (m + 1)).toList := by
      show ("-" ++ Nat.repr (m + 1)).toList = _
      simp
    rw [he]
    refine ⟨?_, '-', _, rfl, Or.inr rfl⟩
    intro c hc
    rcases List.mem_cons.1 hc with rfl | hc
    · decide
    · exact hword c (h.1 c hc)

/-! ### Joined lists -/

/-- `sep s₁ sep s₂ …` -/
def tailText (sep : List Char) (ss : List String) : List Char := ss.flatMap (fun s => sep ++ s.toList)

theorem intercalate_cons (sep s : String) (ss : List String) :
    (String.intercalate sep (s :: ss)).toList = s.toList ++ tailText sep.toList ss := by
  rw [String.toList_intercalate]
  induction ss generalizing s with
  | nil => simp [tailText, List.intercalate]
  | cons t ss ih =>
    have := ih t
    simp only [List.map_cons] at this ⊢
    rw [List.intercalate_cons_cons, this]
    simp [tailText]

/-! ### The shapes of texts -/

/-- Texts of readable expressions that are not powers. -/
inductive TextShape : Expr → List Char → Prop
  | int {n} : TextShape (integer n) (toString n).toList
  | sym {s} : IsName s → TextShape (symbol s) s.toList
  | paren0 : TextShape (.node [mulH]) ['(', ')']
  | paren {h sep a as s ss} : (h = addH ∧ sep = [' ', '+', ' '] ∧ as ≠ []) ∨ (h = mulH ∧ sep = ['*']) →
      ReadableAll (a :: as) → PrintsAll reprStyle (a :: as) (s :: ss) →
      TextShape (.node (h :: a :: as)) ('(' :: (s.toList ++ tailText sep ss ++ [')']))
  | call0 {f} : IsName f → TextShape (.node [function f]) (f.toList ++ ['(', ')'])
  | call {f a as s ss} : IsName f → ReadableAll (a :: as) → PrintsAll reprStyle (a :: as) (s :: ss) →
      TextShape (.node (function f :: a :: as))
        (f.toList ++ '(' :: (s.toList ++ tailText [',', ' '] ss ++ [')']))

/-- An expression whose head is `pow`. -/
def IsPow (e : Expr) : Prop := ∃ args, e = .node (powH :: args)

theorem shows_function {f s : String} (h : Shows (function f) s) : s = f := by
  cases h; rfl

theorem readable_cases {e : Expr} {s : String} (hr : Readable e) (hp : Prints reprStyle e s) :
    (¬ IsPow e ∧ TextShape e s.toList) ∨
    ∃ b x sb sx, e = .node [powH, b, x] ∧ ¬ IsPow b ∧ Readable b ∧ Readable x ∧
      Prints reprStyle b sb ∧ Prints reprStyle x sx ∧
      s.toList = sb.toList ++ '*' :: '*' :: sx.toList := by
  obtain ⟨d1, d2, d3, _⟩ := heads_distinct
  cases hr with
  | int =>
    left
    refine ⟨(by rintro ⟨_, h⟩; cases h), ?_⟩
    cases hp
    exact .int
  | sym hn =>
    left
    refine ⟨(by rintro ⟨_, h⟩; cases h), ?_⟩
    cases hp
    exact .sym hn
  | @add args hl hra =>
    left
    refine ⟨(by rintro ⟨_, h⟩; injection h with h; injection h with h; exact d2 h.symm), ?_⟩
    generalize hff : addH = ff at hp
    cases hp with
    | mul => exact absurd hff d1
    | pow => exact absurd hff.symm d2
    | @add _ ss hall =>
      match args, hl, hra, ss, hall with
      | a :: b :: as, _, hra, s :: t :: ss, hall =>
        have := TextShape.paren (h := addH) (sep := [' ', '+', ' ']) (Or.inl ⟨rfl, rfl, by simp⟩) hra hall
        rw [String.toList_append, String.toList_append, intercalate_cons]
        simpa [reprStyle] using this
    | call h1 => exact absurd hff.symm h1
    | named h1 => cases h1
  | @mul args hra =>
    left
    refine ⟨(by rintro ⟨_, h⟩; injection h with h; injection h with h; exact d3 h.symm), ?_⟩
    generalize hff : mulH = ff at hp
    cases hp with
    | add => exact absurd hff.symm d1
    | pow => exact absurd hff.symm d3
    | @mul _ ss hall =>
      match args, hra, ss, hall with
      | [], _, [], _ => exact .paren0
      | a :: as, hra, s :: ss, hall =>
        have := TextShape.paren (h := mulH) (sep := ['*']) (Or.inr ⟨rfl, rfl⟩) hra hall
        rw [String.toList_append, String.toList_append, intercalate_cons]
        simpa [reprStyle] using this
    | call h1 h2 => exact absurd hff.symm h2
    | named h1 => cases h1
  | @pow b x hb hnb hx =>
    right
    generalize hff : powH = ff at hp
    cases hp with
    | add => exact absurd hff d2
    | mul => exact absurd hff d3
    | @pow _ _ sb sx h1 h2 =>
      refine ⟨b, x, sb, sx, rfl, (by rintro ⟨args, h⟩; exact hnb args h), hb, hx, h1, h2, ?_⟩
      simp [reprStyle, String.toList_append]
    | call _ _ h3 => exact absurd hff.symm h3
  | @call f args hn h1 h2 h3 hra =>
    left
    refine ⟨(by rintro ⟨_, h⟩; injection h with h; injection h with h; exact h3 h), ?_⟩
    generalize hff : function f = ff at hp h1 h2 h3
    cases hp with
    | add => exact absurd rfl h1
    | mul => exact absurd rfl h2
    | pow => exact absurd rfl h3
    | named h => cases h
    | @call _ _ sf ss _ _ _ _ hs hall =>
      subst hff
      have := shows_function hs
      subst this
      match args, hra, ss, hall with
      | [], _, [], _ =>
        have := TextShape.call0 (f := sf) hn
        simpa [String.toList_append] using this
      | a :: as, hra, s :: ss, hall =>
        have := TextShape.call hn hra hall
        rw [String.toList_append, String.toList_append, String.toList_append, intercalate_cons]
        simpa using this

/-- No text begins with `*` or `)`. -/
theorem text_start {e : Expr} {s : String} (hr : Readable e) (hp : Prints reprStyle e s) :
    ∃ c cs, s.toList = c :: cs ∧ c ≠ '*' ∧ c ≠ ')' := by
  have hname : ∀ f : String, IsName f → ∃ c cs, f.toList = c :: cs ∧ c ≠ '*' ∧ c ≠ ')' := by
    intro f hf
    obtain ⟨c, hc, _⟩ := hf.1
    cases hl : f.toList with
    | nil => rw [hl] at hc; cases hc
    | cons d ds =>
      have := name_word hf d (by rw [hl]; simp)
      refine ⟨d, ds, rfl, ?_, ?_⟩
      · rintro rfl; exact absurd this (by decide)
      · rintro rfl; exact absurd this (by decide)
  have hshape : ∀ {e : Expr} {l : List Char}, TextShape e l → ∃ c cs, l = c :: cs ∧ c ≠ '*' ∧ c ≠ ')' := by
    intro e l h
    cases h with
    | @int n =>
      obtain ⟨_, c, cs, h, h'⟩ := int_chars n
      refine ⟨c, cs, h, ?_, ?_⟩
      · rintro rfl; rcases h' with h' | h' <;> exact absurd h' (by decide)
      · rintro rfl; rcases h' with h' | h' <;> exact absurd h' (by decide)
    | sym hn => exact hname _ hn
    | paren0 => exact ⟨_, _, rfl, by decide, by decide⟩
    | paren => exact ⟨_, _, rfl, by decide, by decide⟩
    | @call0 f hn =>
      obtain ⟨c, cs, h, h1, h2⟩ := hname _ hn
      rw [h]
      exact ⟨c, _, rfl, h1, h2⟩
    | call hn =>
      obtain ⟨c, cs, h, h1, h2⟩ := hname _ hn
      rw [h]
      exact ⟨c, _, rfl, h1, h2⟩
  rcases readable_cases hr hp with ⟨_, h⟩ | ⟨b, x, sb, sx, _, hnb, hb, _, hpb, _, h⟩
  · exact hshape h
  · rcases readable_cases hb hpb with ⟨_, h'⟩ | ⟨b', x', _, _, rfl, _⟩
    · obtain ⟨c, cs, hc, h1, h2⟩ := hshape h'
      rw [h, hc]
      exact ⟨c, _, rfl, h1, h2⟩
    · exact absurd ⟨_, rfl⟩ hnb

/-! ### Unique reading -/

/-- The text of `e` followed by something can be read in one way only. -/
def Unique (e : Expr) : Prop := ∀ s e' s' r r', Readable e → Prints reprStyle e s → Readable e' →
  Prints reprStyle e' s' → StopE r → StopE r' → s.toList ++ r = s'.toList ++ r' → e = e' ∧ r = r'

/-- The same for what is not a power, when anything but a word or `(` may follow. -/
def UniqueP (e : Expr) : Prop := ∀ s e' s' r r', ¬ IsPow e → ¬ IsPow e' → Readable e →
  Prints reprStyle e s → Readable e' → Prints reprStyle e' s' → StopP r → StopP r' →
  s.toList ++ r = s'.toList ++ r' → e = e' ∧ r = r'

theorem stopE_paren (r : List Char) : StopE (')' :: r) := by
  constructor
  · intro c r' h; cases h; decide
  · intro r' h; cases h

/-- The separators. -/
def IsSep (sep : List Char) : Prop := sep = [' ', '+', ' '] ∨ sep = ['*'] ∨ sep = [',', ' ']

theorem stopE_tail {sep : List Char} (hsep : IsSep sep) {as : List Expr} {ss : List String}
    (hr : ReadableAll as) (hp : PrintsAll reprStyle as ss) (r : List Char) :
    StopE (tailText sep ss ++ ')' :: r) := by
  cases hp with
  | nil => exact stopE_paren r
  | @cons e es s ss h1 h2 =>
    cases hr with
    | cons hr1 hr2 =>
      obtain ⟨c, cs, hc, hne, _⟩ := text_start hr1 h1
      have ht : tailText sep (s :: ss) = sep ++ c :: (cs ++ tailText sep ss) := by
        simp [tailText, hc]
      rw [ht]
      rcases hsep with rfl | rfl | rfl
      · constructor
        · intro c r' h; cases h; decide
        · intro r' h; cases h
      · constructor
        · intro c r' h; cases h; decide
        · intro r' h
          simp only [List.cons_append, List.nil_append, List.cons.injEq, true_and] at h
          exact hne h.1
      · constructor
        · intro c r' h; cases h; decide
        · intro r' h; cases h

theorem tail_unique {sep : List Char} (hsep : IsSep sep) (as : List Expr) :
    (∀ a ∈ as, Unique a) → ∀ (ss : List String) (as' : List Expr) (ss' : List String) (r r' : List Char),
    ReadableAll as → PrintsAll reprStyle as ss → ReadableAll as' → PrintsAll reprStyle as' ss' →
    tailText sep ss ++ ')' :: r = tailText sep ss' ++ ')' :: r' → as = as' ∧ r = r' := by
  induction as with
  | nil =>
    intro _ ss as' ss' r r' _ hp hr' hp' h
    cases hp
    cases hp' with
    | nil => simp [tailText] at h; exact ⟨rfl, h⟩
    | cons h1 h2 =>
      exfalso
      rcases hsep with rfl | rfl | rfl <;> simp [tailText] at h
  | cons a as ih =>
    intro hu ss as' ss' r r' hr hp hr' hp' h
    cases hp with
    | @cons _ _ s ss h1 h2 =>
    cases hr with
    | cons hr1 hr2 =>
    cases hp' with
    | nil =>
      exfalso
      rcases hsep with rfl | rfl | rfl <;> simp [tailText] at h
    | @cons a' as' s' ss' h1' h2' =>
    cases hr' with
    | cons hr1' hr2' =>
    have h' : s.toList ++ (tailText sep ss ++ ')' :: r) = s'.toList ++ (tailText sep ss' ++ ')' :: r') := by
      have : sep ++ (s.toList ++ (tailText sep ss ++ ')' :: r)) =
          sep ++ (s'.toList ++ (tailText sep ss' ++ ')' :: r')) := by
        simpa [tailText] using h
      exact List.append_cancel_left this
    obtain ⟨rfl, h3⟩ := hu a (by simp) s a' s' _ _ hr1 h1 hr1' h1' (stopE_tail hsep hr2 h2 r)
      (stopE_tail hsep hr2' h2' r') h'
    obtain ⟨rfl, h4⟩ := ih (fun a ha => hu a (by simp [ha])) ss as' ss' r r' hr2 h2 hr2' h2' h3
    exact ⟨rfl, h4⟩

theorem sym_ne_int {s : String} {n : Int} (hs : IsName s) : s.toList ≠ (toString n).toList := by
  intro h
  obtain ⟨c, hc, h1⟩ := hs.1
  obtain ⟨_, d, ds, hd, h2⟩ := int_chars n
  rw [h, hd] at hc
  simp only [List.head?_cons, Option.some.injEq] at hc
  subst hc
  rcases h2 with h2 | rfl
  · rcases h1 with h1 | rfl
    · simp only [Char.isAlpha, Char.isUpper, Char.isLower, Char.isDigit, Bool.or_eq_true,
        Bool.and_eq_true, decide_eq_true_eq] at h1 h2
      rcases h1 with h1 | h1
      · exact absurd (UInt32.le_trans h1.1 h2.2) (by decide)
      · exact absurd (UInt32.le_trans h1.1 h2.2) (by decide)
    · exact absurd h2 (by decide)
  · rcases h1 with h1 | h1 <;> exact absurd h1 (by decide)

theorem toList_inj {s t : String} (h : s.toList = t.toList) : s = t := String.toList_inj.1 h

theorem name_ne_nil {f : String} (h : IsName f) : f.toList ≠ [] := by
  obtain ⟨c, hc, _⟩ := h.1
  intro hn
  rw [hn] at hc
  cases hc

theorem integer_inj {n m : Int} (h : (toString n).toList = (toString m).toList) : n = m := by
  have := toList_inj h
  rw [toString_int, toString_int] at this
  exact Int.repr_injective this

theorem shape_unique {e e' : Expr} {l l' r r' : List Char} (hs : TextShape e l) (hs' : TextShape e' l')
    (ih : ∀ c ∈ e.children, Unique c) (hr : StopP r) (hr' : StopP r') (h : l ++ r = l' ++ r') :
    e = e' ∧ r = r' := by
  cases hs with
  | @int n =>
    have hw := (int_chars n).1
    cases hs' with
    | @int m =>
      obtain ⟨h1, h2⟩ := word_unique hw (int_chars m).1 hr hr' h
      exact ⟨by rw [integer_inj h1], h2⟩
    | @sym s hn =>
      obtain ⟨h1, h2⟩ := word_unique hw (name_word hn) hr hr' h
      exact absurd h1.symm (sym_ne_int hn)
    | paren0 => exact absurd h (word_not_paren (w' := []) hw (by simp) hr)
    | paren => exact absurd h (word_not_paren (w' := []) hw (by simp) hr)
    | call0 hn =>
      simp only [List.append_assoc, List.cons_append, List.nil_append] at h
      exact absurd h (word_not_paren hw (name_word hn) hr)
    | call hn =>
      simp only [List.append_assoc, List.cons_append, List.nil_append] at h
      exact absurd h (word_not_paren hw (name_word hn) hr)
  | @sym s hn0 =>
    have hw := name_word hn0
    cases hs' with
    | @int m =>
      obtain ⟨h1, h2⟩ := word_unique hw (int_chars m).1 hr hr' h
      exact absurd h1 (sym_ne_int hn0)
    | @sym s hn =>
      obtain ⟨h1, h2⟩ := word_unique hw (name_word hn) hr hr' h
      exact ⟨by rw [toList_inj h1], h2⟩
    | paren0 => exact absurd h (word_not_paren (w' := []) hw (by simp) hr)
    | paren => exact absurd h (word_not_paren (w' := []) hw (by simp) hr)
    | call0 hn =>
      simp only [List.append_assoc, List.cons_append, List.nil_append] at h
      exact absurd h (word_not_paren hw (name_word hn) hr)
    | call hn =>
      simp only [List.append_assoc, List.cons_append, List.nil_append] at h
      exact absurd h (word_not_paren hw (name_word hn) hr)
  | paren0 =>
    simp only [List.cons_append, List.nil_append] at h
    cases hs' with
    | @int m => exact absurd h.symm (word_not_paren (w' := []) (int_chars m).1 (by simp) hr')
    | sym hn => exact absurd h.symm (word_not_paren (w' := []) (name_word hn) (by simp) hr')
    | paren0 =>
      simp only [List.cons_append, List.nil_append, List.cons.injEq, true_and] at h
      exact ⟨rfl, h⟩
    | @paren hd' sep' a' as' s' ss' hh' hra' hpa' =>
      exfalso
      cases hpa' with
      | cons hp1 _ =>
      cases hra' with
      | cons hr1 _ =>
      obtain ⟨c, cs, hc, _, h3⟩ := text_start hr1 hp1
      simp only [hc, List.cons_append, List.cons.injEq, true_and] at h
      exact h3 h.1.symm
    | call0 hn =>
      simp only [List.append_assoc, List.cons_append, List.nil_append] at h
      have := (word_paren_unique (w := []) (by simp) (name_word hn) h).1
      exact absurd this.symm (name_ne_nil hn)
    | call hn =>
      simp only [List.append_assoc, List.cons_append, List.nil_append] at h
      have := (word_paren_unique (w := []) (by simp) (name_word hn) h).1
      exact absurd this.symm (name_ne_nil hn)
  | @paren hd sep a as s ss hh hra hpa =>
    cases hs' with
    | @int m => exact absurd h.symm (word_not_paren (w' := []) (int_chars m).1 (by simp) hr')
    | sym hn => exact absurd h.symm (word_not_paren (w' := []) (name_word hn) (by simp) hr')
    | paren0 =>
      exfalso
      cases hpa with
      | cons hp1 _ =>
      cases hra with
      | cons hr1 _ =>
      obtain ⟨c, cs, hc, _, h3⟩ := text_start hr1 hp1
      simp only [hc, List.cons_append, List.cons.injEq, true_and] at h
      exact h3 h.1
    | @paren hd' sep' a' as' s' ss' hh' hra' hpa' =>
      have hsep : IsSep sep := by
        rcases hh with ⟨_, h, _⟩ | ⟨_, h⟩
        · exact Or.inl h
        · exact Or.inr (Or.inl h)
      have hsep' : IsSep sep' := by
        rcases hh' with ⟨_, h, _⟩ | ⟨_, h⟩
        · exact Or.inl h
        · exact Or.inr (Or.inl h)
      cases hpa with
      | @cons _ _ _ _ hp1 hp2 =>
      cases hra with
      | cons hr1 hr2 =>
      cases hpa' with
      | @cons _ _ _ _ hp1' hp2' =>
      cases hra' with
      | cons hr1' hr2' =>
      have h' : s.toList ++ (tailText sep ss ++ ')' :: r) =
          s'.toList ++ (tailText sep' ss' ++ ')' :: r') := by
        simp only [List.cons_append, List.cons.injEq, true_and, List.append_assoc,
          List.nil_append] at h
        exact h
      obtain ⟨rfl, h1⟩ := ih a (by simp [Tree.children]) s a' s' _ _ hr1 hp1 hr1' hp1'
        (stopE_tail hsep hr2 hp2 r) (stopE_tail hsep' hr2' hp2' r') h'
      have hmix : ∀ {as : List Expr} {ss ss' : List String} {r r' : List Char}, as ≠ [] →
          PrintsAll reprStyle as ss → tailText [' ', '+', ' '] ss ++ ')' :: r ≠
            tailText ['*'] ss' ++ ')' :: r' := by
        intro as ss ss' r r' hne hp h
        cases hp with
        | nil => exact hne rfl
        | cons _ _ => cases ss' <;> simp [tailText] at h
      have hss : hd = hd' ∧ sep = sep' := by
        rcases hh with ⟨rfl, rfl, hne⟩ | ⟨rfl, rfl⟩ <;> rcases hh' with ⟨rfl, rfl, hne'⟩ | ⟨rfl, rfl⟩
        · exact ⟨rfl, rfl⟩
        · exact absurd h1 (hmix hne hp2)
        · exact absurd h1.symm (hmix hne' hp2')
        · exact ⟨rfl, rfl⟩
      obtain ⟨rfl, rfl⟩ := hss
      obtain ⟨h2, h3⟩ := tail_unique hsep as
        (fun c hc => ih c (by simp only [Tree.children, List.mem_cons] at hc ⊢; tauto))
        ss as' ss' r r' hr2 hp2 hr2' hp2' h1
      rw [h2]
      exact ⟨rfl, h3⟩
    | call0 hn =>
      simp only [List.append_assoc, List.cons_append, List.nil_append] at h
      have := (word_paren_unique (w := []) (by simp) (name_word hn) h).1
      exact absurd this.symm (name_ne_nil hn)
    | call hn =>
      simp only [List.append_assoc, List.cons_append, List.nil_append] at h
      have := (word_paren_unique (w := []) (by simp) (name_word hn) h).1
      exact absurd this.symm (name_ne_nil hn)
  | @call0 f hn0 =>
    simp only [List.append_assoc, List.cons_append, List.nil_append] at h
    cases hs' with
    | @int m => exact absurd h.symm (word_not_paren (int_chars m).1 (name_word hn0) hr')
    | sym hn => exact absurd h.symm (word_not_paren (name_word hn) (name_word hn0) hr')
    | paren0 =>
      have := (word_paren_unique (w' := []) (name_word hn0) (by simp) h).1
      exact absurd this (name_ne_nil hn0)
    | paren =>
      have := (word_paren_unique (w' := []) (name_word hn0) (by simp) h).1
      exact absurd this (name_ne_nil hn0)
    | @call0 f' hn =>
      simp only [List.append_assoc, List.cons_append, List.nil_append] at h
      obtain ⟨h1, h2⟩ := word_paren_unique (name_word hn0) (name_word hn) h
      rw [toList_inj h1]
      exact ⟨rfl, (List.cons.inj h2).2⟩
    | @call f' a' as' s' ss' hn hra' hpa' =>
      simp only [List.append_assoc, List.cons_append, List.nil_append] at h
      obtain ⟨h1, h2⟩ := word_paren_unique (name_word hn0) (name_word hn) h
      exfalso
      cases hpa' with
      | cons hp1 _ =>
      cases hra' with
      | cons hr1 _ =>
      obtain ⟨c, cs, hc, _, h3⟩ := text_start hr1 hp1
      rw [hc] at h2
      exact h3 (List.cons.inj h2).1.symm
  | @call f a as s ss hn0 hra hpa =>
    simp only [List.append_assoc, List.cons_append, List.nil_append] at h
    cases hpa with
    | cons hp1 hp2 =>
    cases hra with
    | cons hr1 hr2 =>
    cases hs' with
    | @int m => exact absurd h.symm (word_not_paren (int_chars m).1 (name_word hn0) hr')
    | sym hn => exact absurd h.symm (word_not_paren (name_word hn) (name_word hn0) hr')
    | paren0 =>
      have := (word_paren_unique (w' := []) (name_word hn0) (by simp) h).1
      exact absurd this (name_ne_nil hn0)
    | paren =>
      have := (word_paren_unique (w' := []) (name_word hn0) (by simp) h).1
      exact absurd this (name_ne_nil hn0)
    | @call0 f' hn =>
      simp only [List.append_assoc, List.cons_append, List.nil_append] at h
      obtain ⟨h1, h2⟩ := word_paren_unique (name_word hn0) (name_word hn) h
      exfalso
      obtain ⟨c, cs, hc, _, h3⟩ := text_start hr1 hp1
      rw [hc] at h2
      exact h3 (List.cons.inj h2).1
    | @call f' a' as' s' ss' hn hra' hpa' =>
      simp only [List.append_assoc, List.cons_append, List.nil_append] at h
      obtain ⟨h1, h2⟩ := word_paren_unique (name_word hn0) (name_word hn) h
      obtain rfl := toList_inj h1
      cases hpa' with
      | cons hp1' hp2' =>
      cases hra' with
      | cons hr1' hr2' =>
      have h' : s.toList ++ (tailText [',', ' '] ss ++ ')' :: r) =
          s'.toList ++ (tailText [',', ' '] ss' ++ ')' :: r') := by
        simpa using h2
      have hsep : IsSep [',', ' '] := Or.inr (Or.inr rfl)
      obtain ⟨rfl, h3⟩ := ih a (by simp [Tree.children]) s a' s' _ _ hr1 hp1 hr1' hp1'
        (stopE_tail hsep hr2 hp2 r) (stopE_tail hsep hr2' hp2' r') h'
      obtain ⟨h4, h5⟩ := tail_unique hsep as
        (fun c hc => ih c (by simp [Tree.children, hc])) ss as' ss' r r' hr2 hp2 hr2' hp2' h3
      rw [h4]
      exact ⟨rfl, h5⟩

theorem stopP_stars (r : List Char) : StopP ('*' :: '*' :: r) := by
  intro c r' h; cases h; decide

theorem unique (e : Expr) : Unique e ∧ UniqueP e := by
  induction e using Tree.induction with
  | _ e ih =>
  have hP : UniqueP e := by
    intro s e' s' r r' hnp hnp' hr hp hr' hp' hst hst' h
    rcases readable_cases hr hp with ⟨_, hs⟩ | ⟨_, _, _, _, rfl, _⟩
    · rcases readable_cases hr' hp' with ⟨_, hs'⟩ | ⟨_, _, _, _, rfl, _⟩
      · exact shape_unique hs hs' (fun c hc => (ih c hc).1) hst hst' h
      · exact absurd ⟨_, rfl⟩ hnp'
    · exact absurd ⟨_, rfl⟩ hnp
  refine ⟨?_, hP⟩
  intro s e' s' r r' hr hp hr' hp' hst hst' h
  rcases readable_cases hr hp with ⟨hnp, hs⟩ | ⟨b, x, sb, sx, rfl, hnb, hb, hx, hpb, hpx, ht⟩
  · rcases readable_cases hr' hp' with ⟨hnp', hs'⟩ | ⟨b', x', sb', sx', rfl, hnb', hb', hx', hpb', hpx', ht'⟩
    · exact hP s e' s' r r' hnp hnp' hr hp hr' hp' hst.1 hst'.1 h
    · rw [ht', List.append_assoc] at h
      obtain ⟨_, h1⟩ := hP s b' sb' r _ hnp hnb' hr hp hb' hpb' hst.1 (stopP_stars _) h
      exact absurd h1 (hst.2 _)
  · rw [ht, List.append_assoc] at h
    rcases readable_cases hr' hp' with ⟨hnp', hs'⟩ | ⟨b', x', sb', sx', rfl, hnb', hb', hx', hpb', hpx', ht'⟩
    · obtain ⟨_, h1⟩ := (ih b (by simp [Tree.children])).2 sb e' s' _ r' hnb hnp' hb hpb hr' hp'
        (stopP_stars _) hst'.1 h
      exact absurd h1.symm (hst'.2 _)
    · rw [ht', List.append_assoc] at h
      obtain ⟨rfl, h1⟩ := (ih b (by simp [Tree.children])).2 sb b' sb' _ _ hnb hnb' hb hpb hb' hpb'
        (stopP_stars _) (stopP_stars _) h
      simp only [List.cons_append, List.cons.injEq, true_and] at h1
      obtain ⟨rfl, h2⟩ := (ih x (by simp [Tree.children])).1 sx x' sx' r r' hx hpx hx' hpx' hst hst' h1
      exact ⟨rfl, h2⟩

/-- **C42, partial.**  Different readable expressions print differently.

Missing from the full claim: the expressions that are not `Readable`; each of the restrictions is
needed (`C42_ambiguous_false`). -/
theorem C42_unambiguous_partial (e e' : Expr) (h : Readable e) (h' : Readable e') (s : String)
    (hs : e.repr = .ok s) (hs' : e'.repr = .ok s) : e = e' := by
  have hnil : StopE [] := ⟨fun c r h => (by cases h), fun r h => (by cases h)⟩
  exact ((unique e).1 s e' s [] [] h ((C46_repr e s).1 hs) h' ((C46_repr e' s).1 hs') hnil hnil rfl).1

/-- Readable expressions do print. -/
theorem C42_readable_prints (e : Expr) (h : Readable e) : ∃ s, e.repr = .ok s := by
  have total : ∀ e : Expr, Readable e → ∃ s, Prints reprStyle e s := by
    intro e
    induction e using Tree.induction with
    | _ e ih =>
    intro hr
    have hall : ∀ l : List Expr, (∀ c ∈ l, c ∈ e.children) → ReadableAll l →
        ∃ ss, PrintsAll reprStyle l ss := by
      intro l
      induction l with
      | nil => intro _ _; exact ⟨_, .nil⟩
      | cons c l ihl =>
        intro hm hra
        cases hra with
        | cons h1 h2 =>
        obtain ⟨ss, hss⟩ := ihl (fun c hc => hm c (by simp [hc])) h2
        obtain ⟨s, hs⟩ := ih c (hm c (by simp)) h1
        exact ⟨_, .cons hs hss⟩
    cases hr with
    | int => exact ⟨_, .atom trivial⟩
    | sym => exact ⟨_, .atom trivial⟩
    | @add args _ hra =>
      obtain ⟨ss, hss⟩ := hall args (fun c hc => by simp [Tree.children, hc]) hra
      exact ⟨_, .add hss⟩
    | @mul args hra =>
      obtain ⟨ss, hss⟩ := hall args (fun c hc => by simp [Tree.children, hc]) hra
      exact ⟨_, .mul hss⟩
    | @pow b x hb _ hx =>
      obtain ⟨s, hs⟩ := ih b (by simp [Tree.children]) hb
      obtain ⟨t, ht⟩ := ih x (by simp [Tree.children]) hx
      exact ⟨_, .pow hs ht⟩
    | @call f args _ h1 h2 h3 hra =>
      obtain ⟨ss, hss⟩ := hall args (fun c hc => by simp [Tree.children, hc]) hra
      exact ⟨_, .call h1 h2 h3 rfl .atom hss⟩
  obtain ⟨s, hs⟩ := total e h
  exact ⟨s, (C46_repr e s).2 hs⟩

/-- `sin(x + -1*y)**(f() + 2)` is readable. -/
example : Readable (pow (sin (add x (mul (integer (-1)) y))) (add (f.call []) (integer 2))) := by
  have hx : IsName "x" := ⟨⟨'x', rfl, by decide⟩, by decide⟩
  have hy : IsName "y" := ⟨⟨'y', rfl, by decide⟩, by decide⟩
  have hf : IsName "f" := ⟨⟨'f', rfl, by decide⟩, by decide⟩
  have hsin : IsName "sin" := ⟨⟨'s', rfl, by decide⟩, by decide⟩
  refine .pow (.call hsin (by decide) (by decide) (by decide)
    (.cons (.add (by decide) (.cons (.sym hx) (.cons
      (.mul (.cons .int (.cons (.sym hy) .nil))) .nil))) .nil)) ?_
    (.add (by decide) (.cons (.call hf (by decide) (by decide) (by decide) .nil)
      (.cons .int .nil)))
  intro args h
  injection h with h
  injection h with h
  exact absurd h (by decide)

example : (pow (sin (add x (mul (integer (-1)) y))) (add (f.call []) (integer 2))).repr =
    .ok "sin((x + (-1*y)))**(f() + 2)" := by decide +kernel

/-! ### What printing cannot tell apart -/

theorem prints_call_congr {h : Expr} {args args' : List Expr} {s : String}
    (hall : ∀ ss, PrintsAll reprStyle args ss → PrintsAll reprStyle args' ss)
    (hp : Prints reprStyle (.node (h :: args)) s) : Prints reprStyle (.node (h :: args')) s := by
  cases hp with
  | add h1 => exact .add (hall _ h1)
  | mul h1 => exact .mul (hall _ h1)
  | pow h1 h2 =>
    have := hall _ (.cons h1 (.cons h2 .nil))
    cases this with
    | cons g1 g2 =>
    cases g2 with
    | cons g2 g3 =>
    cases g3
    exact .pow g1 g2
  | named h1 => cases h1
  | call h1 h2 h3 h4 h5 h6 => exact .call h1 h2 h3 h4 h5 (hall _ h6)

theorem prints_pow_iff {b x : Expr} {s : String} : Prints reprStyle (pow b x) s ↔
    ∃ sb sx, Prints reprStyle b sb ∧ Prints reprStyle x sx ∧ s = sb ++ "**" ++ sx := by
  obtain ⟨d1, d2, d3, _⟩ := heads_distinct
  constructor
  · intro hp
    generalize he : pow b x = e at hp
    cases hp with
    | atom => cases he
    | add => exact absurd (List.cons.inj (Tree.node.inj he)).1 d2
    | mul => exact absurd (List.cons.inj (Tree.node.inj he)).1 d3
    | pow h1 h2 =>
      have := (List.cons.inj (Tree.node.inj he)).2
      obtain rfl := (List.cons.inj this).1
      obtain rfl := (List.cons.inj (List.cons.inj this).2).1
      exact ⟨_, _, h1, h2, rfl⟩
    | named h1 => cases h1
    | call _ _ h3 => exact absurd (List.cons.inj (Tree.node.inj he)).1.symm h3
  · rintro ⟨sb, sx, h1, h2, rfl⟩
    exact .pow h1 h2

theorem intercalate_single {sep sep' : String} {ss : List String} (h : ss.length < 2) :
    String.intercalate sep ss = String.intercalate sep' ss := by
  match ss, h with
  | [], _ => rfl
  | [s], _ => rfl

theorem printsAll_length {st : Style} : ∀ {es : List Expr} {ss : List String}, PrintsAll st es ss →
    es.length = ss.length
  | _, _, .nil => rfl
  | _, _, .cons _ h => congrArg (· + 1) (printsAll_length h)

theorem prints_single {args : List Expr} (hl : args.length < 2) {s : String} :
    Prints reprStyle (.node (addH :: args)) s ↔ Prints reprStyle (.node (mulH :: args)) s := by
  obtain ⟨d1, d2, d3, _⟩ := heads_distinct
  constructor
  · intro hp
    generalize hff : addH = ff at hp
    cases hp with
    | mul => exact absurd hff d1
    | pow => exact absurd hff.symm d2
    | @add _ ss hall =>
      have := Prints.mul hall
      rwa [intercalate_single (sep' := reprStyle.plus)
        (show ss.length < 2 by rw [← printsAll_length hall]; exact hl)] at this
    | call h1 => exact absurd hff.symm h1
    | named h1 => cases h1
  · intro hp
    generalize hff : mulH = ff at hp
    cases hp with
    | add => exact absurd hff.symm d1
    | pow => exact absurd hff.symm d3
    | @mul _ ss hall =>
      have := Prints.add hall
      rwa [intercalate_single (sep' := reprStyle.times)
        (show ss.length < 2 by rw [← printsAll_length hall]; exact hl)] at this
    | call _ h1 => exact absurd hff.symm h1
    | named h1 => cases h1

mutual
theorem conflated_prints : ∀ {e e' : Expr}, Conflated e e' →
    ∀ s, Prints reprStyle e s ↔ Prints reprStyle e' s
  | _, _, .refl => fun _ => Iff.rfl
  | _, _, .symm h => fun s => (conflated_prints h s).symm
  | _, _, .trans h h' => fun s => (conflated_prints h s).trans (conflated_prints h' s)
  | _, _, .call h => fun _ => ⟨prints_call_congr fun ss => (conflatedAll_prints h ss).1,
      prints_call_congr fun ss => (conflatedAll_prints h ss).2⟩
  | _, _, .power (a := a) (b := b) (c := c) => by
    intro s
    simp only [prints_pow_iff]
    constructor
    · rintro ⟨_, sc, ⟨sa, sb, h1, h2, rfl⟩, h3, rfl⟩
      exact ⟨sa, _, h1, ⟨sb, sc, h2, h3, rfl⟩, by simp only [String.append_assoc]⟩
    · rintro ⟨sa, _, h1, ⟨sb, sc, h2, h3, rfl⟩, rfl⟩
      exact ⟨_, sc, ⟨sa, sb, h1, h2, rfl⟩, h3, by simp only [String.append_assoc]⟩
  | _, _, .single hl => fun _ => prints_single hl
  | _, _, .name => fun _ => ⟨fun h => by cases h; exact .atom trivial,
      fun h => by cases h; exact .atom trivial⟩
theorem conflatedAll_prints : ∀ {es es' : List Expr}, ConflatedAll es es' →
    ∀ ss, PrintsAll reprStyle es ss ↔ PrintsAll reprStyle es' ss
  | _, _, .nil => fun _ => Iff.rfl
  | _, _, .cons h h' => by
    intro ss
    constructor
    · intro hp
      cases hp with
      | cons h1 h2 => exact .cons ((conflated_prints h _).1 h1) ((conflatedAll_prints h' _).1 h2)
    · intro hp
      cases hp with
      | cons h1 h2 => exact .cons ((conflated_prints h _).2 h1) ((conflatedAll_prints h' _).2 h2)
end

theorem conflatedAll_length : ∀ {es es' : List Expr}, ConflatedAll es es' → es.length = es'.length
  | _, _, .nil => rfl
  | _, _, .cons _ h => congrArg (· + 1) (conflatedAll_length h)

theorem conflatedAll_refl : ∀ es : List Expr, ConflatedAll es es
  | [] => .nil
  | _ :: es => .cons .refl (conflatedAll_refl es)

/-- Powers can be bracketed to the right. -/
theorem normal_pow (b : Expr) : ∀ x, Readable b → Readable x →
    ∃ n, Readable n ∧ Conflated (pow b x) n := by
  induction b using Tree.induction with
  | _ b ih =>
  intro x hb hx
  by_cases hp : IsPow b
  · obtain ⟨args, rfl⟩ := hp
    generalize he : (Tree.node (powH :: args) : Expr) = e at hb
    obtain ⟨d1, d2, d3, _⟩ := heads_distinct
    cases hb with
    | int => cases he
    | sym => cases he
    | add => exact absurd (List.cons.inj (Tree.node.inj he)).1 d2
    | mul => exact absurd (List.cons.inj (Tree.node.inj he)).1 d3
    | @pow b1 b2 h1 h2 h3 =>
      obtain rfl := (List.cons.inj (Tree.node.inj he)).2
      obtain ⟨n, hn1, hn2⟩ := ih b2 (by simp [Tree.children]) x h3 hx
      exact ⟨pow b1 n, .pow h1 h2 hn1,
        .trans .power (.call (h := powH) (.cons .refl (.cons hn2 .nil)))⟩
    | call _ _ _ h3 => exact absurd (List.cons.inj (Tree.node.inj he)).1.symm h3
  · exact ⟨pow b x, .pow hb (fun args h => hp ⟨args, h⟩) hx, .refl⟩

mutual
theorem normal_form : ∀ {e : Expr}, WellNamed e → ∃ n, Readable n ∧ Conflated e n
  | _, .int => ⟨_, .int, .refl⟩
  | _, .sym h => ⟨_, .sym h, .refl⟩
  | _, .fn (s := s) h => ⟨symbol s, .sym h, .name⟩
  | _, .call (f := f) (args := args) h1 h2 h3 => by
    obtain ⟨ns, hr, hc⟩ := normal_forms h3
    have hlen := conflatedAll_length hc
    by_cases ha : function f = addH
    · rw [ha]
      by_cases hl : args.length < 2
      · exact ⟨.node (mulH :: ns), .mul hr, .trans (.single hl) (.call hc)⟩
      · exact ⟨.node (addH :: ns), .add (by omega) hr, .call hc⟩
    · by_cases hm : function f = mulH
      · rw [hm]
        exact ⟨.node (mulH :: ns), .mul hr, .call hc⟩
      · exact ⟨.node (function f :: ns), .call h1 ha hm h2 hr, .call hc⟩
  | _, .pow (b := b) (e := x) hb hx => by
    obtain ⟨nb, h1, h2⟩ := normal_form hb
    obtain ⟨nx, h3, h4⟩ := normal_form hx
    obtain ⟨n, h5, h6⟩ := normal_pow nb nx h1 h3
    exact ⟨n, h5, .trans (.call (h := powH) (.cons h2 (.cons h4 .nil))) h6⟩
theorem normal_forms : ∀ {es : List Expr}, WellNamedAll es → ∃ ns, ReadableAll ns ∧ ConflatedAll es ns
  | _, .nil => ⟨[], .nil, .nil⟩
  | _, .cons h h' => by
    obtain ⟨n, h1, h2⟩ := normal_form h
    obtain ⟨ns, h3, h4⟩ := normal_forms h'
    exact ⟨n :: ns, .cons h1 h3, .cons h2 h4⟩
end

/-- **C42, exactly.**  Two expressions with proper names print the same if and only if they are equal
up to the bracketing of powers of powers, `Add` and `Mul` of fewer than two terms, and a `Function`
as an argument in place of the `Symbol` of the same name.  (And they do print.) -/
theorem C42_exact (e e' : Expr) (h : WellNamed e) (h' : WellNamed e') :
    (∃ s, e.repr = .ok s) ∧ (e.repr = e'.repr ↔ Conflated e e') := by
  obtain ⟨n, h1, h2⟩ := normal_form h
  obtain ⟨n', h1', h2'⟩ := normal_form h'
  obtain ⟨s, hs⟩ := C42_readable_prints n h1
  have hse : e.repr = .ok s :=
    (C46_repr e s).2 ((conflated_prints h2 s).2 ((C46_repr n s).1 hs))
  refine ⟨⟨s, hse⟩, ?_⟩
  constructor
  · intro heq
    rw [hse] at heq
    have hs' : n'.repr = .ok s :=
      (C46_repr n' s).2 ((conflated_prints h2' s).1 ((C46_repr e' s).1 heq.symm))
    obtain rfl := C42_unambiguous_partial n n' h1 h1' s hs hs'
    exact .trans h2 (.symm h2')
  · intro hc
    rw [hse]
    exact ((C46_repr e' s).2 ((conflated_prints hc s).1 ((C46_repr e s).1 hse))).symm

/-- `(x**y)**Add(f)` and `x**y**Mul(Symbol('f'))`: well named, conflated, and both print `x**y**(f)`. -/
example : WellNamed (pow (pow x y) (addH.call [f])) ∧
    WellNamed (pow x (pow y (mulH.call [symbol "f"]))) ∧
    Expr.repr (pow (pow x y) (addH.call [f])) = .ok "x**y**(f)" ∧
    Conflated (pow (pow x y) (addH.call [f])) (pow x (pow y (mulH.call [symbol "f"]))) := by
  have hx : IsName "x" := ⟨⟨'x', rfl, by decide⟩, by decide⟩
  have hy : IsName "y" := ⟨⟨'y', rfl, by decide⟩, by decide⟩
  have hf : IsName "f" := ⟨⟨'f', rfl, by decide⟩, by decide⟩
  have hA : IsName "Add" := ⟨⟨'A', rfl, by decide⟩, by decide⟩
  have hM : IsName "Mul" := ⟨⟨'M', rfl, by decide⟩, by decide⟩
  have w1 : WellNamed (pow (pow x y) (addH.call [f])) :=
    .pow (.pow (.sym hx) (.sym hy)) (.call (f := "Add") hA (by decide) (.cons (.fn hf) .nil))
  have w2 : WellNamed (pow x (pow y (mulH.call [symbol "f"]))) :=
    .pow (.sym hx) (.pow (.sym hy) (.call (f := "Mul") hM (by decide) (.cons (.sym hf) .nil)))
  refine ⟨w1, w2, by decide +kernel, ((C42_exact _ _ w1 w2).2).1 (by decide +kernel)⟩

/-- **C42 refuted as stated.**  A power of a power, sums and products with fewer than two terms,
symbols that are not names (`Symbol("1")`, `Symbol("x*y")`, `Symbol("f()")`), a `Symbol` and a
`Function` of the same name, a function applied to nothing against `Add()`: all print like
something else. -/
theorem C42_ambiguous_false :
    (pow (pow x y) (symbol "z") ≠ pow x (pow y (symbol "z")) ∧
      Expr.repr (pow (pow x y) (symbol "z")) = .ok "x**y**z" ∧
      Expr.repr (pow x (pow y (symbol "z"))) = .ok "x**y**z") ∧
    (addH.call [x] ≠ mulH.call [x] ∧ Expr.repr (addH.call [x]) = .ok "(x)" ∧
      Expr.repr (mulH.call [x]) = .ok "(x)") ∧
    (addH.call [] ≠ mulH.call [] ∧ Expr.repr (addH.call []) = .ok "()" ∧
      Expr.repr (mulH.call []) = .ok "()" ∧
      Expr.repr ((function "").call []) = .ok "()") ∧
    (symbol "1" ≠ integer 1 ∧ Expr.repr (symbol "1") = .ok "1" ∧
      Expr.repr (integer 1) = .ok "1") ∧
    (add (symbol "x + x") x ≠ addH.call [x, x, x] ∧
      Expr.repr (add (symbol "x + x") x) = .ok "(x + x + x)" ∧
      Expr.repr (addH.call [x, x, x]) = .ok "(x + x + x)") ∧
    (symbol "f()" ≠ f.call [] ∧ Expr.repr (symbol "f()") = .ok "f()" ∧
      Expr.repr (f.call []) = .ok "f()") ∧
    (symbol "f" ≠ f ∧ Expr.repr (symbol "f") = .ok "f" ∧ Expr.repr f = .ok "f") := by
  decide +kernel

end Verif.Props
