import Verif.Props.LLVMMatrix

/-!
# C37: what lambdify refuses
-/

set_option linter.unusedSectionVars false
set_option linter.unusedSimpArgs false
set_option exponentiation.threshold 2000

namespace Verif.Props
open Spec Expr

/-! ### `bin_expand` keeps the atoms and the other heads -/

/-- A leaf, or a head with its number of arguments. -/
def key (t : Expr) : Expr × Nat := if isLeaf t then (t, 0) else (headOf t, (argsOf t).length + 1)

/-- A leaf or a non-associative head occurs in `e`. -/
def Occurs (e : Expr) (k : Expr × Nat) : Prop :=
  ∃ t, ArgSub e t ∧ key t = k ∧ (isLeaf t = true ∨ ¬ IsAssocHead (headOf t))

theorem occurs_node (h : Expr) (args : List Expr) (k : Expr × Nat) :
    Occurs (.node (h :: args)) k ↔
      (¬ IsAssocHead h ∧ k = (h, args.length + 1)) ∨ ∃ c ∈ args, Occurs c k := by
  constructor
  · rintro ⟨t, ht, hk, ho⟩
    rcases argSub_node.1 ht with rfl | ⟨c, hc, hct⟩
    · rcases ho with ho | ho
      · cases ho
      · exact Or.inl ⟨ho, hk.symm⟩
    · exact Or.inr ⟨c, hc, t, hct, hk, ho⟩
  · rintro (⟨ho, rfl⟩ | ⟨c, hc, t, ht, hk, ho⟩)
    · exact ⟨_, argSub_node.2 (Or.inl rfl), rfl, Or.inr ho⟩
    · exact ⟨t, argSub_node.2 (Or.inr ⟨c, hc, ht⟩), hk, ho⟩

theorem occurs_leftNest {h : Expr} (hh : IsAssocHead h) (k : Expr × Nat) (as : List Expr) :
    ∀ a, Occurs (leftNest h a as) k ↔ ∃ c ∈ a :: as, Occurs c k := by
  induction as with
  | nil => intro a; simp [leftNest]
  | cons b bs ih =>
    intro a
    unfold leftNest
    rw [ih]
    simp only [List.mem_cons]
    constructor
    · rintro ⟨c, rfl | hc, ho⟩
      · rcases (occurs_node h [a, b] k).1 ho with ⟨h', _⟩ | ⟨c, hc, ho'⟩
        · exact absurd hh h'
        · simp only [List.mem_cons, List.not_mem_nil, or_false] at hc
          rcases hc with rfl | rfl
          · exact ⟨c, Or.inl rfl, ho'⟩
          · exact ⟨c, Or.inr (Or.inl rfl), ho'⟩
      · exact ⟨c, Or.inr (Or.inr hc), ho⟩
    · rintro ⟨c, rfl | rfl | hc, ho⟩
      · exact ⟨_, Or.inl rfl, (occurs_node h [c, b] k).2 (Or.inr ⟨c, by simp, ho⟩)⟩
      · exact ⟨_, Or.inl rfl, (occurs_node h [a, c] k).2 (Or.inr ⟨c, by simp, ho⟩)⟩
      · exact ⟨c, Or.inr hc, ho⟩

mutual
theorem binExpands_occurs {e u : Expr} (k : Expr × Nat) : BinExpands e u → (Occurs u k ↔ Occurs e k)
  | .atom => Iff.rfl
  | .other (h := h) (args := args) (args' := args') hh hall => by
    rw [occurs_node, occurs_node, binExpandsAll_occurs k hall, binExpandsAll_length hall]
  | .nest (h := h) (args := args) (a := a) (as := as) hh hall => by
    rw [occurs_node, occurs_leftNest hh, binExpandsAll_occurs k hall]
    constructor
    · intro h'; exact Or.inr h'
    · rintro (⟨h', _⟩ | h')
      · exact absurd hh h'
      · exact h'
theorem binExpandsAll_occurs {es us : List Expr} (k : Expr × Nat) : BinExpandsAll es us →
    ((∃ c ∈ us, Occurs c k) ↔ ∃ c ∈ es, Occurs c k)
  | .nil => by simp
  | .cons h hs => by
    simp only [List.mem_cons, exists_eq_or_imp]
    rw [binExpands_occurs k h, binExpandsAll_occurs k hs]
end

/-- What is checked about a leaf or head. -/
def checkKey (symargs : List Expr) (k : Expr × Nat) : PyM Unit :=
  match k.2 with
  | 0 => checkLeaf symargs k.1
  | n + 1 => checkLine k.1 n

theorem check_key (symargs : List Expr) (t : Expr) : check symargs t = checkKey symargs (key t) := by
  unfold check checkKey key
  cases isLeaf t <;> rfl

theorem check_assoc {symargs : List Expr} {t : Expr} (hl : isLeaf t = false)
    (hh : IsAssocHead (headOf t)) : check symargs t = .ok () := by
  unfold check
  rw [hl]
  rcases hh with h | h
  · simp [checkLine, h]
  · simp [checkLine, h, heads_distinct.1.symm]

/-- Everything in the expanded expression passes the checks iff everything in the expression
does. -/
theorem all_check_iff {symargs : List Expr} {e u : Expr} (hu : BinExpands e u) :
    (∀ t, ArgSub u t → check symargs t = .ok ()) ↔
      ∀ t, ArgSub e t → check symargs t = .ok () := by
  have key1 : ∀ v : Expr, (∀ t, ArgSub v t → check symargs t = .ok ()) ↔
      ∀ k, Occurs v k → checkKey symargs k = .ok () := by
    intro v
    constructor
    · rintro h k ⟨t, ht, rfl, _⟩
      rw [← check_key]; exact h t ht
    · intro h t ht
      by_cases ho : isLeaf t = true ∨ ¬ IsAssocHead (headOf t)
      · rw [check_key]; exact h _ ⟨t, ht, rfl, ho⟩
      · simp only [not_or, not_not] at ho
        exact check_assoc (by simpa using ho.1) ho.2
  rw [key1, key1]
  simp only [binExpands_occurs _ hu]

/-- A failing check comes from somewhere in the expression. -/
theorem check_error_source {symargs : List Expr} {e u : Expr} (hu : BinExpands e u) {t : Expr}
    (ht : ArgSub u t) {err : PyErr} (hc : check symargs t = .error err) :
    ∃ s, ArgSub e s ∧ check symargs s = .error err := by
  by_cases ho : isLeaf t = true ∨ ¬ IsAssocHead (headOf t)
  · obtain ⟨s, hs, hk, _⟩ := (binExpands_occurs _ hu).1 ⟨t, ht, rfl, ho⟩
    exact ⟨s, hs, by rw [check_key, hk, ← check_key]; exact hc⟩
  · simp only [not_or, not_not] at ho
    rw [check_assoc (by simpa using ho.1) ho.2] at hc
    cases hc

/-! ### What the checks mean -/

theorem doubleToHex_ok_iff (n : Int) :
    (∃ s, doubleToHex (.int n) = .ok s) ↔ |n| < 2 ^ 1024 - 2 ^ 970 := by
  constructor
  · rintro ⟨s, hs⟩
    by_contra hle
    obtain ⟨err, herr⟩ := (C45_too_large n).2.2 (not_lt.1 hle)
    rw [hs] at herr; cases herr
  · intro h
    obtain ⟨b, hb⟩ := doubleBits_some n h
    exact ⟨pyHex b, by simp [doubleToHex, hb]⟩

theorem checkLeaf_cases {symargs : List Expr} {t : Expr} (hdeg : t ≠ .node []) (hl : isLeaf t = true) :
    (checkLeaf symargs t = .ok () ∧ AtomSupported symargs t) ∨
    (checkLeaf symargs t = .error .llvmNotImplemented ∧ ¬ KnownAtom symargs t) ∨
    (checkLeaf symargs t = .error .structError ∧ KnownAtom symargs t ∧ ¬ AtomSupported symargs t) := by
  unfold checkLeaf
  by_cases hm : t ∈ symargs
  · exact Or.inl ⟨by simp [hm], Or.inl hm⟩
  · simp only [hm, if_false]
    cases t with
    | node cs =>
      cases cs with
      | nil => exact absurd rfl hdeg
      | cons c cs => cases hl
    | atom a =>
      obtain ⟨ty, val⟩ := a
      simp only
      by_cases hty : ty = Ty.integer
      · subst hty
        simp only [if_true]
        cases val with
        | str s =>
          right; right
          refine ⟨rfl, Or.inr ⟨_, rfl⟩, ?_⟩
          rintro (h | ⟨n, h, _⟩)
          · exact hm h
          · cases h
        | int n =>
          cases hd : doubleToHex (.int n) with
          | ok s => exact Or.inl ⟨rfl, Or.inr ⟨n, rfl, (doubleToHex_ok_iff n).1 ⟨s, hd⟩⟩⟩
          | error err =>
            right; right
            have := (C45_too_large n).1 err hd
            subst this
            refine ⟨rfl, Or.inr ⟨_, rfl⟩, ?_⟩
            rintro (h | ⟨n', h, hlt⟩)
            · exact hm h
            · cases h
              obtain ⟨s, hs⟩ := (doubleToHex_ok_iff n).2 hlt
              rw [hd] at hs; cases hs
      · simp only [hty, if_false]
        refine Or.inr (Or.inl ⟨trivial, ?_⟩)
        rintro (h | ⟨v, h⟩)
        · exact hm h
        · cases h; exact hty rfl

theorem checkLine_cases (h : Expr) (n : Nat) :
    (checkLine h n = .ok () ∧ KnownHead h ∧ (IsAssocHead h ∨ HeadAccepted h n)) ∨
    (checkLine h n = .error .llvmNotImplemented ∧ ¬ KnownHead h) ∨
    (checkLine h n = .error .indexError ∧ KnownHead h ∧ ¬ IsAssocHead h ∧ ¬ HeadAccepted h n) := by
  obtain ⟨d1, d2, d3, d4, d5, d6, d7, d8, d9, d10, _, _⟩ := heads_distinct
  unfold checkLine
  by_cases h1 : h = addH
  · subst h1; exact Or.inl ⟨by simp, Or.inl rfl, Or.inl (Or.inl rfl)⟩
  by_cases h2 : h = mulH
  · subst h2; exact Or.inl ⟨by simp [h1], Or.inr (Or.inl rfl), Or.inl (Or.inr rfl)⟩
  by_cases h3 : h = powH
  · subst h3
    simp only [h1, h2, if_false, if_true]
    by_cases hn : 2 ≤ n
    · exact Or.inl ⟨by simp [hn], Or.inr (Or.inr (Or.inl rfl)), Or.inr (Or.inr (Or.inl ⟨rfl, hn⟩))⟩
    · refine Or.inr (Or.inr ⟨by simp [hn], Or.inr (Or.inr (Or.inl rfl)), ?_, ?_⟩)
      · rintro (h | h)
        · exact h1 h
        · exact h2 h
      · rintro (⟨h | h, _⟩ | ⟨_, h⟩ | ⟨h | h, _⟩)
        · exact h1 h
        · exact h2 h
        · exact hn h
        · exact d6 h.symm
        · exact d9 h.symm
  by_cases h4 : h = sinH
  · subst h4
    simp only [h1, h2, h3, if_false, if_true]
    by_cases hn : 1 ≤ n
    · exact Or.inl ⟨by simp [hn], Or.inr (Or.inr (Or.inr (Or.inl rfl))),
        Or.inr (Or.inr (Or.inr ⟨Or.inl rfl, hn⟩))⟩
    · refine Or.inr (Or.inr ⟨by simp [hn], Or.inr (Or.inr (Or.inr (Or.inl rfl))), ?_, ?_⟩)
      · rintro (h | h)
        · exact h1 h
        · exact h2 h
      · rintro (⟨h | h, _⟩ | ⟨h, _⟩ | ⟨_, h⟩)
        · exact h1 h
        · exact h2 h
        · exact h3 h
        · exact hn h
  by_cases h5 : h = cosH
  · subst h5
    simp only [h1, h2, h3, h4, if_false, if_true]
    by_cases hn : 1 ≤ n
    · exact Or.inl ⟨by simp [hn], Or.inr (Or.inr (Or.inr (Or.inr rfl))),
        Or.inr (Or.inr (Or.inr ⟨Or.inr rfl, hn⟩))⟩
    · refine Or.inr (Or.inr ⟨by simp [hn], Or.inr (Or.inr (Or.inr (Or.inr rfl))), ?_, ?_⟩)
      · rintro (h | h)
        · exact h1 h
        · exact h2 h
      · rintro (⟨h | h, _⟩ | ⟨h, _⟩ | ⟨_, h⟩)
        · exact h1 h
        · exact h2 h
        · exact h3 h
        · exact hn h
  · simp only [h1, h2, h3, h4, h5, if_false]
    refine Or.inr (Or.inl ⟨trivial, ?_⟩)
    rintro (h | h | h | h | h)
    · exact h1 h
    · exact h2 h
    · exact h3 h
    · exact h4 h
    · exact h5 h

theorem nodeg_of_binExpand {e u : Expr} (h : binExpand e = .ok u) : ¬ ArgSub e (.node []) := by
  intro hs
  have hu' := (evalForward_ok_iff binExpandTransformer e Dict.empty u).1 h
  obtain ⟨w, hw⟩ := evalTree_ok_sub _ hs ⟨u, hu'⟩
  cases hw

theorem leaf_cases {t : Expr} (hdeg : t ≠ .node []) :
    (isLeaf t = true ∧ t.children = []) ∨ ∃ h args, t = .node (h :: args) := by
  cases t with
  | atom a => exact Or.inl ⟨rfl, rfl⟩
  | node cs =>
    cases cs with
    | nil => exact absurd rfl hdeg
    | cons h args => exact Or.inr ⟨h, args, rfl⟩

/-! ### C37 -/

/-- **C37, accepted.** IR is generated exactly when the parameters can be printed, every atom is a
parameter or an Integer that fits into a double, and every head is one of `Add`, `Mul`, `pow`,
`sin`, `cos` with enough arguments. -/
theorem C37_accepted_iff (symargs : List Expr) (e : Expr) :
    (∃ fn, toLlvm symargs e = .ok fn) ↔
      (∃ names, symargs.mapM treeStr = .ok names) ∧
      (∀ t, ArgSub e t → t.children = [] → AtomSupported symargs t) ∧
      (∀ h args, ArgSub e (.node (h :: args)) → HeadAccepted h args.length) := by
  constructor
  · rintro ⟨fn, hfn⟩
    obtain ⟨names, hn⟩ := names_of_ok hfn
    obtain ⟨u, hu, hck, _⟩ := toLlvm_inv hn hfn
    have hbe := (C20_bin_expand_nests e u).1 hu
    have hdeg := nodeg_of_binExpand hu
    have hck' := (all_check_iff hbe).1 hck
    refine ⟨⟨names, hn⟩, ?_, ?_⟩
    · intro t ht hc
      have hne : t ≠ .node [] := fun he => hdeg (he ▸ ht)
      have hl : isLeaf t = true := by unfold isLeaf; rw [hc]; rfl
      have h1 := hck' t ht
      unfold check at h1
      rw [hl] at h1
      simp only [if_true] at h1
      rcases checkLeaf_cases hne hl with ⟨_, h⟩ | ⟨h, _⟩ | ⟨h, _⟩
      · exact h
      · rw [h] at h1; cases h1
      · rw [h] at h1; cases h1
    · intro h args ht
      have h1 : checkLine h args.length = .ok () := hck' _ ht
      rcases checkLine_cases h args.length with ⟨_, _, h2 | h2⟩ | ⟨h2, _⟩ | ⟨h2, _⟩
      · refine Or.inl ⟨h2, ?_⟩
        rcases args with _ | ⟨a, args⟩
        · exact absurd h2 ((C20_bin_expand_raises e hdeg).1.1 ⟨u, hu⟩ h ht)
        · simp
      · exact h2
      · rw [h2] at h1; cases h1
      · rw [h2] at h1; cases h1
  · rintro ⟨⟨names, hn⟩, hat, hhd⟩
    have hdeg : ¬ ArgSub e (.node []) := by
      intro h
      rcases hat _ h rfl with h' | ⟨n, h', _⟩
      · obtain ⟨v, hv⟩ := mapM_ok_mem _ _ _ hn _ h'
        cases hv
      · cases h'
    obtain ⟨u, hu⟩ := (C20_bin_expand_raises e hdeg).1.2 (fun h hs _ => by
      rcases hhd h [] hs with ⟨_, hn'⟩ | ⟨_, hn'⟩ | ⟨_, hn'⟩ <;> simp at hn')
    have hbe := (C20_bin_expand_nests e u).1 hu
    have hck : ∀ t, ArgSub u t → check symargs t = .ok () := by
      refine (all_check_iff hbe).2 ?_
      intro t ht
      have hne : t ≠ .node [] := fun he => hdeg (he ▸ ht)
      rcases leaf_cases hne with ⟨hl, hc⟩ | ⟨h, args, rfl⟩
      · have hs := hat t ht hc
        unfold check
        rw [hl]
        simp only [if_true]
        rcases checkLeaf_cases hne hl with ⟨h, _⟩ | ⟨_, h⟩ | ⟨_, _, h⟩
        · exact h
        · refine absurd ?_ h
          rcases hs with hs | ⟨n, hs, _⟩
          · exact Or.inl hs
          · exact Or.inr ⟨_, hs⟩
        · exact absurd hs h
      · show checkLine h args.length = .ok ()
        have hs := hhd h args ht
        rcases checkLine_cases h args.length with ⟨h1, _⟩ | ⟨_, h1⟩ | ⟨_, _, _, h1⟩
        · exact h1
        · refine absurd ?_ h1
          rcases hs with ⟨hs | hs, _⟩ | ⟨hs, _⟩ | ⟨hs | hs, _⟩
          · exact Or.inl hs
          · exact Or.inr (Or.inl hs)
          · exact Or.inr (Or.inr (Or.inl hs))
          · exact Or.inr (Or.inr (Or.inr (Or.inl hs)))
          · exact Or.inr (Or.inr (Or.inr (Or.inr hs)))
        · exact absurd hs h1
    rw [toLlvm_eq symargs names e u hn hu]
    obtain ⟨ws, hws⟩ := mapM_ok_of_forall (check symargs) (graphOrder u)
      (fun t ht => ⟨(), hck t (mem_graphOrder.1 ht)⟩)
    rw [hws]
    exact ⟨_, rfl⟩

/-- **C37, refused.** For parameters that can be printed and an expression without `Tree()`:
which exceptions are raised, and why. -/
theorem C37_refused (symargs : List Expr) (names : List String) (e : Expr)
    (hn : symargs.mapM treeStr = .ok names) (hdeg : ¬ ArgSub e (.node [])) :
    ((∃ h, ArgSub e (.node [h]) ∧ IsAssocHead h) ↔ toLlvm symargs e = .error .typeError) ∧
    ∀ err, toLlvm symargs e = .error err → err = .typeError ∨
      (err = .llvmNotImplemented ∧ ((∃ t, ArgSub e t ∧ t.children = [] ∧ ¬ KnownAtom symargs t) ∨
        ∃ h args, ArgSub e (.node (h :: args)) ∧ ¬ KnownHead h)) ∨
      (err = .structError ∧
        ∃ t, ArgSub e t ∧ t.children = [] ∧ KnownAtom symargs t ∧ ¬ AtomSupported symargs t) ∨
      (err = .indexError ∧ ∃ h args, ArgSub e (.node (h :: args)) ∧ KnownHead h ∧
        ¬ IsAssocHead h ∧ ¬ HeadAccepted h args.length) := by
  have hraise := C20_bin_expand_raises e hdeg
  have hsource : ∀ u, binExpand e = .ok u → ∀ err, toLlvm symargs e = .error err →
      ∃ s, ArgSub e s ∧ check symargs s = .error err := by
    intro u hu err herr
    rw [toLlvm_eq symargs names e u hn hu] at herr
    cases hm : (graphOrder u).mapM (check symargs) with
    | ok us => rw [hm] at herr; cases herr
    | error err' =>
      rw [hm] at herr
      cases herr
      obtain ⟨pre, t, post, hsplit, hc, _⟩ := mapM_error _ _ _ hm
      exact check_error_source ((C20_bin_expand_nests e u).1 hu)
        (mem_graphOrder.1 (by rw [hsplit]; simp)) hc
  have hbad : ∀ err, binExpand e = .error err → toLlvm symargs e = .error .typeError := by
    intro err h
    have := hraise.2 err h
    subst this
    unfold toLlvm
    rw [h]; rfl
  have hclass : ∀ s, ArgSub e s → ∀ err, check symargs s = .error err →
      (err = .llvmNotImplemented ∧ ((∃ t, ArgSub e t ∧ t.children = [] ∧ ¬ KnownAtom symargs t) ∨
        ∃ h args, ArgSub e (.node (h :: args)) ∧ ¬ KnownHead h)) ∨
      (err = .structError ∧
        ∃ t, ArgSub e t ∧ t.children = [] ∧ KnownAtom symargs t ∧ ¬ AtomSupported symargs t) ∨
      (err = .indexError ∧ ∃ h args, ArgSub e (.node (h :: args)) ∧ KnownHead h ∧
        ¬ IsAssocHead h ∧ ¬ HeadAccepted h args.length) := by
    intro s hs err hc
    have hne : s ≠ .node [] := fun he => hdeg (he ▸ hs)
    rcases leaf_cases hne with ⟨hl, hch⟩ | ⟨h, args, rfl⟩
    · unfold check at hc
      rw [hl] at hc
      simp only [if_true] at hc
      rcases checkLeaf_cases hne hl with ⟨h1, _⟩ | ⟨h1, h2⟩ | ⟨h1, h2, h3⟩
      · rw [h1] at hc; cases hc
      · rw [h1] at hc; cases hc
        exact Or.inl ⟨rfl, Or.inl ⟨s, hs, hch, h2⟩⟩
      · rw [h1] at hc; cases hc
        exact Or.inr (Or.inl ⟨rfl, s, hs, hch, h2, h3⟩)
    · have hc' : checkLine h args.length = .error err := hc
      rcases checkLine_cases h args.length with ⟨h1, _⟩ | ⟨h1, h2⟩ | ⟨h1, h2, h3, h4⟩
      · rw [h1] at hc'; cases hc'
      · rw [h1] at hc'; cases hc'
        exact Or.inl ⟨rfl, Or.inr ⟨h, args, hs, h2⟩⟩
      · rw [h1] at hc'; cases hc'
        exact Or.inr (Or.inr ⟨rfl, h, args, hs, h2, h3, h4⟩)
  constructor
  · constructor
    · rintro ⟨h, hs, hh⟩
      cases hb : binExpand e with
      | ok u => exact absurd hh (hraise.1.1 ⟨u, hb⟩ h hs)
      | error err => exact hbad err hb
    · intro herr
      cases hb : binExpand e with
      | ok u =>
        obtain ⟨s, hs, hc⟩ := hsource u hb _ herr
        rcases hclass s hs _ hc with ⟨h, _⟩ | ⟨h, _⟩ | ⟨h, _⟩ <;> cases h
      | error err =>
        by_contra hno
        obtain ⟨u, hu⟩ := hraise.1.2 (fun h hs hh => hno ⟨h, hs, hh⟩)
        rw [hb] at hu; cases hu
  · intro err herr
    cases hb : binExpand e with
    | ok u =>
      obtain ⟨s, hs, hc⟩ := hsource u hb _ herr
      exact Or.inr (hclass s hs _ hc)
    | error err' =>
      rw [hbad err' hb] at herr
      exact Or.inl (Except.error.inj herr).symm

/-- **C37, as documented.** When all arities are sufficient and all Integers fit into a double:
`LLVMNotImplementedError` is raised exactly when some atom is neither a parameter nor an Integer
or some head is unknown, and otherwise IR is generated. -/
theorem C37_not_implemented (symargs : List Expr) (names : List String) (e : Expr)
    (hn : symargs.mapM treeStr = .ok names) (hdeg : ¬ ArgSub e (.node []))
    (hat : ∀ t, ArgSub e t → t.children = [] → KnownAtom symargs t → AtomSupported symargs t)
    (hhd : ∀ h args, ArgSub e (.node (h :: args)) → KnownHead h → HeadAccepted h args.length) :
    (toLlvm symargs e = .error .llvmNotImplemented ↔
      (∃ t, ArgSub e t ∧ t.children = [] ∧ ¬ KnownAtom symargs t) ∨
        ∃ h args, ArgSub e (.node (h :: args)) ∧ ¬ KnownHead h) ∧
    ((∃ fn, toLlvm symargs e = .ok fn) ∨ toLlvm symargs e = .error .llvmNotImplemented) := by
  have href := C37_refused symargs names e hn hdeg
  have hsub : ∀ h, IsAssocHead h → KnownHead h := by
    rintro h (h' | h')
    · exact Or.inl h'
    · exact Or.inr (Or.inl h')
  have herr : ∀ err, toLlvm symargs e = .error err → err = .llvmNotImplemented := by
    intro err h
    rcases href.2 err h with h' | ⟨h', _⟩ | ⟨_, t, ht, hc, h1, h2⟩ | ⟨_, hd, args, ht, h1, h2, h3⟩
    · subst h'
      obtain ⟨hd, hs, hh⟩ := href.1.2 h
      rcases hhd hd [] hs (hsub hd hh) with ⟨_, hn'⟩ | ⟨_, hn'⟩ | ⟨_, hn'⟩ <;> simp at hn'
    · exact h'
    · exact absurd (hat t ht hc h1) h2
    · exact absurd (hhd hd args ht h1) h3
  refine ⟨⟨fun h => ?_, fun h => ?_⟩, ?_⟩
  · rcases href.2 _ h with h' | ⟨_, h'⟩ | ⟨h', _⟩ | ⟨h', _⟩
    · cases h'
    · exact h'
    · cases h'
    · cases h'
  · cases hr : toLlvm symargs e with
    | error err => rw [herr err hr]
    | ok fn =>
      exfalso
      obtain ⟨_, h1, h2⟩ := (C37_accepted_iff symargs e).1 ⟨fn, hr⟩
      rcases h with ⟨t, ht, hc, hk⟩ | ⟨hd, args, ht, hk⟩
      · apply hk
        rcases h1 t ht hc with h | ⟨n, h, _⟩
        · exact Or.inl h
        · exact Or.inr ⟨_, h⟩
      · apply hk
        rcases h2 hd args ht with ⟨h | h, _⟩ | ⟨h, _⟩ | ⟨h | h, _⟩
        · exact Or.inl h
        · exact Or.inr (Or.inl h)
        · exact Or.inr (Or.inr (Or.inl h))
        · exact Or.inr (Or.inr (Or.inr (Or.inl h)))
        · exact Or.inr (Or.inr (Or.inr (Or.inr h)))
  · cases hr : toLlvm symargs e with
    | error err => rw [herr err hr]; exact Or.inr rfl
    | ok fn => exact Or.inl ⟨fn, rfl⟩

/-- A symbol that is no parameter, and a function without a rule. -/
example : toLlvm [x] (add x y) = .error .llvmNotImplemented ∧
    toLlvm [x] (f.call [x]) = .error .llvmNotImplemented ∧
    toLlvm [x] (addH.call []) = .error .typeError ∧
    toLlvm [x] (powH.call [x]) = .error .indexError ∧
    toLlvm [x] (integer (2 ^ 1024)) = .error .structError := by decide +kernel

/-- **C37, malformed arities.** Superfluous arguments are not refused but silently ignored:
`sin(x, y)` is compiled as `sin(x)` and `pow(x, y, x)` as `pow(x, y)`, although `eval_f64` raises
for them. -/
theorem C37_malformed_arity_false :
    (∃ fn, toLlvm [x, y] (sinH.call [x, y]) = .ok fn ∧ fn.body =
      [.call "%\".0\"" "sin" ["%\"x\""], .ret "%\".0\""]) ∧
    (∃ fn, toLlvm [x, y] (powH.call [x, y, x]) = .ok fn ∧ fn.body =
      [.call "%\".0\"" "pow" ["%\"x\"", "%\"y\""], .ret "%\".0\""]) :=
  ⟨⟨⟨false, ["%\"x\"", "%\"y\""], _⟩, by decide +kernel, rfl⟩,
    ⟨⟨false, ["%\"x\"", "%\"y\""], _⟩, by decide +kernel, rfl⟩⟩

/-- **C37, lambdify.** Arguments that are not expressions raise `AttributeError`, a second
argument that is neither an expression nor a matrix raises `TypeError`; otherwise `lambdify`
compiles what `_to_llvm_f64` or `_to_llvm_f64_matrix` generates. -/
theorem C37_lambdify (args : List PyObj) (a : LambdifyArg) :
    ((∃ o ∈ args, ∀ e, o ≠ .expr e) → lambdifyCode args a = .error .attributeError) ∧
    ∀ es : List Expr, args = es.map .expr →
      lambdifyCode args .other = .error .typeError ∧
      (∀ e, lambdifyCode args (.expr e) = toLlvm es e) ∧
      (∀ m, lambdifyCode args (.matrix m) = toLlvmMatrix es m) := by
  constructor
  · rintro ⟨o, ho, hne⟩
    have : args.mapM PyObj.rep = .error .attributeError := by
      induction args with
      | nil => cases ho
      | cons b args ih =>
        rw [List.mapM_cons]
        rcases List.mem_cons.1 ho with rfl | ho
        · cases o with
          | expr e => exact absurd rfl (hne e)
          | _ => rfl
        · rw [ih ho]
          cases b <;> rfl
    unfold lambdifyCode
    rw [this]; rfl
  · rintro es rfl
    have : (es.map PyObj.expr).mapM PyObj.rep = .ok es := by
      induction es with
      | nil => rfl
      | cons e es ih => rw [List.map_cons, List.mapM_cons, ih]; rfl
    refine ⟨?_, fun e => ?_, fun m => ?_⟩ <;> unfold lambdifyCode <;> rw [this] <;> rfl

theorem toLlvm_ok_iff {symargs : List Expr} {names : List String} {e : Expr}
    (hn : symargs.mapM treeStr = .ok names) : (∃ fn, toLlvm symargs e = .ok fn) ↔
      ∃ u, BinExpands e u ∧ ∀ t, ArgSub u t → check symargs t = .ok () := by
  constructor
  · rintro ⟨fn, hfn⟩
    obtain ⟨u, hu, hck, _⟩ := toLlvm_inv hn hfn
    exact ⟨u, (C20_bin_expand_nests e u).1 hu, hck⟩
  · rintro ⟨u, hu, hck⟩
    rw [toLlvm_eq symargs names e u hn ((C20_bin_expand_nests e u).2 hu)]
    obtain ⟨ws, hws⟩ := mapM_ok_of_forall (check symargs) (graphOrder u)
      (fun t ht => ⟨(), hck t (mem_graphOrder.1 ht)⟩)
    rw [hws]
    exact ⟨_, rfl⟩

theorem mem_below_list {us : List Expr} {t : Expr} :
    t ∈ graphAtoms (.node (listH :: us)) ++ elementNodes us ↔ ∃ u ∈ us, ArgSub u t := by
  have hmem : t ∈ graphOrder (.node (listH :: us)) ↔
      t ∈ graphAtoms (.node (listH :: us)) ++ elementNodes us ∨ t = .node (listH :: us) := by
    rw [graphOrder_split, graphNodes_list, ← List.append_assoc]
    simp [or_assoc]
  constructor
  · intro ht
    have hne : t ≠ .node (listH :: us) := by
      rintro rfl
      have hn' := nodup_graphOrder (.node (listH :: us) : Expr)
      rw [graphOrder_split, graphNodes_list, ← List.append_assoc] at hn'
      exact (List.nodup_append.1 hn').2.2 _ ht _ (by simp) rfl
    rcases argSub_node.1 (mem_graphOrder.1 (hmem.2 (Or.inl ht))) with h | h
    · exact absurd h hne
    · exact h
  · rintro ⟨u, hu, ht⟩
    rcases hmem.1 (mem_graphOrder.2 (argSub_node.2 (Or.inr ⟨u, hu, ht⟩))) with h | h
    · exact h
    · exfalso
      subst h
      have h1 := ht.size_le
      have h2 : u.size < (Tree.node (listH :: us) : Expr).size :=
        size_child (by simp [Tree.children, hu])
      omega

/-- **C37, matrices.** IR is generated for a matrix exactly when the parameters can be printed and
IR is generated for every stored entry. -/
theorem C37_matrix_accepted_iff (symargs : List Expr) (m : Mat) (hm : MatHistory m) :
    (∃ fn, toLlvmMatrix symargs m = .ok fn) ↔
      (∃ names, symargs.mapM treeStr = .ok names) ∧
      ∀ (i j : Nat) (e : Expr), Stores m i j → m.getItem (.pair i j) = .ok e →
        ∃ fn, toLlvm symargs e = .ok fn := by
  have hw := history_wf hm
  constructor
  · rintro ⟨fn, hfn⟩
    obtain ⟨names, us, hn, hus, hck, _⟩ := toLlvmMatrix_inv hw hfn
    refine ⟨⟨names, hn⟩, fun i j e hst hg => ?_⟩
    obtain ⟨n, hn'⟩ := Option.isSome_iff_exists.1 hst
    obtain ⟨e', he1, he2⟩ := entry_of_get hw.store hn'
    obtain ⟨hi, hj⟩ := hw.inside i j hst
    rw [hw.getItem i j hi hj] at hg
    have hent : (m.entry i j).getD zero = e' := by
      unfold Mat.entry; rw [he2]; rfl
    rw [hent] at hg
    obtain rfl := Except.ok.inj hg
    obtain ⟨u, hu, hbe⟩ := binExpandsAll_get hus he1
    exact (toLlvm_ok_iff hn).2 ⟨u, hbe, fun t ht =>
      hck t (mem_below_list.2 ⟨u, List.mem_of_getElem? hu, ht⟩)⟩
  · rintro ⟨⟨names, hn⟩, hok⟩
    have hel : ∀ e ∈ m.elements, ∃ u, BinExpands e u ∧ ∀ t, ArgSub u t → check symargs t = .ok () := by
      intro e he
      obtain ⟨n, hlt, rfl⟩ := List.getElem_of_mem he
      obtain ⟨i, j, _, hst, _, _, hget⟩ := element_stored hw (List.getElem?_eq_getElem hlt)
      exact (toLlvm_ok_iff hn).1 (hok i j _ hst hget)
    have hall : ∀ els : List Expr, (∀ e ∈ els, ∃ u, BinExpands e u ∧
        ∀ t, ArgSub u t → check symargs t = .ok ()) →
        ∃ us, BinExpandsAll els us ∧ ∀ u ∈ us, ∀ t, ArgSub u t → check symargs t = .ok () := by
      intro els
      induction els with
      | nil => intro _; exact ⟨[], .nil, fun u hu => by cases hu⟩
      | cons e els ih =>
        intro h
        obtain ⟨u, hu, hck⟩ := h e (by simp)
        obtain ⟨us, hus, hcks⟩ := ih (fun e' he' => h e' (by simp [he']))
        refine ⟨u :: us, .cons hu hus, ?_⟩
        intro v hv
        rcases List.mem_cons.1 hv with rfl | hv
        · exact hck
        · exact hcks v hv
    obtain ⟨us, hus, hck⟩ := hall m.elements hel
    rw [toLlvmMatrix_eq symargs names m us hn hw hus]
    obtain ⟨ws, hws⟩ := mapM_ok_of_forall (check symargs)
      (graphAtoms (.node (listH :: us)) ++ elementNodes us) (fun t ht => by
        obtain ⟨u, hu, hs⟩ := mem_below_list.1 ht
        exact ⟨(), hck u hu t hs⟩)
    rw [hws]
    exact ⟨_, rfl⟩

/-- Both directions occur. -/
example : (∃ fn, toLlvmMatrix [x, y] sampleMat = .ok fn) ∧
    ¬ ∃ fn, toLlvmMatrix [x] sampleMat = .ok fn := by
  have hm : MatHistory sampleMat := .new
    (entries := .list [.list [.expr x, .int 0], .list [.int 2, .expr (add (mul x y) (integer 1))]])
    (by decide)
  constructor
  · rw [C37_matrix_accepted_iff _ _ hm]
    refine ⟨⟨["x", "y"], rfl⟩, fun i j e hst he => ?_⟩
    obtain ⟨hi, hj⟩ := (history_wf hm).inside i j hst
    have hi' : i < 2 := hi
    have hj' : j < 2 := hj
    rw [C37_accepted_iff]
    refine ⟨⟨["x", "y"], rfl⟩, ?_⟩
    have hs : Supported [x, y] e := by
      interval_cases i <;> interval_cases j
      · obtain rfl := (Except.ok.inj (show Except.ok x = _ from he)).symm
        exact supported_of_check (by decide +kernel)
      · exact absurd hst (by unfold Stores; decide)
      · obtain rfl := (Except.ok.inj (show Except.ok (integer 2) = _ from he)).symm
        exact supported_of_check (by decide +kernel)
      · obtain rfl := (Except.ok.inj
          (show Except.ok (add (mul x y) (integer 1)) = _ from he)).symm
        exact supported_of_check (by decide +kernel)
    refine ⟨hs.atoms, fun h args ht => ?_⟩
    rcases hs.heads h args ht with h' | ⟨h1, h2⟩ | ⟨h1, h2⟩
    · exact Or.inl h'
    · exact Or.inr (Or.inl ⟨h1, by omega⟩)
    · exact Or.inr (Or.inr ⟨h1, by omega⟩)
  · rw [C37_matrix_accepted_iff _ _ hm]
    rintro ⟨_, h⟩
    obtain ⟨fn, hfn⟩ := h 1 1 (add (mul x y) (integer 1)) (by unfold Stores; decide) (by decide)
    have : toLlvm [x] (add (mul x y) (integer 1)) = .error .llvmNotImplemented := by decide +kernel
    rw [this] at hfn
    cases hfn

end Verif.Props
