import Verif.Props.DiffRules
import Verif.Lemmas.Rename
import Verif.Spec.DiffTable

/-!
# C52: the derivative, rule by rule
-/

set_option linter.unusedSectionVars false

namespace Verif.Props
open Spec Expr

theorem made_history {T : DiffTable} {p : DiffProps Val} (h : Made T p) : DiffHistory p := by
  induction h with
  | new => exact .new
  | rule _ hs ih => exact .rule ih hs
  | distributive _ ih => exact .distributive ih

theorem made_fields {T : DiffTable} {p : DiffProps Val} (h : Made T p) :
    p.zero = T.zero ∧ p.one = T.one ∧ p.add = T.add ∧ p.mul = T.mul ∧
      ∀ hd, hd ∈ p.distributive ↔ T.Distributive hd := by
  induction h with
  | new => exact ⟨rfl, rfl, rfl, rfl, fun hd => by simp [SymDifferentiator.new, DiffTable.Distributive]⟩
  | rule _ hs ih =>
    obtain ⟨hd, params, f, _, _, _, rfl⟩ := setItem_ok hs
    obtain ⟨h1, h2, h3, h4, h5⟩ := ih
    refine ⟨h1, h2, h3, h4, fun hd => (h5 hd).trans ?_⟩
    simp [DiffTable.Distributive]
  | distributive _ ih =>
    obtain ⟨h1, h2, h3, h4, h5⟩ := ih
    refine ⟨h1, h2, h3, h4, fun hd => ?_⟩
    have := h5 hd
    simp only [DiffTable.Distributive] at this ⊢
    simp only [DiffProps.addDistributive, List.mem_cons, this, DiffCommand.distributive.injEq]

theorem idx_of_count {params : List Expr} {sym : Expr} (hc : params.count sym = 1) (i : Nat) :
    params[i]? = some sym ↔ params.idxOf sym = i := by
  induction params generalizing i with
  | nil => simp at hc
  | cons a params ih =>
    rw [List.count_cons] at hc
    by_cases ha : a = sym
    · subst ha
      simp only [beq_self_eq_true, if_true, Nat.add_eq_right] at hc
      have hn : a ∉ params := List.count_eq_zero.1 hc
      rw [List.idxOf_cons_self]
      cases i with
      | zero => simp
      | succ i =>
        simp only [List.getElem?_cons_succ]
        constructor
        · intro h; exact absurd (List.mem_of_getElem? h) hn
        · intro h; cases h
    · rw [if_neg (by simpa using ha)] at hc
      rw [List.idxOf_cons_ne _ ha]
      cases i with
      | zero => simp [ha]
      | succ i => simp only [List.getElem?_cons_succ, ih (by simpa using hc) i, Nat.succ.injEq]

theorem made_rule {T : DiffTable} {p : DiffProps Val} (h : Made T p) (hd : Expr) (i : Nat) :
    (∀ params rhs, T.IsRule hd i params rhs →
      ∃ f, p.diffRules.get? (hd, i) = some f ∧ SubsFunc.new rhs params = .ok f) ∧
    (T.NoRule hd i → p.diffRules.get? (hd, i) = none) ∧
    ((∃ params rhs, T.IsRule hd i params rhs) ∨ T.NoRule hd i) := by
  induction h with
  | new =>
    refine ⟨?_, fun _ => rfl, .inr (fun _ _ _ h => by cases h)⟩
    rintro params rhs ⟨later, sym, earlier, h, _⟩
    simp at h
  | @distributive T p head hm ih =>
    obtain ⟨ih1, ih2, ih3⟩ := ih
    have hup : ∀ params rhs, T.IsRule hd i params rhs ↔
        DiffTable.IsRule { T with told := .distributive head :: T.told } hd i params rhs := by
      intro params rhs
      constructor
      · rintro ⟨later, sym, earlier, h1, h2, h3⟩
        refine ⟨.distributive head :: later, sym, earlier, by simp [h1], h2, ?_⟩
        intro ps s r hmem
        simp only [List.mem_cons, reduceCtorEq, false_or] at hmem
        exact h3 ps s r hmem
      · rintro ⟨later, sym, earlier, h1, h2, h3⟩
        cases later with
        | nil => simp at h1
        | cons c later =>
          simp only [List.cons_append, List.cons.injEq] at h1
          exact ⟨later, sym, earlier, h1.2, h2,
            fun ps s r hmem => h3 ps s r (List.mem_cons_of_mem _ hmem)⟩
    have hno : T.NoRule hd i ↔
        DiffTable.NoRule { T with told := .distributive head :: T.told } hd i := by
      simp [DiffTable.NoRule]
    refine ⟨fun params rhs hr => ih1 params rhs ((hup _ _).2 hr), fun hn => ih2 (hno.2 hn), ?_⟩
    rcases ih3 with ⟨params, rhs, h⟩ | h
    · exact .inl ⟨params, rhs, (hup _ _).1 h⟩
    · exact .inr (hno.1 h)
  | @rule T p p' pattern sym rhs hm hs ih =>
    obtain ⟨ih1, ih2, ih3⟩ := ih
    obtain ⟨hd', params', f, rfl, hc, hf, rfl⟩ := setItem_ok hs
    have hget : (p.addDiffRule hd' (params'.idxOf sym) f).diffRules.get? (hd, i) =
        if hd' = hd ∧ params'[i]? = some sym then some f else p.diffRules.get? (hd, i) := by
      simp only [DiffProps.addDiffRule, Dict.get?_set, Prod.mk.injEq, idx_of_count hc]
    rw [hget]
    by_cases hit : hd' = hd ∧ params'[i]? = some sym
    · obtain ⟨rfl, hi⟩ := hit
      rw [if_pos ⟨rfl, hi⟩]
      refine ⟨?_, ?_, .inl ⟨params', rhs, [], sym, T.told, rfl, hi, by simp⟩⟩
      · rintro params rhs2 ⟨later, sym2, earlier, h1, h2, h3⟩
        cases later with
        | nil =>
          simp only [List.nil_append, List.cons.injEq, DiffCommand.rule.injEq, Tree.node.injEq,
            true_and] at h1
          obtain ⟨⟨h4, h5, h6⟩, h7⟩ := h1
          subst h4; subst h6
          exact ⟨f, rfl, hf⟩
        | cons c later =>
          simp only [List.cons_append, List.cons.injEq] at h1
          exact absurd hi (h3 params' sym rhs (by rw [h1.1]; simp))
      · intro hn
        exact absurd hi (hn params' sym rhs (by simp))
    · rw [if_neg hit]
      have hno : T.NoRule hd i ↔
          DiffTable.NoRule { T with told := .rule (.node (hd' :: params')) sym rhs :: T.told } hd i := by
        constructor
        · intro h ps s r hmem
          simp only [List.mem_cons, DiffCommand.rule.injEq, Tree.node.injEq, List.cons.injEq] at hmem
          rcases hmem with ⟨⟨h1, h2⟩, h3, h4⟩ | hmem
          · subst h2; subst h3; exact fun h5 => hit ⟨h1.symm, h5⟩
          · exact h ps s r hmem
        · intro h ps s r hmem
          exact h ps s r (by simp [hmem])
      have hup : ∀ params rhs2, T.IsRule hd i params rhs2 ↔ DiffTable.IsRule
          { T with told := .rule (.node (hd' :: params')) sym rhs :: T.told } hd i params rhs2 := by
        intro params rhs2
        constructor
        · rintro ⟨later, sym2, earlier, h1, h2, h3⟩
          refine ⟨.rule (.node (hd' :: params')) sym rhs :: later, sym2, earlier, by simp [h1], h2, ?_⟩
          intro ps s r hmem
          simp only [List.mem_cons, DiffCommand.rule.injEq, Tree.node.injEq, List.cons.injEq] at hmem
          rcases hmem with ⟨⟨h4, h5⟩, h6, h7⟩ | hmem
          · subst h5; subst h6; exact fun h8 => hit ⟨h4.symm, h8⟩
          · exact h3 ps s r hmem
        · rintro ⟨later, sym2, earlier, h1, h2, h3⟩
          cases later with
          | nil =>
            simp only [List.nil_append, List.cons.injEq, DiffCommand.rule.injEq, Tree.node.injEq]
              at h1
            obtain ⟨⟨⟨h4, h5⟩, h6, h7⟩, h8⟩ := h1
            subst h5; subst h6
            exact absurd ⟨h4, h2⟩ hit
          | cons c later =>
            simp only [List.cons_append, List.cons.injEq] at h1
            exact ⟨later, sym2, earlier, h1.2, h2,
              fun ps s r hmem => h3 ps s r (List.mem_cons_of_mem _ hmem)⟩
      refine ⟨fun params rhs hr => ih1 params rhs ((hup _ _).2 hr), fun hn => ih2 (hno.2 hn), ?_⟩
      rcases ih3 with ⟨params, rhs, h⟩ | h
      · exact .inl ⟨params, rhs, (hup _ _).1 h⟩
      · exact .inr (hno.1 h)

theorem call_instance {rhs : Expr} {params : List Expr} {f : SubsFunc Val}
    (hf : SubsFunc.new rhs params = .ok f) (args : List Expr) :
    (∀ r, f.call args = .ok r ↔ Instance params rhs args r) ∧
    (∀ err, f.call args = .error err ↔ err = .typeError ∧ params.length ≠ args.length) := by
  obtain ⟨f', h1, h2, h3⟩ := C12_subs_total rhs params
  obtain rfl := Except.ok.inj (hf.symm.trans h1)
  have hres : ∀ r, f.call args = .ok r ↔ Instance params rhs args r := by
    intro r
    by_cases hl : args.length = params.length
    · by_cases hr : rhs ∈ params
      · obtain ⟨f', h4, h5⟩ := C11_whole_expression rhs params hr
        obtain rfl := Except.ok.inj (hf.symm.trans h4)
        rw [h5 args hl]
        unfold pyLast
        constructor
        · intro h
          split at h
          · rename_i hlast; cases h; exact .last hr hl hlast
          · cases h
        · rintro (⟨hn, _⟩ | ⟨_, _, hlast⟩)
          · exact absurd hr hn
          · rw [hlast]
      · obtain ⟨f', h4, h5⟩ := C11_subs_simultaneous_partial rhs params (.inl hr)
        obtain rfl := Except.ok.inj (hf.symm.trans h4)
        rw [h5 args hl]
        constructor
        · intro h; cases h; exact .replaced hr hl
        · rintro (⟨_, _⟩ | ⟨hr', _, _⟩)
          · rfl
          · exact absurd hr' hr
    · rw [h2 args hl]
      constructor
      · intro h; cases h
      · rintro (⟨_, h⟩ | ⟨_, h, _⟩) <;> exact absurd h hl
  refine ⟨hres, fun err => ?_⟩
  by_cases hl : args.length = params.length
  · obtain ⟨r, hr⟩ := h3 args hl
    rw [hr]
    constructor
    · intro h; cases h
    · rintro ⟨_, h⟩; exact absurd hl.symm h
  · rw [h2 args hl]
    constructor
    · intro h; cases h; exact ⟨rfl, fun h => hl h.symm⟩
    · rintro ⟨rfl, _⟩; rfl

theorem chainTerm_iff {T : DiffTable} {p : DiffProps Val} (hm : Made T p) (h : Expr)
    (args : List Expr) (q : Expr × Nat) :
    (∀ r, chainTerm p h args q = .ok r ↔ ChainTerm T h args q r) ∧
    (∀ err, chainTerm p h args q = .error err ↔
      (err = .keyError ∧ T.NoRule h q.2) ∨
      (err = .typeError ∧ ∃ params rhs, T.IsRule h q.2 params rhs ∧ params.length ≠ args.length)) := by
  obtain ⟨h1, h2, h3⟩ := made_rule hm h q.2
  obtain ⟨hz, ho, ha, hmul, hdis⟩ := made_fields hm
  unfold chainTerm
  rcases h3 with ⟨params, rhs, hr⟩ | hn
  · obtain ⟨f, hg, hf⟩ := h1 params rhs hr
    obtain ⟨hc1, hc2⟩ := call_instance hf args
    have hsame : ∀ params' rhs', T.IsRule h q.2 params' rhs' → SubsFunc.new rhs' params' = .ok f := by
      intro params' rhs' hr'
      obtain ⟨f', hg', hf'⟩ := h1 params' rhs' hr'
      rw [hg] at hg'; cases hg'; exact hf'
    have hno : ¬ T.NoRule h q.2 := by
      intro hn; rw [h2 hn] at hg; cases hg
    simp only [hg, ho, hmul]
    constructor
    · intro r
      cases hcall : f.call args with
      | error err =>
        constructor
        · intro h; cases h
        · rintro (⟨hr', hi, _⟩ | ⟨hr', hi, _⟩) <;>
            · have := ((call_instance (hsame _ _ hr') args).1 _).2 hi
              rw [hcall] at this; cases this
      | ok r' =>
        constructor
        · intro h
          have hi := (hc1 r').1 hcall
          by_cases h1 : q.1 = T.one
          · simp only [h1, if_true] at h; cases h; exact .one hr hi h1
          · simp only [h1, if_false] at h; cases h; exact .times hr hi h1
        · rintro (⟨hr', hi, h1⟩ | ⟨hr', hi, h1⟩)
          · have := ((call_instance (hsame _ _ hr') args).1 _).2 hi
            rw [hcall] at this; cases this; simp only [h1, if_true]
          · have := ((call_instance (hsame _ _ hr') args).1 _).2 hi
            rw [hcall] at this; cases this; simp only [h1, if_false]
    · intro err
      cases hcall : f.call args with
      | ok r' =>
        constructor
        · intro h; cases h
        · rintro (⟨_, h⟩ | ⟨rfl, params', rhs', hr', hl⟩)
          · exact absurd h hno
          · have := ((call_instance (hsame _ _ hr') args).2 _).2 ⟨rfl, hl⟩
            rw [hcall] at this; cases this
      | error err' =>
        obtain ⟨rfl, hl⟩ := (hc2 err').1 hcall
        constructor
        · intro h; cases h; exact .inr ⟨rfl, params, rhs, hr, hl⟩
        · rintro (⟨_, h⟩ | ⟨rfl, _⟩)
          · exact absurd h hno
          · rfl
  · have hg := h2 hn
    have hnr : ∀ params rhs, ¬ T.IsRule h q.2 params rhs := by
      intro params rhs hr
      obtain ⟨f, hg', _⟩ := h1 params rhs hr
      rw [hg] at hg'; cases hg'
    simp only [hg]
    constructor
    · intro r
      constructor
      · intro h; cases h
      · rintro (⟨hr, _⟩ | ⟨hr, _⟩) <;> exact absurd hr (hnr _ _)
    · intro err
      constructor
      · intro h; cases h; exact .inl ⟨rfl, hn⟩
      · rintro (⟨rfl, _⟩ | ⟨_, params, rhs, hr, _⟩)
        · rfl
        · exact absurd hr (hnr _ _)

theorem sumOf_total {T : DiffTable} {p : DiffProps Val} (hm : Made T p) (ts : List Expr) :
    sumOf p ts = T.total ts := by
  obtain ⟨hz, ho, ha, hmul, hdis⟩ := made_fields hm
  cases ts with
  | nil => exact hz
  | cons t ts =>
    cases ts with
    | nil => rfl
    | cons t' ts =>
      show Tree.node (p.add :: _) = _
      rw [ha]; rfl

theorem varying_nonzero {T : DiffTable} {p : DiffProps Val} (hm : Made T p) (ds : List Expr) :
    varying p ds = T.nonzero ds := by
  unfold varying DiffTable.nonzero
  rw [(made_fields hm).1]

theorem mapM_forall₂ {α β : Type} (g : α → PyM β) (l : List α) (ds : List β) :
    l.mapM g = .ok ds ↔ List.Forall₂ (fun c d => g c = .ok d) l ds := by
  induction l generalizing ds with
  | nil =>
    constructor
    · intro h; cases h; exact .nil
    · intro h; cases h; rfl
  | cons c l ih =>
    rw [List.mapM_cons]
    constructor
    · intro h
      cases hc : g c with
      | error err => rw [hc] at h; cases h
      | ok b =>
        cases hl : l.mapM g with
        | error err => rw [hc, hl] at h; cases h
        | ok bs => rw [hc, hl] at h; cases h; exact .cons hc ((ih bs).1 hl)
    · intro h
      cases h with
      | cons h1 h2 => rw [h1, (ih _).2 h2]; rfl

theorem derivesAll_forall₂ {T : DiffTable} {x : Expr} {es ds : List Expr} :
    DerivesAll T x es ds ↔ List.Forall₂ (Derives T x) es ds := by
  induction es generalizing ds with
  | nil =>
    constructor
    · intro h; cases h; exact .nil
    · intro h; cases h; exact .nil
  | cons e es ih =>
    constructor
    · intro h; cases h with | cons h1 h2 => exact .cons h1 (ih.1 h2)
    · intro h; cases h with | cons h1 h2 => exact .cons h1 (ih.2 h2)

/-- The possible results of one step. -/
theorem derivStep_iff {T : DiffTable} {p : DiffProps Val} (hm : Made T p) (h : Expr)
    (args ds : List Expr) (d : Expr) : derivStep p h args ds = .ok d ↔
      (T.Distributive h ∧ d = .node (h :: ds)) ∨
      (¬ T.Distributive h ∧ h = T.add ∧ d = T.total ((T.nonzero ds).map Prod.fst)) ∨
      (¬ T.Distributive h ∧ h ≠ T.add ∧ h = T.mul ∧
        d = T.total ((T.nonzero ds).map fun q => .node (T.mul :: args.set q.2 q.1))) ∨
      (¬ T.Distributive h ∧ h ≠ T.add ∧ h ≠ T.mul ∧
        ∃ terms, List.Forall₂ (ChainTerm T h args) (T.nonzero ds) terms ∧ d = T.total terms) := by
  obtain ⟨hz, ho, ha, hmul, hdis⟩ := made_fields hm
  unfold derivStep
  rw [varying_nonzero hm, ha, hmul]
  by_cases h1 : h ∈ p.distributive
  · rw [if_pos h1]
    have h1' := (hdis h).1 h1
    simp only [Except.ok.injEq, h1', true_and, not_true_eq_false, false_and, or_false, eq_comm]
  have h1' : ¬ T.Distributive h := fun hd => h1 ((hdis h).2 hd)
  rw [if_neg h1]
  simp only [h1', false_and, false_or, not_false_eq_true, true_and]
  by_cases h2 : h = T.add
  · rw [if_pos h2]
    simp only [h2, ne_eq, not_true_eq_false, false_and, or_false, true_and, Except.ok.injEq,
      sumOf_total hm, eq_comm]
  rw [if_neg h2]
  simp only [h2, false_and, false_or, ne_eq, not_false_eq_true, true_and]
  by_cases h3 : h = T.mul
  · rw [if_pos h3]
    simp only [h3, not_true_eq_false, false_and, or_false, true_and, Except.ok.injEq,
      sumOf_total hm, eq_comm]
  rw [if_neg h3]
  simp only [h3, false_and, false_or, not_false_eq_true, true_and]
  have hfun : List.Forall₂ (ChainTerm T h args) = List.Forall₂ (fun q r => chainTerm p h args q = .ok r) := by
    congr 1
    funext q r
    exact propext ((chainTerm_iff hm h args q).1 r).symm
  rw [hfun]
  cases hmm : (T.nonzero ds).mapM (chainTerm p h args) with
  | error err =>
    constructor
    · intro h; cases h
    · rintro ⟨terms, h, _⟩
      rw [← mapM_forall₂, hmm] at h; cases h
  | ok terms =>
    constructor
    · intro h; cases h; exact ⟨terms, (mapM_forall₂ _ _ _).1 hmm, sumOf_total hm _⟩
    · rintro ⟨terms', h, rfl⟩
      rw [← mapM_forall₂, hmm] at h
      cases h
      exact congrArg Except.ok (sumOf_total hm _)

theorem deriv_iff {T : DiffTable} {p : DiffProps Val} (hm : Made T p) (x e : Expr) :
    ∀ d, deriv p x e = .ok d ↔ Derives T x e d := by
  obtain ⟨hz, ho, ha, hmul, hdis⟩ := made_fields hm
  induction e using Tree.induction with
  | _ e ih =>
  intro d
  cases hl : isLeaf e with
  | true =>
    have hc : e.children = [] := by simpa [isLeaf] using hl
    rw [deriv_leaf p x hl, hz, ho]
    by_cases hex : e = x
    · subst hex
      rw [if_pos rfl]
      constructor
      · intro h; cases h; exact .self hc
      · intro h
        cases h with
        | self => rfl
        | constant _ h => exact absurd rfl h
        | distributive => cases hc
        | sum => cases hc
        | product => cases hc
        | chain => cases hc
    · rw [if_neg hex]
      constructor
      · intro h; cases h; exact .constant hc hex
      · intro h
        cases h with
        | self => exact absurd rfl hex
        | constant => rfl
        | distributive => cases hc
        | sum => cases hc
        | product => cases hc
        | chain => cases hc
  | false =>
    cases e with
    | atom a => cases hl
    | node cs =>
      cases cs with
      | nil => cases hl
      | cons h args =>
        have hall : ∀ ds, args.mapM (deriv p x) = .ok ds ↔ DerivesAll T x args ds := by
          intro ds
          rw [derivesAll_forall₂, mapM_forall₂]
          have key : ∀ (as ds : List Expr), (∀ c ∈ as, c ∈ args) →
              (List.Forall₂ (fun c d => deriv p x c = .ok d) as ds ↔
                List.Forall₂ (Derives T x) as ds) := by
            intro as
            induction as with
            | nil => intro ds _; constructor <;> (intro h; cases h; exact .nil)
            | cons a as iha =>
              intro ds hs
              have h1 := ih a (by simp [Tree.children, hs a (by simp)])
              constructor
              · intro h
                cases h with
                | cons h2 h3 => exact .cons ((h1 _).1 h2) ((iha _ (fun c hc => hs c (by simp [hc]))).1 h3)
              · intro h
                cases h with
                | cons h2 h3 => exact .cons ((h1 _).2 h2) ((iha _ (fun c hc => hs c (by simp [hc]))).2 h3)
          exact key args ds (fun _ h => h)
        rw [deriv_node]
        constructor
        · intro h'
          cases hmm : args.mapM (deriv p x) with
          | error err => rw [hmm] at h'; cases h'
          | ok ds =>
            rw [hmm] at h'
            replace h' : derivStep p h args ds = .ok d := h'
            have hds := (hall ds).1 hmm
            rcases (derivStep_iff hm h args ds d).1 h' with ⟨h1, rfl⟩ | ⟨h1, rfl, rfl⟩ |
              ⟨h1, h2, rfl, rfl⟩ | ⟨h1, h2, h3, terms, h4, rfl⟩
            · exact .distributive h1 hds
            · exact .sum h1 hds
            · exact .product h1 h2 hds
            · exact .chain h1 h2 h3 hds h4
        · intro h'
          cases h' with
          | self hc => cases hc
          | constant hc => cases hc
          | distributive h1 hds =>
            rw [(hall _).2 hds]
            exact (derivStep_iff hm _ _ _ _).2 (.inl ⟨h1, rfl⟩)
          | sum h1 hds =>
            rw [(hall _).2 hds]
            exact (derivStep_iff hm _ _ _ _).2 (.inr (.inl ⟨h1, rfl, rfl⟩))
          | product h1 h2 hds =>
            rw [(hall _).2 hds]
            exact (derivStep_iff hm _ _ _ _).2 (.inr (.inr (.inl ⟨h1, h2, rfl, rfl⟩)))
          | chain h1 h2 h3 hds h4 =>
            rw [(hall _).2 hds]
            exact (derivStep_iff hm _ _ _ _).2 (.inr (.inr (.inr ⟨h1, h2, h3, _, h4, rfl⟩)))

/-- **C52.** For every differentiator a program can make: `e.diff(x)` returns `d` exactly when `d`
is the derivative of `e` by the sum rule, the product rule, the rules the program has given (the
latest for each head and position) with the chain rule, and distribution. -/
theorem C52_diff_exact (T : DiffTable) (p : DiffProps Val) (hm : Made T p) (e x d : Expr) :
    e.diff x 1 p = .ok d ↔ Derives T x e d := by
  rw [diff_ok_iff]; exact deriv_iff hm x e d

/-- **C52, simplecas.** The built-in differentiator is the one with these rules:
`sin(a)' = cos(a)`, `cos(a)' = -sin(a)`, `a**b` by `a` is `b*a**(b + -1)`, and `List` is
distributive. -/
theorem C52_builtin : Made simplecasTable builtinDiff := by
  obtain ⟨fs, hs1, hs2⟩ := setItem_accepts (SymDifferentiator.new addH mulH zero one) sinH
    (wild "a") (cos (wild "a")) [wild "a"] (by decide)
  obtain ⟨fc, hc1, hc2⟩ := setItem_accepts
    ((SymDifferentiator.new addH mulH zero one).addDiffRule sinH 0 fs) cosH
    (wild "a") (mul negone (sin (wild "a"))) [wild "a"] (by decide)
  obtain ⟨fp, hp1, hp2⟩ := setItem_accepts
    (((SymDifferentiator.new addH mulH zero one).addDiffRule sinH 0 fs).addDiffRule cosH 0 fc) powH
    (wild "a") (mul (wild "b") (pow (wild "a") (add (wild "b") negone))) [wild "a", wild "b"]
    (by decide)
  obtain ⟨fs', fc', fp', h1, h2, h3, _, hb⟩ := builtinDiff_eq
  obtain rfl := Except.ok.inj (hs1.symm.trans h1)
  obtain rfl := Except.ok.inj (hc1.symm.trans h2)
  obtain rfl := Except.ok.inj (hp1.symm.trans h3)
  rw [hb]
  exact Made.distributive (Made.rule (Made.rule (Made.rule Made.new hs2) hc2) hp2)

/-- `x*sin(x)`: two terms, in the order of the arguments. -/
example : Expr.diff (mul x (sin x)) x = .ok (add (mul one (sin x)) (mul x (cos x))) := by
  decide +kernel

/-- **C52, which exception.** `e.diff(x)` raises `err` exactly when, going through the compound
subexpressions of `e` in the order of `topological_sort`, the first one without a derivative fails
with `err`. -/
theorem C52_which_exception (T : DiffTable) (p : DiffProps Val) (hm : Made T p) (e x : Expr)
    (err : PyErr) :
    e.diff x 1 p = .error err ↔
      ∃ pre t post, (topologicalSort false [] e).filter (fun t => !t.children.isEmpty) =
          pre ++ t :: post ∧
        (∀ s ∈ pre, ∃ d, Derives T x s d) ∧ DiffFails T x t err := by
  rw [diff_one, diffForward_order]
  obtain ⟨hz, ho, ha, hmul, hdis⟩ := made_fields hm
  have horder : graphOrder e = (topologicalSort false [] e).filter isLeaf ++
      (topologicalSort false [] e).filter (fun t => !t.children.isEmpty) := rfl
  have hleaf : ∀ t ∈ (topologicalSort false [] e).filter isLeaf, ∃ d, deriv p x t = .ok d :=
    fun t ht => ⟨_, deriv_leaf p x (List.mem_filter.1 ht).2⟩
  -- failure of one node
  have hfail : ∀ t, isLeaf t = false → (∀ c ∈ argsOf t, ∃ d, deriv p x c = .ok d) →
      (deriv p x t = .error err ↔ DiffFails T x t err) := by
    intro t hl hargs
    cases t with
    | atom a => cases hl
    | node cs =>
      cases cs with
      | nil => cases hl
      | cons h args =>
        obtain ⟨ds, hds⟩ := mapM_ok_of_forall (deriv p x) args hargs
        have hall : DerivesAll T x args ds := by
          rw [derivesAll_forall₂]
          exact ((mapM_forall₂ _ _ _).1 hds).imp (fun c d h => (deriv_iff hm x c d).1 h)
        have huniq : ∀ ds', DerivesAll T x args ds' → ds' = ds := by
          intro ds' h
          rw [derivesAll_forall₂] at h
          have h' := (mapM_forall₂ (deriv p x) args ds').2
            (h.imp (fun c d h => (deriv_iff hm x c d).2 h))
          rw [hds] at h'; cases h'; rfl
        rw [deriv_node, hds]
        show derivStep p h args ds = .error err ↔ _
        unfold derivStep
        rw [varying_nonzero hm, ha, hmul]
        by_cases h1 : h ∈ p.distributive
        · rw [if_pos h1]
          have h1' := (hdis h).1 h1
          constructor
          · intro h; cases h
          · rintro (⟨h2, _⟩ | ⟨h2, _⟩) <;> exact absurd h1' h2
        have h1' : ¬ T.Distributive h := fun hd => h1 ((hdis h).2 hd)
        rw [if_neg h1]
        by_cases h2 : h = T.add
        · rw [if_pos h2]
          constructor
          · intro h; cases h
          · rintro (⟨_, h3, _⟩ | ⟨_, h3, _⟩) <;> exact absurd h2 h3
        rw [if_neg h2]
        by_cases h3 : h = T.mul
        · rw [if_pos h3]
          constructor
          · intro h; cases h
          · rintro (⟨_, _, h4, _⟩ | ⟨_, _, h4, _⟩) <;> exact absurd h3 h4
        rw [if_neg h3]
        have hconv : ∀ pre q post, T.nonzero ds = pre ++ q :: post →
            (∀ q' ∈ pre, ∃ r, chainTerm p h args q' = .ok r) →
            chainTerm p h args q = .error err →
            (T.nonzero ds).mapM (chainTerm p h args) = .error err := by
          intro pre q post h4 h5 h6
          obtain ⟨rs, hrs⟩ := mapM_ok_of_forall _ pre h5
          rw [h4, List.mapM_append, hrs, List.mapM_cons, h6]
          rfl
        constructor
        · intro h'
          cases hmm : (T.nonzero ds).mapM (chainTerm p h args) with
          | ok terms => rw [hmm] at h'; cases h'
          | error err' =>
            rw [hmm] at h'
            cases h'
            obtain ⟨pre, q, post, h4, h5, h6⟩ := mapM_error _ _ _ hmm
            have h6' : ∀ q' ∈ pre, ∃ r, ChainTerm T h args q' r := by
              intro q' hq'
              obtain ⟨r, hr⟩ := h6 q' hq'
              exact ⟨r, ((chainTerm_iff hm h args q').1 r).1 hr⟩
            rcases ((chainTerm_iff hm h args q).2 _).1 h5 with ⟨rfl, hn⟩ | ⟨rfl, params, rhs, hr, hl⟩
            · exact .missing h1' h2 h3 hall h4 h6' hn
            · exact .arity h1' h2 h3 hall h4 h6' hr hl
        · intro h'
          have hpre : ∀ pre : List (Expr × Nat), (∀ q' ∈ pre, ∃ r, ChainTerm T h args q' r) →
              ∀ q' ∈ pre, ∃ r, chainTerm p h args q' = .ok r := by
            intro pre hp q' hq'
            obtain ⟨r, hr⟩ := hp q' hq'
            exact ⟨r, ((chainTerm_iff hm h args q').1 r).2 hr⟩
          cases h' with
          | missing _ _ _ h4 h5 h6 h7 =>
            obtain rfl := huniq _ h4
            rw [hconv _ _ _ h5 (hpre _ h6) (((chainTerm_iff hm h args _).2 _).2 (.inl ⟨rfl, h7⟩))]
            rfl
          | arity _ _ _ h4 h5 h6 h7 h8 =>
            obtain rfl := huniq _ h4
            rw [hconv _ _ _ h5 (hpre _ h6)
              (((chainTerm_iff hm h args _).2 _).2 (.inr ⟨rfl, _, _, h7, h8⟩))]
            rfl
  constructor
  · intro h
    cases hmm : (graphOrder e).mapM (deriv p x) with
    | ok vs =>
      rw [hmm] at h
      obtain ⟨l, hl⟩ := graphOrder_last e
      have hlen := mapM_length _ _ _ hmm
      rw [hl] at hlen
      simp only [bind, Except.bind] at h
      unfold pyLast at h
      split at h
      · cases h
      · rename_i hn
        rw [List.getLast?_eq_none_iff] at hn
        rw [hn] at hlen; simp at hlen
    | error err' =>
      have h' := hmm
      rw [hmm] at h
      cases h
      obtain ⟨ls, hls⟩ := mapM_ok_of_forall _ _ hleaf
      rw [horder, List.mapM_append, hls] at h'
      cases hn : ((topologicalSort false [] e).filter (fun t => !t.children.isEmpty)).mapM
          (deriv p x) with
      | ok vs => rw [hn] at h'; cases h'
      | error err2 =>
        rw [hn] at h'
        cases h'
        obtain ⟨pre, t, post, h1, h2, h3⟩ := mapM_error _ _ _ hn
        refine ⟨pre, t, post, h1, ?_, ?_⟩
        · intro s hs
          obtain ⟨d, hd⟩ := h3 s hs
          exact ⟨d, (deriv_iff hm x s d).1 hd⟩
        · have ht : isLeaf t = false := by
            have : t ∈ (topologicalSort false [] e).filter (fun t => !t.children.isEmpty) := by
              rw [h1]; simp
            simpa [isLeaf] using (List.mem_filter.1 this).2
          refine (hfail t ht ?_).1 h2
          intro c hc
          have := argsFirst_graphOrder e ((topologicalSort false [] e).filter isLeaf ++ pre) t post
            (by rw [horder, h1]; simp) c hc
          rcases List.mem_append.1 this with h4 | h4
          · exact hleaf c h4
          · exact h3 c h4
  · rintro ⟨pre, t, post, h1, h2, h3⟩
    have h2' : ∀ s ∈ pre, ∃ d, deriv p x s = .ok d := by
      intro s hs
      obtain ⟨d, hd⟩ := h2 s hs
      exact ⟨d, (deriv_iff hm x s d).2 hd⟩
    have ht : isLeaf t = false := by
      have : t ∈ (topologicalSort false [] e).filter (fun t => !t.children.isEmpty) := by
        rw [h1]; simp
      simpa [isLeaf] using (List.mem_filter.1 this).2
    have h4 := (hfail t ht (by
      intro c hc
      have := argsFirst_graphOrder e ((topologicalSort false [] e).filter isLeaf ++ pre) t post
        (by rw [horder, h1]; simp) c hc
      rcases List.mem_append.1 this with h4 | h4
      · exact hleaf c h4
      · exact h2' c h4)).2 h3
    obtain ⟨vs, hvs⟩ := mapM_ok_of_forall _ pre h2'
    obtain ⟨ls, hls⟩ := mapM_ok_of_forall _ _ hleaf
    rw [horder, h1, List.mapM_append, hls, List.mapM_append, hvs, List.mapM_cons, h4]
    rfl

/-- Both exceptions: `f(x)` without rule, and with a rule for two arguments. -/
example : Expr.diff (f.call [x]) x = .error .keyError ∧
    ((SymDifferentiator.setItem builtinDiff (f.call [wild "a", wild "b"]) (wild "a")
      (wild "b")).bind fun p' => Expr.diff (f.call [x]) x 1 p') = .error .typeError := by
  decide +kernel

end Verif.Props
