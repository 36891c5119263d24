import Verif.Lemmas.Rename
import Verif.Lemmas.Rules
import Verif.Props.Diff
import Verif.Props.Eval

/-!
# C48: results do not depend on the choice of names
-/

set_option linter.unusedSectionVars false

namespace Verif.Props
open Spec Expr
variable {V W T : Type} [DecidableEq V] [DecidableEq W]

/-- **C48, traversal.** The sort of a renamed expression is the renamed sort, in the same order;
`forward_graph` gives the same indices. -/
theorem C48_topological_sort (φ : Atom V → Atom W) (hφ : Faithful φ) (heads : Bool)
    (exclude : List (Tree V)) (e : Tree V) :
    topologicalSort heads (exclude.map (rename φ)) (rename φ e) =
      (topologicalSort heads exclude e).map (rename φ) :=
  topologicalSort_rename hφ heads exclude e

/-- Renaming `x` to `z` (and `z` to `x`) in `f(g(x), y, g(x))`. -/
example : Faithful (fun a : Atom String => if a = ⟨Samples.tySymbol, "x"⟩ then ⟨Samples.tySymbol, "z"⟩
      else if a = ⟨Samples.tySymbol, "z"⟩ then ⟨Samples.tySymbol, "x"⟩ else a) ∧
    topologicalSort false [] (Samples.f.call [Samples.g.call [Samples.z], Samples.y,
      Samples.g.call [Samples.z]]) = [Samples.z, Samples.g.call [Samples.z], Samples.y,
      Samples.f.call [Samples.g.call [Samples.z], Samples.y, Samples.g.call [Samples.z]]] := by
  refine ⟨?_, by decide +kernel⟩
  intro a b h
  simp only at h
  split at h <;> split at h <;> (try split at h) <;> (try split at h) <;> simp_all

theorem idxOf_map_rename {φ : Atom V → Atom W} (hφ : Faithful φ) (t : Tree V) (l : List (Tree V)) :
    (l.map (rename φ)).idxOf (rename φ t) = l.idxOf t := by
  induction l with
  | nil => rfl
  | cons a l ih =>
    simp only [List.map_cons, List.idxOf_cons, ih]
    have : (rename φ a == rename φ t) = (a == t) := by
      rw [Bool.eq_iff_iff, beq_iff_eq, beq_iff_eq, rename_eq_iff hφ]
    rw [this]

theorem count_map_rename {φ : Atom V → Atom W} (hφ : Faithful φ) (t : Tree V) (l : List (Tree V)) :
    (l.map (rename φ)).count (rename φ t) = l.count t := by
  induction l with
  | nil => rfl
  | cons a l ih =>
    have : (rename φ a == rename φ t) = (a == t) := by
      rw [Bool.eq_iff_iff, beq_iff_eq, beq_iff_eq, rename_eq_iff hφ]
    rw [List.map_cons, List.count_cons, List.count_cons, ih, this]

/-- **C48, `forward_graph`.** -/
theorem C48_forward_graph (φ : Atom V → Atom W) (hφ : Faithful φ) (e : Tree V) :
    forwardGraph (rename φ e) = (forwardGraph e).map (fun g =>
      ⟨g.atoms.map (rename φ), g.heads.map (rename φ),
        g.operations.map (fun op => (rename φ op.1, op.2))⟩) := by
  rw [forwardGraph_eq, forwardGraph_eq]
  have h := topologicalSort_rename hφ false [] e
  simp only [List.map_nil] at h
  have h1 : (isLeaf ∘ rename φ) = (isLeaf : Tree V → Bool) := by
    funext t; exact isLeaf_rename φ t
  have h2 : ((fun t => !isLeaf t) ∘ rename φ) = (fun t : Tree V => !isLeaf t) := by
    funext t; simp [isLeaf_rename φ t]
  simp only [Except.map, Except.ok.injEq, ForwardGraph.mk.injEq]
  rw [h, List.filter_map, List.filter_map, h1, h2]
  refine ⟨rfl, ?_, ?_⟩
  · rw [List.map_map, List.map_reverse, List.map_map]
    congr 1
    apply List.map_congr_left
    intro t _
    show headOf (rename φ t) = rename φ (headOf t)
    unfold headOf
    rw [rename_children]
    cases t.children <;> rfl
  · rw [List.map_map, List.map_map]
    apply List.map_congr_left
    intro t _
    simp only [Function.comp, opOf, graphOrder_rename hφ]
    refine Prod.ext ?_ ?_
    · show headOf (rename φ t) = rename φ (headOf t)
      unfold headOf
      rw [rename_children]
      cases t.children <;> rfl
    · show (argsOf (rename φ t)).map _ = (argsOf t).map _
      unfold argsOf
      rw [rename_children, ← List.map_drop, List.map_map]
      apply List.map_congr_left
      intro c _
      exact idxOf_map_rename hφ c _

/-- **C48, substitution.** -/
theorem C48_subs (φ : Atom V → Atom W) (hφ : Faithful φ) (e : Tree V)
    (params values : List (Tree V)) :
    ((SubsFunc.new (rename φ e) (params.map (rename φ))).bind fun s =>
      s.call (values.map (rename φ))) =
    ((SubsFunc.new e params).bind fun s => s.call values).map (rename φ) := by
  obtain ⟨f, hf, hbad, _⟩ := C12_subs_total e params
  obtain ⟨f', hf', hbad', _⟩ := C12_subs_total (rename φ e) (params.map (rename φ))
  rw [hf, hf']
  simp only [Except.bind]
  by_cases hlen : values.length = params.length
  · have hlen' : (values.map (rename φ)).length = (params.map (rename φ)).length := by simpa using hlen
    by_cases he : e ∈ params
    · obtain ⟨f1, h1, _, h3⟩ := subsFunc_param e params he
      obtain ⟨f2, h4, _, h6⟩ := subsFunc_param (rename φ e) _ ((mem_map_rename hφ).2 he)
      rw [hf] at h1; cases h1
      rw [hf'] at h4; cases h4
      rw [h3 _ hlen, h6 _ hlen', pyLast_map]
    · obtain ⟨f1, h1, _, h3⟩ := subsFunc_main e params he
      obtain ⟨f2, h4, _, h6⟩ := subsFunc_main (rename φ e) _ (fun h => he ((mem_map_rename hφ).1 h))
      rw [hf] at h1; cases h1
      rw [hf'] at h4; cases h4
      rw [h3 _ hlen, h6 _ hlen']
      show _ = Except.ok _
      rw [subst_rename (pairing params values) _ (fun t => lastAssoc_rename hφ t params values)]
  · rw [hbad _ hlen, hbad' _ (by simpa using hlen)]
    rfl

/-! ### Differentiation -/

/-- The corresponding properties of two differentiators. -/
structure Corresponds (φ : Atom Val → Atom Val) (p q : DiffProps Val) : Prop where
  zero : q.zero = rename φ p.zero
  one : q.one = rename φ p.one
  add : q.add = rename φ p.add
  mul : q.mul = rename φ p.mul
  distributive : ∀ h, rename φ h ∈ q.distributive ↔ h ∈ p.distributive
  none : ∀ h i, q.diffRules.get? (rename φ h, i) = none ↔ p.diffRules.get? (h, i) = none
  some : ∀ h i f g, p.diffRules.get? (h, i) = some f → q.diffRules.get? (rename φ h, i) = some g →
    ∀ args : List Expr, g.call (args.map (rename φ)) = (f.call args).map (rename φ)

theorem sameProgram_corresponds {φ : Atom Val → Atom Val} (hφ : Faithful φ) {p q : DiffProps Val}
    (h : SameProgram φ p q) : Corresponds φ p q := by
  induction h with
  | new =>
    refine ⟨rfl, rfl, rfl, rfl, ?_, ?_, ?_⟩
    · intro h; simp [SymDifferentiator.new]
    · intro h i; exact ⟨fun _ => rfl, fun _ => rfl⟩
    · intro h i f g hf; cases hf
  | @rule p q p' q' expr sym rhs _ h1 h2 ih =>
    obtain ⟨hd, params, f, rfl, hc, hf, rfl⟩ := setItem_ok h1
    obtain ⟨hd', params', f', he, hc', hf', rfl⟩ := setItem_ok h2
    rw [rename_node, List.map_cons] at he
    simp only [Tree.node.injEq, List.cons.injEq] at he
    obtain ⟨rfl, rfl⟩ := he
    have hcall : ∀ args : List Expr,
        f'.call (args.map (rename φ)) = (f.call args).map (rename φ) := by
      intro args
      have := C48_subs φ hφ rhs params args
      rw [hf, hf'] at this
      exact this
    have hkey : ∀ h i, ((rename φ hd, (params.map (rename φ)).idxOf (rename φ sym)) =
        (rename φ h, i)) ↔ ((hd, params.idxOf sym) = (h, i)) := by
      intro h i
      rw [idxOf_map_rename hφ, Prod.mk.injEq, Prod.mk.injEq, rename_eq_iff hφ]
    refine ⟨ih.zero, ih.one, ih.add, ih.mul, ih.distributive, ?_, ?_⟩
    · intro h i
      simp only [DiffProps.addDiffRule, Dict.get?_set, hkey]
      split
      · simp
      · exact ih.none h i
    · intro h i f1 g1 hf1 hg1
      simp only [DiffProps.addDiffRule, Dict.get?_set, hkey] at hf1 hg1
      split at hf1
      · rename_i heq
        rw [if_pos heq] at hg1
        cases hf1; cases hg1
        exact hcall
      · rename_i heq
        rw [if_neg heq] at hg1
        exact ih.some h i f1 g1 hf1 hg1
  | distributive _ ih =>
    refine ⟨ih.zero, ih.one, ih.add, ih.mul, ?_, ih.none, ih.some⟩
    intro h
    simp only [DiffProps.addDistributive, List.mem_cons, ih.distributive, rename_eq_iff hφ]

/-- The hypothesis is met by a user's differentiator: `diff[f(a), a] = g(a)` with everything
renamed. -/
example (φ : Atom Val → Atom Val) : ∃ p q,
    SameProgram φ p q ∧ SymDifferentiator.setItem (SymDifferentiator.new addH mulH zero one)
      (f.call [wild "a"]) (wild "a") (g.call [wild "a"]) = .ok p := by
  obtain ⟨r, _, h1⟩ := setItem_accepts (SymDifferentiator.new addH mulH zero one) f (wild "a")
    (g.call [wild "a"]) [wild "a"] (by decide)
  obtain ⟨r', _, h2⟩ := setItem_accepts (SymDifferentiator.new (rename φ addH) (rename φ mulH)
    (rename φ zero) (rename φ one)) (rename φ f) (rename φ (wild "a"))
    (rename φ (g.call [wild "a"])) [rename φ (wild "a")] (by simp)
  exact ⟨_, _, .rule .new h1 h2, h1⟩

theorem sumOf_rename {φ : Atom Val → Atom Val} {p q : DiffProps Val} (h : Corresponds φ p q)
    (ts : List Expr) : sumOf q (ts.map (rename φ)) = rename φ (sumOf p ts) := by
  match ts with
  | [] => exact h.zero
  | [t] => rfl
  | t :: u :: ts =>
    simp only [List.map_cons, sumOf, rename_node]
    rw [h.add]

theorem zipIdx_map_fst {A B : Type} (g : A → B) (l : List A) (n : Nat) :
    (l.map g).zipIdx n = (l.zipIdx n).map (fun q => (g q.1, q.2)) := by
  induction l generalizing n with
  | nil => rfl
  | cons a l ih => simp [List.zipIdx_cons, ih]

theorem varying_rename {φ : Atom Val → Atom Val} (hφ : Faithful φ) {p q : DiffProps Val}
    (h : Corresponds φ p q) (ds : List Expr) :
    varying q (ds.map (rename φ)) = (varying p ds).map (fun d => (rename φ d.1, d.2)) := by
  unfold varying
  rw [zipIdx_map_fst, List.filter_map]
  congr 1
  apply List.filter_congr
  intro d _
  simp only [Function.comp, h.zero, ne_eq, rename_eq_iff hφ]

theorem chainTerm_rename {φ : Atom Val → Atom Val} (hφ : Faithful φ) {p q : DiffProps Val}
    (h : Corresponds φ p q) (hd : Expr) (args : List Expr) (d : Expr × Nat) :
    chainTerm q (rename φ hd) (args.map (rename φ)) (rename φ d.1, d.2) =
      (chainTerm p hd args d).map (rename φ) := by
  unfold chainTerm
  simp only
  cases hp : p.diffRules.get? (hd, d.2) with
  | none => rw [(h.none hd d.2).2 hp]; rfl
  | some f =>
    cases hq : q.diffRules.get? (rename φ hd, d.2) with
    | none => rw [(h.none hd d.2).1 hq] at hp; cases hp
    | some g =>
      simp only [h.some hd d.2 f g hp hq args]
      cases f.call args with
      | error err => rfl
      | ok r =>
        simp only [Except.map, h.one, rename_eq_iff hφ, h.mul]
        split
        · rfl
        · rw [rename_node]; rfl

theorem deriv_rename {φ : Atom Val → Atom Val} (hφ : Faithful φ) {p q : DiffProps Val}
    (h : Corresponds φ p q) (x e : Expr) :
    deriv q (rename φ x) (rename φ e) = (deriv p x e).map (rename φ) := by
  induction e using Tree.induction with
  | h e ih =>
    cases hl : isLeaf e with
    | true =>
      rw [deriv_leaf _ _ hl, deriv_leaf _ _ (by rw [isLeaf_rename, hl])]
      simp only [rename_eq_iff hφ, Except.map, h.one, h.zero]
      split <;> rfl
    | false =>
      cases e with
      | atom a => cases hl
      | node cs =>
        cases cs with
        | nil => cases hl
        | cons hd args =>
          rw [rename_node, List.map_cons, deriv_node, deriv_node,
            mapM_map_congr (rename φ) _ (fun a => (deriv p x a).map (rename φ)) args
              (fun a ha => ih a (by simp [Tree.children, ha])), mapM_map_right]
          cases args.mapM (deriv p x) with
          | error err => rfl
          | ok ds =>
            show derivStep q _ _ (ds.map (rename φ)) = (derivStep p hd args ds).map (rename φ)
            unfold derivStep
            simp only [h.distributive, h.add, h.mul, rename_eq_iff hφ, varying_rename hφ h]
            split
            · simp [Except.map, rename_node]
            · split
              · simp only [Except.map, ← sumOf_rename h, List.map_map]
                rfl
              · split
                · simp only [Except.map, ← sumOf_rename h, List.map_map, Except.ok.injEq]
                  congr 1
                  apply List.map_congr_left
                  intro d _
                  simp only [Function.comp, rename_node, List.map_cons, List.map_set]
                · rw [mapM_map_congr _ _ (fun d => (chainTerm p hd args d).map (rename φ)) _
                    (fun d _ => chainTerm_rename hφ h hd args d), mapM_map_right]
                  cases (varying p ds).mapM (chainTerm p hd args) with
                  | error err => rfl
                  | ok ts =>
                    show Except.ok _ = Except.ok _
                    rw [sumOf_rename h]

/-- **C48, differentiation.** Renaming the whole program (the differentiator's constants, heads
and rules, the expression and the variable) renames the derivative, or raises the same
exception. -/
theorem C48_diff (φ : Atom Val → Atom Val) (hφ : Faithful φ) (p q : DiffProps Val)
    (h : SameProgram φ p q) (e x : Expr) (n : Int) :
    Expr.diff (rename φ e) (rename φ x) n q = (Expr.diff e x n p).map (rename φ) := by
  have hc := sameProgram_corresponds hφ h
  have h1 : ∀ e : Expr, diffForward (rename φ e) (rename φ x) q =
      (diffForward e x p).map (rename φ) := by
    intro e
    rw [diffForward_order, diffForward_order, graphOrder_rename hφ,
      mapM_map_congr (rename φ) _ (fun a => (deriv p x a).map (rename φ)) _
        (fun a _ => deriv_rename hφ hc x a), mapM_map_right]
    cases (graphOrder e).mapM (deriv p x) with
    | error err => rfl
    | ok ds => exact pyLast_map _ ds
  unfold Expr.diff
  generalize n.toNat = m
  induction m generalizing e with
  | zero => rfl
  | succ m ih =>
    simp only [iterPy]
    have h2 : ∀ (p : DiffProps Val) (e x : Expr), SymDifferentiator.call p e x 1 = diffForward e x p := by
      intro p e x
      unfold SymDifferentiator.call
      exact iterPy_one _ _
    rw [h2, h2, h1]
    cases diffForward e x p with
    | error err => rfl
    | ok d => exact ih d

/-! ### Renaming symbols -/

theorem symbolMap_faithful {σ : String → String} (hσ : ∀ s t, σ s = σ t → s = t) :
    Faithful (symbolMap σ) := by
  intro a b h
  obtain ⟨ty, v⟩ := a
  obtain ⟨ty', v'⟩ := b
  cases v with
  | int n =>
    cases v' with
    | int m => exact h
    | str s =>
      simp only [symbolMap] at h
      split at h <;> cases h
  | str s =>
    cases v' with
    | int m =>
      simp only [symbolMap] at h
      split at h <;> cases h
    | str t =>
      simp only [symbolMap] at h
      split at h <;> split at h
      · simp only [Atom.mk.injEq, Val.str.injEq] at h
        rw [h.1, hσ _ _ h.2]
      · rename_i h1 h2
        simp only [Atom.mk.injEq] at h
        exact absurd (h.1.symm.trans h1) h2
      · rename_i h1 h2
        simp only [Atom.mk.injEq] at h
        exact absurd (h.1.trans h2) h1
      · exact h

theorem symbolMap_other {σ : String → String} {a : Atom Val} (h : a.atomType ≠ Ty.symbol) :
    symbolMap σ a = a := by
  obtain ⟨ty, v⟩ := a
  cases v with
  | int n => rfl
  | str s => simp only [symbolMap]; rw [if_neg h]

theorem symbolMap_type (σ : String → String) (a : Atom Val) :
    (symbolMap σ a).atomType = a.atomType := by
  obtain ⟨ty, v⟩ := a
  cases v with
  | int n => rfl
  | str s => simp only [symbolMap]; split <;> rfl

theorem rename_symbolFree {σ : String → String} {e : Expr} (h : SymbolFree e) :
    rename (symbolMap σ) e = e := by
  induction h with
  | atom h => simp only [rename, symbolMap_other h]
  | @node cs _ ih =>
    rw [rename_node]
    congr 1
    have : cs.map (rename (symbolMap σ)) = cs.map id := List.map_congr_left ih
    simpa using this

theorem wildHistory_same (σ : String → String) {p : DiffProps Val} (h : WildHistory p) :
    SameProgram (symbolMap σ) p p := by
  induction h with
  | @new add mul zero one h1 h2 h3 h4 =>
    have := SameProgram.new (φ := symbolMap σ) (add := add) (mul := mul) (zero := zero) (one := one)
    rw [rename_symbolFree h1, rename_symbolFree h2, rename_symbolFree h3, rename_symbolFree h4]
      at this
    exact this
  | @rule p p' expr sym rhs _ h1 h2 h3 h ih =>
    refine .rule ih h ?_
    rw [rename_symbolFree h1, rename_symbolFree h2, rename_symbolFree h3]
    exact h
  | @distributive p head _ h ih =>
    have := SameProgram.distributive (φ := symbolMap σ) (head := head) ih
    rw [rename_symbolFree h] at this
    exact this

theorem symbolFree_atom (a : Atom Val) (h : a.atomType ≠ Ty.symbol) : SymbolFree (.atom a) := .atom h

theorem builtin_wildHistory : WildHistory builtinDiff := by
  have hA : SymbolFree addH := .atom (by decide)
  have hM : SymbolFree mulH := .atom (by decide)
  have hP : SymbolFree powH := .atom (by decide)
  have hS : SymbolFree sinH := .atom (by decide)
  have hC : SymbolFree cosH := .atom (by decide)
  have hL : SymbolFree listH := .atom (by decide)
  have h0 : SymbolFree zero := .atom (by decide)
  have h1 : SymbolFree one := .atom (by decide)
  have hN : SymbolFree negone := .atom (by decide)
  have ha : SymbolFree (wild "a") := .atom (by decide)
  have hb : SymbolFree (wild "b") := .atom (by decide)
  have n1 : ∀ {h a : Expr}, SymbolFree h → SymbolFree a → SymbolFree (.node [h, a]) := by
    intro h a h1 h2
    exact .node (by simp [h1, h2])
  have n2 : ∀ {h a b : Expr}, SymbolFree h → SymbolFree a → SymbolFree b →
      SymbolFree (.node [h, a, b]) := by
    intro h a b h1 h2 h3
    exact .node (by simp [h1, h2, h3])
  have hnew := WildHistory.new hA hM h0 h1
  unfold builtinDiff
  cases hB : builtinDiffM with
  | error err => exact hnew
  | ok p =>
    simp only
    unfold builtinDiffM at hB
    simp only [bind, Except.bind] at hB
    split at hB
    · cases hB
    · rename_i p1 e1
      split at hB
      · cases hB
      · rename_i p2 e2
        split at hB
        · cases hB
        · rename_i p3 e3
          cases hB
          exact .distributive (.rule (.rule (.rule hnew (n1 hS ha) ha (n1 hC ha) e1)
            (n1 hC ha) ha (n2 hM hN (n1 hS ha)) e2) (n2 hP ha hb) ha
            (n2 hM hb (n2 hP ha (n2 hA hb hN))) e3) hL

/-- **C48, differentiation and the names of symbols.** For an injective renaming of symbols, the
derivative of the renamed expression is the renamed derivative (or the same exception), for the
built-in differentiator and for every differentiator whose rules mention no symbol. -/
theorem C48_diff_symbols (σ : String → String) (hσ : ∀ s t, σ s = σ t → s = t)
    (p : DiffProps Val) (hp : p = builtinDiff ∨ WildHistory p) (e x : Expr) (n : Int) :
    Expr.diff (rename (symbolMap σ) e) (rename (symbolMap σ) x) n p =
      (Expr.diff e x n p).map (rename (symbolMap σ)) := by
  refine C48_diff _ (symbolMap_faithful hσ) p p (wildHistory_same σ ?_) e x n
  rcases hp with rfl | h
  · exact builtin_wildHistory
  · exact h

/-- `sin(x)**2` in `x` and `sin(x')**2` in `x'`. -/
example : (∀ s t : String, s ++ "'" = t ++ "'" → s = t) ∧
    rename (symbolMap (· ++ "'")) (pow (sin x) (integer 2)) =
      pow (sin (symbol "x'")) (integer 2) ∧
    (Expr.diff (pow (sin x) (integer 2)) x).isOk = true := by
  refine ⟨?_, by decide +kernel, by decide +kernel⟩
  intro s t h
  have := congrArg String.toList h
  rw [String.toList_append, String.toList_append] at this
  exact String.toList_inj.1 (List.append_cancel_right this)

/-! ### Evaluation -/

theorem get?_renameKeys {φ : Atom V → Atom W} (hφ : Faithful φ) (values : Dict (Tree V) T)
    (t : Tree V) : (renameKeys φ values).get? (rename φ t) = values.get? t := by
  unfold renameKeys Dict.get?
  simp only
  induction values.items with
  | nil => rfl
  | cons q l ih =>
    obtain ⟨k, v⟩ := q
    simp only [List.map_cons, Dict.lookup, ih, rename_eq_iff hφ]

/-- **C48, evaluation.** If the rules of `ev'` for renamed atoms and heads are the rules of `ev`
for the original ones, then renaming the expression and the keys of `values` does not change the
outcome. -/
theorem C48_evaluate [HasNone T] (φ : Atom V → Atom W) (hφ : Faithful φ)
    (ev : Evaluator PyM V T) (ev' : Evaluator PyM W T)
    (hatom : ∀ a, ev'.evalAtom (.atom (φ a)) = ev.evalAtom (.atom a))
    (hop : ∀ h vs, ev'.evalOperation (rename φ h) vs = ev.evalOperation h vs)
    (e : Tree V) (values : Dict (Tree V) T) :
    ev'.call (rename φ e) (some (renameKeys φ values)) = ev.call e (some values) := by
  show ev'.evalForward _ _ = ev.evalForward _ _
  have hid : ∀ r : PyM T, r.map id = r := by intro r; cases r <;> rfl
  rw [evalForward_rename hφ id ev ev' values (renameKeys φ values), hid]
  · intro t hl
    rw [← evalLeaf_meaning, ← evalLeaf_meaning, hid]
    unfold Evaluator.evalLeaf
    rw [get?_renameKeys hφ]
    have ht : ev'.evalAtom (rename φ t) = ev.evalAtom t := by
      cases t with
      | atom a => exact hatom a
      | node cs =>
        cases cs with
        | nil => rfl
        | cons c cs => cases hl
    rw [ht]
  · intro h vs
    rw [← evalOperation_meaning ev', ← evalOperation_meaning ev, hid, List.map_id, hop]

/-- **C48, `eval_f64` and the names of symbols.** -/
theorem C48_eval_f64 {F : Type} [HasNone F] (A : FloatOps F) (σ : String → String)
    (hσ : ∀ s t, σ s = σ t → s = t) (e : Expr) (values : Dict Expr F) :
    Expr.evalF64 A (rename (symbolMap σ) e) (some (renameKeys (symbolMap σ) values)) =
      Expr.evalF64 A e (some values) := by
  have hφ := symbolMap_faithful hσ
  have hpairs : Dict.ofPairs (renameKeys (symbolMap σ) values).items =
      renameKeys (symbolMap σ) (Dict.ofPairs values.items) := by
    unfold renameKeys Dict.ofPairs Dict.update
    have : ∀ (l : List (Expr × F)) (d : Dict Expr F),
        (l.map (fun q => (rename (symbolMap σ) q.1, q.2))).foldl
          (fun (d : Dict Expr F) q => d.set q.1 q.2)
          (⟨d.items.map (fun q => (rename (symbolMap σ) q.1, q.2))⟩ : Dict Expr F) =
        (⟨(l.foldl (fun (d : Dict Expr F) q => d.set q.1 q.2) d).items.map
          (fun q => (rename (symbolMap σ) q.1, q.2))⟩ : Dict Expr F) := by
      intro l
      induction l with
      | nil => intro d; rfl
      | cons q l ih =>
        intro d
        simp only [List.map_cons, List.foldl_cons]
        rw [← ih (d.set q.1 q.2)]
        congr 1
        unfold Dict.set
        simp only [Dict.mk.injEq]
        induction d.items with
        | nil => rfl
        | cons r rs ihr =>
          simp only [List.map_cons, Dict.assign, rename_eq_iff hφ]
          split
          · rfl
          · rw [List.map_cons, ihr]
    exact this values.items Dict.empty
  show (Verif.evalF64 A).call _ (some (Dict.ofPairs _)) = (Verif.evalF64 A).call _ (some _)
  rw [hpairs]
  apply C48_evaluate _ hφ
  · intro a
    rw [evalF64_eq]
    simp only [Evaluator.evalAtom, Tree.value, symbolMap_type]
    by_cases ht : a.atomType = Ty.symbol
    · have hne : Ty.integer ≠ Ty.symbol := by decide
      simp only [Dict.get?, Dict.lookup, ht, if_neg hne]
    · rw [symbolMap_other ht]
  · intro h vs
    rw [evalF64_eq]
    have hfix : ∀ hd : Expr, SymbolFree hd → (hd = rename (symbolMap σ) h ↔ hd = h) := by
      intro hd hf
      have := rename_eq_iff hφ (s := hd) (t := h)
      rwa [rename_symbolFree hf] at this
    simp only [Evaluator.evalOperation, Dict.get?, Dict.lookup,
      hfix addH (.atom (by decide)), hfix mulH (.atom (by decide)), hfix powH (.atom (by decide)),
      hfix sinH (.atom (by decide)), hfix cosH (.atom (by decide))]

/-- `x + y` at `x = 1, y = 2` and `x' + y'` at `x' = 1, y' = 2`, with integers for floats. -/
example :
    let A : FloatOps Int := ⟨.ok, fun l => .ok l.sum, fun l => .ok (l.foldl (· * ·) 1),
      fun a b => .ok (a ^ b.toNat), .ok, .ok⟩
    Expr.evalF64 A (add (symbol "x'") (symbol "y'"))
      (some (Dict.ofPairs [(symbol "x'", 1), (symbol "y'", 2)])) = .ok 3 ∧
    rename (symbolMap (· ++ "'")) (add x y) = add (symbol "x'") (symbol "y'") := by
  decide +kernel

/-- **C48, `bin_expand` and operation counts.** -/
theorem C48_bin_expand (σ : String → String) (hσ : ∀ s t, σ s = σ t → s = t) (e : Expr) :
    binExpand (rename (symbolMap σ) e) = (binExpand e).map (rename (symbolMap σ)) ∧
    countOpsGraph (rename (symbolMap σ) e) = countOpsGraph e := by
  have hφ := symbolMap_faithful hσ
  refine ⟨?_, ?_⟩
  · show binExpandTransformer.evalForward _ Dict.empty =
      (binExpandTransformer.evalForward _ Dict.empty).map _
    apply evalForward_rename hφ
    · intro t hl
      rw [← evalLeaf_meaning]
      cases t with
      | atom a => rfl
      | node cs =>
        cases cs with
        | nil => rfl
        | cons c cs => cases hl
    · intro h vs
      rw [← evalOperation_meaning binExpandTransformer]
      have hfix : ∀ hd : Expr, SymbolFree hd → (hd = rename (symbolMap σ) h ↔ hd = h) := by
        intro hd hf
        have := rename_eq_iff hφ (s := hd) (t := h)
        rwa [rename_symbolFree hf] at this
      have hred : ∀ hd : Expr, SymbolFree hd → ∀ vs : List Expr,
          pyReduce (fun a b => hd.call [a, b]) (vs.map (rename (symbolMap σ))) =
            (pyReduce (fun a b => hd.call [a, b]) vs).map (rename (symbolMap σ)) := by
        intro hd hf vs
        cases vs with
        | nil => rfl
        | cons v vs =>
          simp only [List.map_cons, pyReduce, Except.map, Except.ok.injEq]
          induction vs generalizing v with
          | nil => rfl
          | cons w vs ih =>
            simp only [List.map_cons, List.foldl_cons]
            rw [← ih]
            congr 1
            rw [rename_call, rename_symbolFree hf]
            rfl
      have hfA := hfix addH (.atom (by decide))
      have hfM := hfix mulH (.atom (by decide))
      by_cases hA : addH = h
      · subst hA
        rw [rename_symbolFree (e := addH) (.atom (by decide))]
        exact hred addH (.atom (by decide)) vs
      · by_cases hM : mulH = h
        · subst hM
          rw [rename_symbolFree (e := mulH) (.atom (by decide))]
          exact hred mulH (.atom (by decide)) vs
        · have hop : ∀ h' : Expr, addH ≠ h' → mulH ≠ h' → ∀ us : List Expr,
              binExpandTransformer.evalOperation h' us = .ok (h'.call us) := by
            intro h' h1 h2 us
            have hn : binExpandTransformer.operations.get? h' = none := by
              show Dict.lookup h' [(addH, _), (mulH, _)] = none
              simp only [Dict.lookup, if_neg h1, if_neg h2]
            unfold Evaluator.evalOperation
            rw [hn]
            rfl
          rw [hop _ (fun h' => hA (hfA.1 h')) (fun h' => hM (hfM.1 h')), hop h hA hM]
          show _ = Except.ok _
          rw [rename_call]
  · unfold countOpsGraph
    have h := topologicalSort_rename hφ false [] e
    simp only [List.map_nil] at h
    rw [h, List.length_map]

end Verif.Props
