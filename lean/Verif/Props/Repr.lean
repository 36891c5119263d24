import Verif.Lemmas.Repr
import Verif.Props.Samples

/-!
# C54: the raw representation can be read back
-/

namespace Verif.Props
open Spec Expr

mutual
theorem treeRepr_cases (printable : Char → Bool) (t : Tree Val) :
    (Proper t ∧ ∃ s, treeRepr printable t = .ok s) ∨
    (¬ Proper t ∧ treeRepr printable t = .error .attributeError) := by
  match t with
  | .atom a =>
    refine .inl ⟨?_, _, by rw [treeRepr]⟩
    intro h; cases h with
    | down _ hc _ => cases hc
  | .node [] => exact .inr ⟨fun h => h (.refl (by simp)), by rw [treeRepr]⟩
  | .node (c :: cs) =>
    rcases treeReprList_cases printable (c :: cs) with ⟨h, ss, hs⟩ | ⟨⟨u, hu, h⟩, hs⟩
    · refine .inl ⟨?_, _, by rw [treeRepr, hs]; rfl⟩
      intro hr; cases hr with
      | down _ hc hr => exact h _ hc hr
    · refine .inr ⟨fun hp => h fun hr => hp (.down (by simp) hu hr), by rw [treeRepr, hs]; rfl⟩
theorem treeReprList_cases (printable : Char → Bool) (ts : List (Tree Val)) :
    ((∀ t ∈ ts, Proper t) ∧ ∃ ss, treeReprList printable ts = .ok ss) ∨
    ((∃ t ∈ ts, ¬ Proper t) ∧ treeReprList printable ts = .error .attributeError) := by
  match ts with
  | [] => exact .inl ⟨by simp, [], by rw [treeReprList]⟩
  | t :: ts =>
    rcases treeRepr_cases printable t with ⟨h, s, hs⟩ | ⟨h, hs⟩
    · rcases treeReprList_cases printable ts with ⟨h', ss, hs'⟩ | ⟨⟨u, hu, h'⟩, hs'⟩
      · refine .inl ⟨?_, s :: ss, by rw [treeReprList, hs, hs']; rfl⟩
        intro u hu
        rcases List.mem_cons.1 hu with rfl | hu
        · exact h
        · exact h' u hu
      · exact .inr ⟨⟨u, by simp [hu], h'⟩, by rw [treeReprList, hs, hs']; rfl⟩
    · exact .inr ⟨⟨t, by simp, h⟩, by rw [treeReprList, hs]; rfl⟩
end

/-- **C54, totality.** `repr` returns a string exactly if the degenerate `Tree()` occurs nowhere in
the tree; otherwise it raises AttributeError. -/
theorem C54_total (printable : Char → Bool) (t : Tree Val) :
    (Proper t → ∃ s, treeRepr printable t = .ok s) ∧
    (¬ Proper t → treeRepr printable t = .error .attributeError) := by
  rcases treeRepr_cases printable t with ⟨h, hs⟩ | ⟨h, hs⟩
  · exact ⟨fun _ => hs, fun h' => absurd h h'⟩
  · exact ⟨fun h' => absurd h' h, fun _ => hs⟩

/-- **C54.** `eval(repr(t)) == t`: in a scope in which `Tree`, `Tr` and the names of the atom types
of `t` are bound to them (`Imports`), reading the representation of a tree as Python gives the
tree, whatever strings and integers its atoms hold. -/
theorem C54_eval_repr (printable : Char → Bool) (env : String → Option PyCallable) (t : Tree Val)
    (henv : Imports env t) (s : String) (hs : treeRepr printable t = .ok s) :
    pyEval env s = some (.tree t) := by
  have h := pylexes_treeRepr printable t (fun ty h => (henv.types ty h).1) s hs
  unfold pyEval
  rw [pParse_of_lexes h]
  exact eval_treeExp henv.tree henv.tr t (fun ty h => (henv.types ty h).2)

/-- **C54 for `Sym`.** The same for `repr` of a `Sym`, in a scope with `Sym`. -/
theorem C54_eval_repr_sym (printable : Char → Bool) (env : String → Option PyCallable)
    (t : Tree Val) (henv : Imports env t) (hsym : env "Sym" = some .sym) (s : String)
    (hs : symRepr printable t = .ok s) : pyEval env s = some (.sym t) := by
  unfold symRepr at hs
  cases ht : treeRepr printable t with
  | error e => rw [ht] at hs; cases hs
  | ok s' =>
    rw [ht] at hs
    obtain rfl := Except.ok.inj hs
    have h := pylexes_wrap sym_identifier
      (pylexes_treeRepr printable t (fun ty h => (henv.types ty h).1) s' ht)
    have h' : PLexes ("Sym(" ++ s' ++ ")").toList (pyToks (.call "Sym" [treeExp t])) := by
      have e : "Sym(" = "Sym" ++ "(" := rfl
      rw [e]
      simpa [pyToks, pyToksArgs] using h
    unfold pyEval
    rw [pParse_of_lexes h']
    simp only [Option.bind_eq_bind, Option.bind_some, PyExp.eval, hsym, PyExp.evalAll,
      eval_treeExp henv.tree henv.tr t (fun ty h => (henv.types ty h).2), Option.pure_def,
      PyCallable.apply]

/-- **C54, injectivity.** Two trees with the same representation are equal, if their atom types have
different names which are names in Python other than `Tree` and `Tr`. -/
theorem C54_injective (printable : Char → Bool) (t t' : Tree Val)
    (hnames : ∀ ty, UsesType t ty ∨ UsesType t' ty →
      IsIdentifier ty.name ∧ ty.name ≠ "Tree" ∧ ty.name ≠ "Tr")
    (hdiff : ∀ ty ty', UsesType t ty ∨ UsesType t' ty → UsesType t ty' ∨ UsesType t' ty' →
      ty.name = ty'.name → ty = ty')
    (s : String) (hs : treeRepr printable t = .ok s) (hs' : treeRepr printable t' = .ok s) :
    t = t' := by
  classical
  let used (n : String) : Prop := ∃ ty, (UsesType t ty ∨ UsesType t' ty) ∧ ty.name = n
  let env : String → Option PyCallable := fun n =>
    if n = "Tree" then some .tree else if n = "Tr" then some .tr
    else if h : used n then some (.atomType h.choose) else none
  have henv : ∀ ty, UsesType t ty ∨ UsesType t' ty →
      IsIdentifier ty.name ∧ env ty.name = some (.atomType ty) := by
    intro ty h
    obtain ⟨h1, h2, h3⟩ := hnames ty h
    refine ⟨h1, ?_⟩
    have hu : used ty.name := ⟨ty, h, rfl⟩
    have hc := hu.choose_spec
    have he : hu.choose = ty := hdiff _ _ hc.1 h hc.2
    simp only [env, h2, h3, if_false, dif_pos hu, he]
  have h1 := C54_eval_repr printable env t ⟨rfl, rfl, fun ty h => henv ty (.inl h)⟩ s hs
  have h2 := C54_eval_repr printable env t' ⟨rfl, rfl, fun ty h => henv ty (.inr h)⟩ s hs'
  rw [h1] at h2
  cases h2
  rfl

/-- **C54 for simplecas.** The representation of the `rep` of any simplecas expression evaluates to
it. -/
theorem C54_simplecas (printable : Char → Bool) (t : Tree Val)
    (hty : ∀ ty, UsesType t ty →
      ty ∈ [Ty.integer, Ty.symbol, Ty.function, Ty.wild, Ty.star]) (hp : Proper t) :
    ∃ s, treeRepr printable t = .ok s ∧ pyEval simplecasEnv s = some (.tree t) := by
  obtain ⟨s, hs⟩ := (C54_total printable t).1 hp
  refine ⟨s, hs, C54_eval_repr printable simplecasEnv t ⟨rfl, rfl, ?_⟩ s hs⟩
  intro ty h
  have := hty ty h
  simp only [List.mem_cons, List.not_mem_nil, or_false] at this
  rcases this with rfl | rfl | rfl | rfl | rfl
  all_goals
    refine ⟨⟨⟨⟨_, rfl, .inl (by decide)⟩, ?_⟩, by decide⟩, by decide⟩
    intro c hc; left; revert c hc; decide

/-- A tree with a string that needs escapes and both kinds of quotes, and a negative integer, in a
head position too: `Symbol('it\'s "x"\n')(Integer(-5))`. -/
def awkward : Tree Val := .node [symbol "it's \"x\"\n", integer (-5)]

/-- The hypotheses of `C54_eval_repr` and `C54_simplecas` hold for it; its representation is the one
Python prints. -/
example : Proper awkward ∧
    treeRepr (fun _ => false) awkward =
      .ok "Tree(Tr(Symbol('it\\'s \"x\"\\n')), Tr(Integer(-5)))" ∧
    pyEval simplecasEnv "Tree(Tr(Symbol('it\\'s \"x\"\\n')), Tr(Integer(-5)))" =
      some (.tree awkward) := by
  have huses : ∀ ty, UsesType awkward ty →
      ty ∈ [Ty.integer, Ty.symbol, Ty.function, Ty.wild, Ty.star] := by
    rintro ty ⟨v, h⟩
    cases h with
    | down _ hc h =>
      have hc := List.mem_cons.1 (show _ ∈ [symbol "it's \"x\"\n", integer (-5)] from hc)
      rw [List.mem_singleton] at hc
      rcases hc with rfl | rfl
      · cases h with
        | refl => decide
        | down _ hc _ => cases hc
      · cases h with
        | refl => decide
        | down _ hc _ => cases hc
  have hp : Proper awkward := by
    intro h
    cases h with
    | down _ hc h =>
      have hc := List.mem_cons.1 (show _ ∈ [symbol "it's \"x\"\n", integer (-5)] from hc)
      rw [List.mem_singleton] at hc
      rcases hc with rfl | rfl
      · cases h with
        | down _ hc _ => cases hc
      · cases h with
        | down _ hc _ => cases hc
  have hs : treeRepr (fun _ => false) awkward =
      .ok "Tree(Tr(Symbol('it\\'s \"x\"\\n')), Tr(Integer(-5)))" := by decide +kernel
  obtain ⟨s, h1, h2⟩ := C54_simplecas (fun _ => false) awkward huses hp
  rw [hs] at h1
  obtain rfl := Except.ok.inj h1
  exact ⟨hp, hs, h2⟩

/-- Quotes and escapes are Python's. -/
example : pyReprStr (fun _ => false) "x" = "'x'" ∧ pyReprStr (fun _ => false) "it's" = "\"it's\"" ∧
    pyReprStr (fun _ => false) "say \"x\"" = "'say \"x\"'" ∧
    pyReprStr (fun _ => false) "\u00ff\u0100\uffff" = "'\\xff\\u0100\\uffff'" ∧
    pyReprStr (fun _ => false) (String.ofList [Char.ofNat 0x10000, Char.ofNat 127, ' ']) =
      "'\\U00010000\\x7f '" ∧
    pyReprStr (fun _ => true) "\u00ff\t\r\\" = "'\u00ff\\t\\r\\\\'" := by
  decide +kernel

/-- **C54, refutation** for atom types with the same name: `funcs_symbols` makes new atom types at
every call, so that two symbols `x` from different calls are different but print the same. -/
theorem C54_same_name_false : ∃ t t' : Tree Val, ∀ printable, t ≠ t' ∧
    ∃ s, treeRepr printable t = .ok s ∧ treeRepr printable t' = .ok s := by
  exact ⟨.atom ⟨⟨10, "Symbol"⟩, .str "x"⟩, .atom ⟨⟨11, "Symbol"⟩, .str "x"⟩, fun _ =>
    ⟨by decide, _, by rw [treeRepr], by rw [treeRepr]; rfl⟩⟩

end Verif.Props
