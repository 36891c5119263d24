import Verif.Spec.Rename
import Verif.Lemmas.Subs
import Verif.Lemmas.Diff
import Verif.Lemmas.TopoOrder

/-!
# Everything commutes with faithful renaming
-/

set_option linter.unusedSectionVars false

namespace Verif
open Spec
variable {V W T : Type} [DecidableEq V] [DecidableEq W]

theorem renameList_eq (φ : Atom V → Atom W) (cs : List (Tree V)) :
    renameList φ cs = cs.map (rename φ) := by
  induction cs with
  | nil => rfl
  | cons c cs ih => rw [renameList, ih]; rfl

theorem rename_node (φ : Atom V → Atom W) (cs : List (Tree V)) :
    rename φ (.node cs) = .node (cs.map (rename φ)) := by
  rw [rename, renameList_eq]

theorem rename_children (φ : Atom V → Atom W) (t : Tree V) :
    (rename φ t).children = t.children.map (rename φ) := by
  cases t with
  | atom a => rfl
  | node cs => rw [rename_node]; rfl

theorem rename_call (φ : Atom V → Atom W) (h : Tree V) (args : List (Tree V)) :
    rename φ (h.call args) = (rename φ h).call (args.map (rename φ)) := by
  simp only [Tree.call, rename_node, List.map_cons]

theorem isLeaf_rename (φ : Atom V → Atom W) (t : Tree V) : isLeaf (rename φ t) = isLeaf t := by
  unfold isLeaf; rw [rename_children]; cases t.children <;> rfl

theorem rename_inj {φ : Atom V → Atom W} (hφ : Faithful φ) (s : Tree V) :
    ∀ t, rename φ s = rename φ t → s = t := by
  induction s using Tree.induction with
  | h s ih =>
    intro t h
    cases s with
    | atom a =>
      cases t with
      | atom b => simp only [rename, Tree.atom.injEq] at h; rw [hφ _ _ h]
      | node ds => rw [rename_node] at h; cases h
    | node cs =>
      cases t with
      | atom b => rw [rename_node] at h; cases h
      | node ds =>
        rw [rename_node, rename_node] at h
        simp only [Tree.node.injEq] at h
        congr 1
        have : ∀ as bs : List (Tree V), (∀ c ∈ as, c ∈ cs) →
            as.map (rename φ) = bs.map (rename φ) → as = bs := by
          intro as
          induction as with
          | nil => intro bs _ h; cases bs with
            | nil => rfl
            | cons b bs => cases h
          | cons a as ih2 =>
            intro bs hsub h
            cases bs with
            | nil => cases h
            | cons b bs =>
              simp only [List.map_cons, List.cons.injEq] at h
              rw [ih a (by simp [Tree.children, hsub a (by simp)]) b h.1,
                ih2 bs (fun c hc => hsub c (by simp [hc])) h.2]
        exact this cs ds (fun _ h => h) h

theorem rename_eq_iff {φ : Atom V → Atom W} (hφ : Faithful φ) {s t : Tree V} :
    rename φ s = rename φ t ↔ s = t := ⟨rename_inj hφ s t, fun h => h ▸ rfl⟩

theorem mem_map_rename {φ : Atom V → Atom W} (hφ : Faithful φ) {t : Tree V} {l : List (Tree V)} :
    rename φ t ∈ l.map (rename φ) ↔ t ∈ l := by
  rw [List.mem_map]
  constructor
  · rintro ⟨s, hs, h⟩; rwa [← rename_inj hφ _ _ h]
  · intro h; exact ⟨t, h, rfl⟩

theorem keepFirst_rename {φ : Atom V → Atom W} (hφ : Faithful φ) (l : List (Tree V)) :
    keepFirst (l.map (rename φ)) = (keepFirst l).map (rename φ) := by
  unfold keepFirst
  have : ∀ (l acc : List (Tree V)),
      (l.map (rename φ)).foldl (fun acc a => if a ∈ acc then acc else acc ++ [a])
        (acc.map (rename φ)) =
      (l.foldl (fun acc a => if a ∈ acc then acc else acc ++ [a]) acc).map (rename φ) := by
    intro l
    induction l with
    | nil => intro acc; rfl
    | cons a l ih =>
      intro acc
      simp only [List.map_cons, List.foldl_cons, mem_map_rename hφ]
      split
      · exact ih acc
      · rw [← ih (acc ++ [a])]; simp
  exact this l []

mutual
theorem postorder_rename {φ : Atom V → Atom W} (hφ : Faithful φ) (heads : Bool)
    (excl : List (Tree V)) : ∀ e : Tree V,
    postorder heads (fun t => decide (t ∈ excl.map (rename φ))) (rename φ e) =
      (postorder heads (fun t => decide (t ∈ excl)) e).map (rename φ)
  | .atom a => by
    simp only [rename, postorder, decide_eq_true_eq]
    have : (Tree.atom (φ a) ∈ excl.map (rename φ)) ↔ Tree.atom a ∈ excl :=
      mem_map_rename (t := .atom a) hφ
    simp only [this]
    split <;> rfl
  | .node [] => by
    simp only [rename, renameList, postorder, decide_eq_true_eq]
    have : ((Tree.node [] : Tree W) ∈ excl.map (rename φ)) ↔ Tree.node [] ∈ excl :=
      mem_map_rename (t := .node []) hφ
    simp only [this]
    split <;> rfl
  | .node (h :: args) => by
    have h1 := postorder_rename hφ heads excl h
    have h2 := postorderList_rename hφ heads excl args
    simp only [rename, renameList, postorder, decide_eq_true_eq]
    have : (Tree.node (rename φ h :: renameList φ args) ∈ excl.map (rename φ)) ↔
        Tree.node (h :: args) ∈ excl := mem_map_rename (t := .node (h :: args)) hφ
    simp only [this]
    split
    · rfl
    · rw [h1, h2]
      cases heads <;> simp [rename, renameList]
theorem postorderList_rename {φ : Atom V → Atom W} (hφ : Faithful φ) (heads : Bool)
    (excl : List (Tree V)) : ∀ es : List (Tree V),
    postorderList heads (fun t => decide (t ∈ excl.map (rename φ))) (renameList φ es) =
      (postorderList heads (fun t => decide (t ∈ excl)) es).map (rename φ)
  | [] => rfl
  | e :: es => by
    have h1 := postorder_rename hφ heads excl e
    have h2 := postorderList_rename hφ heads excl es
    simp only [renameList, postorderList, h1, h2, List.map_append]
end

theorem topologicalSort_rename {φ : Atom V → Atom W} (hφ : Faithful φ) (heads : Bool)
    (excl : List (Tree V)) (e : Tree V) :
    topologicalSort heads (excl.map (rename φ)) (rename φ e) =
      (topologicalSort heads excl e).map (rename φ) := by
  rw [topologicalSort_eq, topologicalSort_eq, postorder_rename hφ, keepFirst_rename hφ]

theorem graphOrder_rename {φ : Atom V → Atom W} (hφ : Faithful φ) (e : Tree V) :
    graphOrder (rename φ e) = (graphOrder e).map (rename φ) := by
  have h := topologicalSort_rename hφ false [] e
  simp only [List.map_nil] at h
  unfold graphOrder
  rw [h, List.filter_map, List.filter_map, List.map_append]
  have h1 : (isLeaf ∘ rename φ) = (isLeaf : Tree V → Bool) := by
    funext t; exact isLeaf_rename φ t
  have h2 : ((fun t => !isLeaf t) ∘ rename φ) = (fun t : Tree V => !isLeaf t) := by
    funext t; simp [isLeaf_rename φ t]
  rw [h1, h2]

theorem mapM_map_congr {A B C : Type} (g : A → B) (f : B → PyM C) (f' : A → PyM C) (l : List A)
    (h : ∀ a ∈ l, f (g a) = f' a) : (l.map g).mapM f = l.mapM f' := by
  induction l with
  | nil => rfl
  | cons a l ih =>
    rw [List.map_cons, List.mapM_cons, List.mapM_cons, h a (by simp),
      ih (fun b hb => h b (by simp [hb]))]

/-- `f` followed by a total function, pointwise. -/
theorem mapM_map_right {A B C : Type} (f : A → PyM B) (g : B → C) (l : List A) :
    l.mapM (fun a => (f a).map g) = (l.mapM f).map (List.map g) := by
  induction l with
  | nil => rfl
  | cons a l ih =>
    rw [List.mapM_cons, List.mapM_cons, ih]
    cases f a with
    | error err => rfl
    | ok b => cases l.mapM f <;> rfl

/-- Evaluation of a renamed tree, when the meanings correspond. -/
theorem evalTree_rename {T' : Type} {φ : Atom V → Atom W} (g : T → T') (M : Meaning V T)
    (M' : Meaning W T')
    (hleaf : ∀ t, isLeaf t = true → M'.leaf (rename φ t) = (M.leaf t).map g)
    (hop : ∀ h vs, M'.op (rename φ h) (vs.map g) = (M.op h vs).map g) (e : Tree V) :
    evalTree M' (rename φ e) = (evalTree M e).map g := by
  induction e using Tree.induction with
  | h e ih =>
    cases hl : isLeaf e with
    | true => rw [evalTree_leaf _ hl, evalTree_leaf _ (by rw [isLeaf_rename, hl]), hleaf e hl]
    | false =>
      cases e with
      | atom a => cases hl
      | node cs =>
        cases cs with
        | nil => cases hl
        | cons h args =>
          rw [rename_node, List.map_cons]
          simp only [evalTree, evalTrees_eq]
          rw [mapM_map_congr (rename φ) _ (fun a => (evalTree M a).map g) args
            (fun a ha => ih a (by simp [Tree.children, ha])), mapM_map_right]
          cases args.mapM (evalTree M) with
          | error err => rfl
          | ok vs => exact hop h vs

theorem pyLast_map {A B : Type} (g : A → B) (l : List A) :
    pyLast (l.map g) = (pyLast l).map g := by
  unfold pyLast; rw [List.getLast?_map]; cases l.getLast? <;> rfl

theorem evalForward_rename {T' : Type} [HasNone T] [HasNone T'] {φ : Atom V → Atom W}
    (hφ : Faithful φ) (g : T → T')
    (ev : Evaluator PyM V T) (ev' : Evaluator PyM W T')
    (values : Dict (Tree V) T) (values' : Dict (Tree W) T')
    (hleaf : ∀ t, isLeaf t = true →
      (meaning ev' values'.get?).leaf (rename φ t) = ((meaning ev values.get?).leaf t).map g)
    (hop : ∀ h vs, (meaning ev' values'.get?).op (rename φ h) (vs.map g) =
      ((meaning ev values.get?).op h vs).map g) (e : Tree V) :
    ev'.evalForward (rename φ e) values' = (ev.evalForward e values).map g := by
  rw [evalForward_py, evalForward_py, graphOrder_rename hφ]
  rw [mapM_map_congr (rename φ) _ (fun a => (evalTree (meaning ev values.get?) a).map g)
    (graphOrder e) (fun a _ => evalTree_rename g _ _ hleaf hop a), mapM_map_right]
  cases (graphOrder e).mapM (evalTree (meaning ev values.get?)) with
  | error err => rfl
  | ok vs => exact pyLast_map g vs

theorem lastAssoc_rename {φ : Atom V → Atom W} (hφ : Faithful φ) (t : Tree V)
    (ps vs : List (Tree V)) :
    lastAssoc (rename φ t) ((ps.map (rename φ)).zip (vs.map (rename φ))) =
      (lastAssoc t (ps.zip vs)).map (rename φ) := by
  induction ps generalizing vs with
  | nil => rfl
  | cons p ps ih =>
    cases vs with
    | nil => rfl
    | cons v vs =>
      simp only [List.map_cons, List.zip_cons_cons, lastAssoc, ih]
      cases lastAssoc t (ps.zip vs) with
      | some w => rfl
      | none =>
        simp only [Option.map_none, rename_eq_iff hφ]
        split <;> rfl

theorem subst_rename {φ : Atom V → Atom W} (σ : Tree V → Option (Tree V))
    (σ' : Tree W → Option (Tree W)) (h : ∀ t, σ' (rename φ t) = (σ t).map (rename φ))
    (e : Tree V) : subst σ' (rename φ e) = rename φ (subst σ e) := by
  induction e using Tree.induction with
  | h e ih =>
    cases hs : σ e with
    | some u => rw [subst_some hs, subst_some (by rw [h, hs]; rfl)]
    | none =>
      have hs' : σ' (rename φ e) = none := by rw [h, hs]; rfl
      cases e with
      | atom a => rw [subst_none_atom hs]; exact subst_none_atom hs'
      | node cs =>
        rw [subst_none_node hs]
        rw [rename_node] at hs' ⊢
        rw [subst_none_node hs', rename_node, List.map_map, List.map_map]
        congr 1
        exact List.map_congr_left (fun c hc => ih c hc)

theorem diffForward_order (e x : Tree V) (p : DiffProps V) :
    diffForward e x p = (graphOrder e).mapM (deriv p x) >>= pyLast := by
  rw [diffForward_py]
  have : ∀ l : List (Tree V), l.mapM (evalTree (pairMeaning p x)) =
      (l.mapM (deriv p x)).map (fun ds => l.zip ds) := by
    intro l
    induction l with
    | nil => rfl
    | cons t l ih =>
      rw [List.mapM_cons, List.mapM_cons, evalTree_pair, ih]
      cases deriv p x t with
      | error err => rfl
      | ok d => cases l.mapM (deriv p x) <;> rfl
  rw [this]
  cases h : (graphOrder e).mapM (deriv p x) with
  | error err => rfl
  | ok ds =>
    have hlen := mapM_length _ _ _ h
    show (pyLast ((graphOrder e).zip ds)).map Prod.snd = pyLast ds
    rw [← pyLast_map, List.map_snd_zip (by omega)]

end Verif
