import Verif.Lemmas.Copy

/-!
# C82  Copying expressions

`copy.copy` of an `Atom` or a `Sym` (an `Expr`) raises `TypeError`, and so do `copy.deepcopy` of a `Tree` and
`pickle.loads` of a pickle of one.  `copy.copy` of a `Tree` does not give a
second object of the same content, which would be unequal to the first: it returns the object `Tree()`
and overwrites that.  Whatever is copied, however often, all other objects keep their attributes, and two of
them that read the same are the same object.
-/

namespace Verif.Props
open Verif Copy
variable {V : Type} [DecidableEq V]

/-- Objects other than `Tree()` keep their attributes as long as they are alive, and never become `Tree()`,
whatever is constructed, copied, dropped and collected. -/
theorem C82_others (s s' : CState V) (o : Nat) (ob : TObj V) (h : CHistory s) (st : CSteps s s')
    (e : s.objs o = some ob) (hn : ¬ IsNoArgs s o) :
    (s'.objs o = some ob ∧ ¬ IsNoArgs s' o ∨ s'.objs o = none) ∧ (o ∈ s'.held → s'.objs o = some ob) := by
  have hi := history_inv h
  obtain ⟨hi', k⟩ := steps_inv hi st
  rw [isNoArgs_iff hi e] at hn
  obtain ⟨h1, h2⟩ := k.objs o ob e hn
  refine ⟨?_, ?_⟩
  · rcases h1 with h1 | h1
    · exact .inl ⟨h1, by rw [isNoArgs_iff hi' h1]; exact h2⟩
    · exact .inr h1
  · intro hh
    rcases h1 with h1 | h1
    · exact h1
    · obtain ⟨ob', e'⟩ := hi'.held o hh
      rw [h1] at e'; cases e'

/-- An expression that the program holds reads the same through and through after any number of copies of
whatever. -/
theorem C82_reads (s s' : CState V) (o : Nat) (t : Tree V) (h : CHistory s) (st : CSteps s s')
    (r : Reads s o t) (ho : o ∈ s'.held) : Reads s' o t := by
  obtain ⟨hi', k⟩ := steps_inv (history_inv h) st
  exact reads_kept (history_inv h) hi' k r (hi'.held o ho)

/-- Two objects that read the same are the same object, copies or not, unless they have `Tree()` in them. -/
theorem C82_unique (s : CState V) (o o' : Nat) (t : Tree V) (h : CHistory s) (r : Reads s o t)
    (r' : Reads s o' t) : o = o' := by
  exact reads_unique (history_inv h) r r'

/-- The constructors keep on giving what they are asked for: copies have not spoiled the store. -/
theorem C82_constructors (s : CState V) (h : CHistory s) :
    (∀ a : Atom V, Reads (newAtom s a).2 (newAtom s a).1 (.atom a)) ∧
    ∀ (cs : List Nat) (ts : List (Tree V)), cs ≠ [] → (∀ c ∈ cs, c ∈ s.held) → ReadsList s cs ts →
      Reads (newTree s cs).2 (newTree s cs).1 (.node ts) := by
  have hi := history_inv h
  refine ⟨?_, ?_⟩
  · intro a
    have hi' := newAtom_inv hi a
    have hf : (newAtom s a).2.atomOf a = some (newAtom s a).1 := by
      unfold newAtom
      cases e : s.atomOf a with
      | some o => exact e
      | none => exact Function.update_self ..
    obtain ⟨e1, e2⟩ := hi'.atoms a _ hf
    exact .atom (by rw [isNoArgs_iff hi' e1]; exact e2) e1
  · intro cs ts hc hh r
    have hi' := newTree_inv hi hh
    have hf := newTree_found s cs
    obtain ⟨e1, e2⟩ := hi'.trees cs _ hc hf
    refine .node (by rw [isNoArgs_iff hi' e1]; exact e2) e1 hc ?_
    exact readsList_kept hi hi' (newTree_keeps hi cs) r (hi'.closed _ _ e1)

/-- `copy.copy(t)` returns the object `Tree()`, which has the attributes of `t` from then on; it is not
`t` unless `t` was `Tree()`. -/
theorem C82_copy (s : CState V) (t : Nat) (x : TObj V) (h : CHistory s) (ht : t ∈ s.held)
    (e : s.objs t = some x) :
    (copyAny s (.tree t)).1 = .ok (newTree s []).1 ∧
    IsNoArgs (copyAny s (.tree t)).2 (newTree s []).1 ∧
    (∃ y, (copyAny s (.tree t)).2.objs (newTree s []).1 = some y ∧ y.children = x.children ∧
      (∀ a, x.value = some a → y.value = some a)) ∧
    (¬ IsNoArgs s t → (newTree s []).1 ≠ t ∧ (copyAny s (.tree t)).2.objs t = some x) := by
  have hi := history_inv h
  have _ := ht
  obtain ⟨y, hy, eq⟩ := copyTree_eq hi e
  dsimp only [copyAny]
  rw [eq]
  refine ⟨rfl, ?_, ⟨assign x y, ?_, rfl, ?_⟩, ?_⟩
  · simp only [IsNoArgs]
    have hf := newTree_found s []
    unfold newTree at hf ⊢
    split <;> simp_all [CState.hold, Function.update_self]
  · exact Function.update_self ..
  · intro a ha; simp [assign, ha]
  · intro hn
    refine ⟨hn, ?_⟩
    dsimp only
    rw [Function.update_of_ne (Ne.symm hn)]
    exact newTree_objs hi e

/-- A second copy is the same object as the first, and overwrites it. -/
theorem C82_copies_share (s : CState V) (t u : Nat) (x : TObj V) (h : CHistory s) (ht : t ∈ s.held)
    (hu : u ∈ s.held) (e : s.objs u = some x) (hn : ¬ IsNoArgs s u) :
    (copyAny (copyAny s (.tree t)).2 (.tree u)).1 = (copyAny s (.tree t)).1 ∧
    ∀ r, (copyAny s (.tree t)).1 = .ok r → ∃ y,
      (copyAny (copyAny s (.tree t)).2 (.tree u)).2.objs r = some y ∧ y.children = x.children := by
  have hi := history_inv h
  obtain ⟨xt, et⟩ := hi.held t ht
  have h1 : CHistory (copyAny s (.tree t)).2 :=
    .step h (.copy s (.tree t) (by intro t' e'; cases e'; exact ht))
  obtain ⟨c1, c2, _, _⟩ := C82_copy s t xt h ht et
  have hi' := history_inv h1
  have hk := (steps_inv hi (.step (.refl s) (.copy s (.tree t) (by intro t' e'; cases e'; exact ht)))).2
  have hu' : u ∈ (copyAny s (.tree t)).2.held := by
    simp only [copyAny, copyTree, newTree]
    split <;> simp [CState.hold, hu]
  have eu : (copyAny s (.tree t)).2.objs u = some x := by
    rw [isNoArgs_iff hi e] at hn
    rcases (hk.objs u x e hn).1 with h2 | h2
    · exact h2
    · obtain ⟨ob, h3⟩ := hi'.held u hu'
      rw [h2] at h3; cases h3
  obtain ⟨d1, _, ⟨y, d2, d3, _⟩, _⟩ := C82_copy _ u x h1 hu' eu
  have c2 : (newTree (copyAny s (.tree t)).2 []).1 = (newTree s []).1 := c2
  rw [c1, d1, c2]
  refine ⟨rfl, ?_⟩
  intro r hr
  cases hr
  rw [c2] at d2
  exact ⟨y, d2, d3⟩

/-- An `Atom` or a `Sym` cannot be copied: `TypeError`, and nothing has happened. -/
theorem C82_errors (s : CState V) (a : Atom V) (r : Nat) :
    (copyAny s (.atom a)).1 = .error .typeError ∧ (copyAny s (.atom a)).2 = s ∧
    (copyAny s (.sym r)).1 = .error .typeError ∧ (copyAny s (.sym r)).2 = s := by
  exact ⟨rfl, rfl, rfl, rfl⟩

/-- `copy.deepcopy` of a `Tree` that does not have `Tree()` in it ends with `TypeError`, and all objects have their
attributes afterwards, `Tree()` too. -/
theorem C82_deepcopy (s : CState V) (o : Nat) (t : Tree V) (h : CHistory s) (r : Reads s o t) :
    (∃ s' memo, DeepCopy s [] o (.error .typeError) s' memo) ∧
    ∀ res s' memo, DeepCopy s [] o res s' memo → res = .error .typeError ∧
      ∀ p ob, s.objs p = some ob → s'.objs p = some ob := by
  exact deep_error (history_inv h) t r (by simp)

/-- A `Tree` that does not have `Tree()` in it can be pickled, and `pickle.loads` of the pickle, at that time or later,
in that process or another, ends with `TypeError`: all objects have their attributes afterwards, `Tree()` too. -/
theorem C82_pickle (s₀ s : CState V) (o : Nat) (t : Tree V) (h₀ : CHistory s₀) (h : CHistory s)
    (r : Reads s₀ o t) :
    (∃ im seen, Dumps s₀ [] o im seen) ∧ ∀ im seen, Dumps s₀ [] o im seen →
      (∃ s' memo, Loads s [] im (.error .typeError) s' memo) ∧
      ∀ res s' memo, Loads s [] im res s' memo → res = .error .typeError ∧
        ∀ p ob, s.objs p = some ob → s'.objs p = some ob := by
  refine ⟨dumps_ends (history_inv h₀) t [] r, fun im seen d => ?_⟩
  exact loads_error (dumps_blocked (history_inv h₀) t r (by simp) d) (history_inv h)

/-- The only object that `copy.deepcopy` of a `Tree`, or `pickle.loads` of the pickle of one, can return is `Tree()`. -/
theorem C82_results (s s' : CState V) (memo : List (Nat × Nat)) (r : Nat) (h : CHistory s) :
    (∀ o, DeepCopy s [] o (.ok r) s' memo → IsNoArgs s' r) ∧
    ∀ im, Loads s [] im (.ok r) s' memo → IsNoArgs s' r := by
  exact ⟨fun _ d => deep_result (history_inv h) d, fun _ d => loads_result (history_inv h) d⟩

/-! ### The theorems apply: `x`, `y` atoms, `x(y)`, copies of both -/

/-- `x = Tree.atom(..); y = Tree.atom(..); t = x(y)` -/
def copyDemo : CState Int :=
  (newTree (newAtom (newAtom CState.start ⟨⟨0, "Symbol"⟩, 1⟩).2 ⟨⟨0, "Symbol"⟩, 2⟩).2 [0, 1]).2

theorem copyDemo_history : CHistory copyDemo := by
  refine .step (.step (.step (.refl _) (.atom _ _)) (.atom _ _)) (.tree _ _ ?_)
  decide

/-- The program holds `x`, `y` and `x(y)`. -/
theorem copyDemo_reads : copyDemo.held = [2, 1, 0] ∧
    Reads copyDemo 2 (.node [.atom ⟨⟨0, "Symbol"⟩, 1⟩, .atom ⟨⟨0, "Symbol"⟩, 2⟩]) := by
  refine ⟨by decide, .node (ob := ⟨[0, 1], none⟩) (by unfold IsNoArgs; decide) (by decide) (by decide) ?_⟩
  refine .cons ?_ (.cons ?_ .nil)
  · exact .atom (by unfold IsNoArgs; decide) (by decide)
  · exact .atom (by unfold IsNoArgs; decide) (by decide)

/-- The hypotheses of `C82_others` and `C82_reads`: a copy of `x(y)`, a copy of `y`, references dropped and
memory freed. -/
example : CSteps copyDemo (copyAny (copyAny copyDemo (.tree 2)).2 (.tree 1)).2 ∧
    2 ∈ (copyAny (copyAny copyDemo (.tree 2)).2 (.tree 1)).2.held := by
  refine ⟨.step (.step (.refl _) (.copy _ _ ?_)) (.copy _ _ ?_), by decide⟩
  · intro t e; cases e; decide
  · intro t e; cases e; decide

/-- The copy of `x(y)` is a new object, 3; the copy of `y` is the same, so that the first copy now reads
`y`: and a copy of `3(x)` is an object that has itself as its child. -/
example : (copyAny copyDemo (.tree 2)).1 = .ok 3 ∧
    (copyAny copyDemo (.tree 2)).2.objs 3 = some ⟨[0, 1], none⟩ ∧
    (copyAny (copyAny copyDemo (.tree 2)).2 (.tree 1)).1 = .ok 3 ∧
    (copyAny (copyAny copyDemo (.tree 2)).2 (.tree 1)).2.objs 3 = some ⟨[], some ⟨⟨0, "Symbol"⟩, 2⟩⟩ ∧
    (copyAny (newTree (copyAny copyDemo (.tree 2)).2 [3, 0]).2 (.tree 4)).2.objs 3 = some ⟨[3, 0], none⟩ := by
  exact ⟨rfl, by decide, rfl, by decide, by decide⟩

/-- What `C82_unique` asks for holds after a copy too. -/
example : ∃ s : CState Int, CHistory s ∧ s.objs 3 = some ⟨[0, 1], none⟩ ∧
    Reads s 2 (.node [.atom ⟨⟨0, "Symbol"⟩, 1⟩, .atom ⟨⟨0, "Symbol"⟩, 2⟩]) := by
  have st : CStep copyDemo (copyAny copyDemo (.tree 2)).2 :=
    .copy copyDemo (.tree 2) (by intro t e; cases e; decide)
  refine ⟨_, .step copyDemo_history st, by decide, ?_⟩
  exact C82_reads copyDemo _ 2 _ copyDemo_history (.step (.refl _) st) copyDemo_reads.2 (by decide)

/-- `copy.deepcopy(x(y))`. -/
example : ∃ s memo, DeepCopy copyDemo [] 2 (.error .typeError) s memo :=
  (C82_deepcopy copyDemo 2 _ copyDemo_history copyDemo_reads.2).1

/-- `copy.deepcopy(Tree(Tree()))` returns `Tree()`, which is its own child from then on. -/
example : ∃ s memo, DeepCopy (newTree (newTree (CState.start : CState Int) []).2 [0]).2 [] 1 (.ok 0) s memo ∧
    s.objs 0 = some ⟨[0], none⟩ := by
  exact ⟨_, _, .node rfl rfl rfl (.cons (.node rfl rfl rfl .nil rfl) .nil) rfl, rfl⟩

/-- `pickle.loads(pickle.dumps(x(y)))`, in another process. -/
example : ∃ im s memo, Dumps copyDemo [] 2 im [1, 0, 2] ∧
    Loads (CState.start : CState Int) [] im (.error .typeError) s memo := by
  exact ⟨_, _, _, .node (x := ⟨[0, 1], none⟩) (by decide) (by decide) rfl
      (.cons (.atom (seen := [2]) (x := ⟨[], some ⟨⟨0, "Symbol"⟩, 1⟩⟩) (by decide) (by decide) rfl)
        (.cons (.atom (seen := [0, 2]) (x := ⟨[], some ⟨⟨0, "Symbol"⟩, 2⟩⟩) (by decide) (by decide) rfl) .nil)),
    .fails (.head .atom)⟩

/-- `pickle.loads(pickle.dumps(Tree(Tree())))` returns `Tree()`, which is its own child from then on. -/
example : ∃ im seen s memo, Dumps (newTree (newTree (CState.start : CState Int) []).2 [0]).2 [] 1 im seen ∧
    Loads (newTree (newTree (CState.start : CState Int) []).2 [0]).2 [] im (.ok 0) s memo ∧
    s.objs 0 = some ⟨[0], none⟩ := by
  exact ⟨_, _, _, _, .node (by decide) rfl rfl (.cons (.node (by decide) rfl rfl .nil) .nil),
    .node (.cons (.node .nil rfl) .nil) rfl, rfl⟩

/-- A collection that frees something: `x(y)` and its copy, after which `Tree()` is a new object. -/
example : CHistory ({ (copyAny copyDemo (.tree 2)).2 with
    held := [1, 0]
    objs := fun o => if 2 ≤ o then none else (copyAny copyDemo (.tree 2)).2.objs o
    treeOf := fun k => ((copyAny copyDemo (.tree 2)).2.treeOf k).filter fun o => !decide (2 ≤ o)
    atomOf := fun k => ((copyAny copyDemo (.tree 2)).2.atomOf k).filter fun o => !decide (2 ≤ o) }) := by
  have st : CStep copyDemo (copyAny copyDemo (.tree 2)).2 :=
    .copy copyDemo (.tree 2) (by intro t e; cases e; decide)
  have hd := CSteps.step (.step copyDemo_history st) (.drop _ [1, 0] (by decide))
  have hc := CSteps.step hd (.collect _ (fun o => decide (2 ≤ o)) (by decide) ?_)
  · simpa [CHistory] using hc
  · intro o ob e hd c hc
    have ho : o = 0 ∨ o = 1 := by
      have : ¬ 2 ≤ o := by simpa using hd
      omega
    rcases ho with rfl | rfl <;> cases e <;> cases hc

end Verif.Props
