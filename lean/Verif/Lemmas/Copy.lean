import Verif.Spec.Copy

/-! # An invariant over all histories with copies -/

namespace Verif.Copy
variable {V : Type} [DecidableEq V]
set_option linter.unusedSectionVars false

/-- Where the entries of the store lead, and that every object but `Tree()` is where its content says. -/
structure CopyInv (s : CState V) : Prop where
  bounded : ∀ o ob, s.objs o = some ob → o < s.next
  held : ∀ o ∈ s.held, ∃ ob, s.objs o = some ob
  closed : ∀ o ob, s.objs o = some ob → ∀ c ∈ ob.children, ∃ ob', s.objs c = some ob'
  noArgs : ∀ o, s.treeOf [] = some o → ∃ ob, s.objs o = some ob
  trees : ∀ cs o, cs ≠ [] → s.treeOf cs = some o → s.objs o = some ⟨cs, none⟩ ∧ s.treeOf [] ≠ some o
  atoms : ∀ a o, s.atomOf a = some o → s.objs o = some ⟨[], some a⟩ ∧ s.treeOf [] ≠ some o
  known : ∀ o ob, s.objs o = some ob → s.treeOf [] = some o ∨
    (ob.children ≠ [] ∧ ob.value = none ∧ s.treeOf ob.children = some o) ∨
    (ob.children = [] ∧ ∃ a, ob.value = some a ∧ s.atomOf a = some o)

/-- What one step does to objects that existed: `Tree()` alone changes, and no old object becomes `Tree()`. -/
structure Keeps (s s' : CState V) : Prop where
  next : s.next ≤ s'.next
  objs : ∀ o ob, s.objs o = some ob → s.treeOf [] ≠ some o →
    (s'.objs o = some ob ∨ s'.objs o = none) ∧ s'.treeOf [] ≠ some o
  none : ∀ o, o < s.next → s.objs o = none → s'.objs o = none

theorem start_inv : CopyInv (CState.start : CState V) := by
  constructor <;> simp [CState.start]

theorem hold_inv {s : CState V} (h : CopyInv s) {o : Nat} (ho : ∃ ob, s.objs o = some ob) :
    CopyInv (s.hold o) := by
  obtain ⟨h1, h2, h3, h4, h5, h6, h7⟩ := h
  refine ⟨h1, ?_, h3, h4, h5, h6, h7⟩
  intro x hx
  rcases List.mem_cons.1 hx with rfl | hx
  · exact ho
  · exact h2 x hx

theorem hold_keeps (s : CState V) (o : Nat) : Keeps s (s.hold o) := by
  refine ⟨Nat.le_refl _, fun o ob e n => ⟨.inl e, n⟩, fun _ _ e => e⟩

theorem found_live {s : CState V} (h : CopyInv s) {cs : List Nat} {o : Nat} (e : s.treeOf cs = some o) :
    ∃ ob, s.objs o = some ob := by
  by_cases hc : cs = []
  · subst hc; exact h.noArgs o e
  · exact ⟨_, (h.trees cs o hc e).1⟩

theorem fresh {s : CState V} (h : CopyInv s) : s.objs s.next = none := by
  cases e : s.objs s.next with
  | none => rfl
  | some ob => exact absurd (h.bounded _ _ e) (Nat.lt_irrefl _)

theorem fresh_tree {s : CState V} (h : CopyInv s) (cs : List Nat) : s.treeOf cs ≠ some s.next := by
  intro e
  obtain ⟨ob, e⟩ := found_live h e
  rw [fresh h] at e; cases e

theorem fresh_atom {s : CState V} (h : CopyInv s) (a : Atom V) : s.atomOf a ≠ some s.next := by
  intro e
  have e := (h.atoms a _ e).1
  rw [fresh h] at e; cases e

theorem ne_fresh {s : CState V} (h : CopyInv s) {o : Nat} {ob : TObj V} (e : s.objs o = some ob) :
    o ≠ s.next := Nat.ne_of_lt (h.bounded o ob e)

theorem newTree_inv {s : CState V} (h : CopyInv s) {cs : List Nat} (hc : ∀ c ∈ cs, c ∈ s.held) :
    CopyInv (newTree s cs).2 := by
  unfold newTree
  cases e : s.treeOf cs with
  | some o => exact hold_inv h (found_live h e)
  | none =>
    dsimp only
    have hf := fresh h
    have ht := fresh_tree h
    have ha := fresh_atom h
    obtain ⟨h1, h2, h3, h4, h5, h6, h7⟩ := h
    have keep : ∀ {o ob}, s.objs o = some ob →
        Function.update s.objs s.next (some ⟨cs, none⟩) o = some ob := by
      intro o ob e
      rw [Function.update_of_ne (Nat.ne_of_lt (h1 o ob e)), e]
    constructor <;> dsimp only
    · intro o ob e'
      rw [Function.update_apply] at e'
      split at e'
      · rename_i hh; subst hh; exact Nat.lt_succ_self _
      · exact Nat.lt_succ_of_lt (h1 _ _ e')
    · intro o ho
      rcases List.mem_cons.1 ho with rfl | ho
      · exact ⟨_, Function.update_self ..⟩
      · obtain ⟨ob, e'⟩ := h2 o ho
        exact ⟨ob, keep e'⟩
    · intro o ob e' c hc'
      have : ∃ ob', s.objs c = some ob' := by
        rw [Function.update_apply] at e'
        split at e'
        · cases e'; exact h2 c (hc c hc')
        · exact h3 o ob e' c hc'
      obtain ⟨ob', e''⟩ := this
      exact ⟨ob', keep e''⟩
    · intro o e'
      rw [Function.update_apply] at e'
      split at e'
      · cases e'; exact ⟨_, Function.update_self ..⟩
      · obtain ⟨ob, e''⟩ := h4 o e'
        exact ⟨ob, keep e''⟩
    · intro ds o hd e'
      rw [Function.update_apply] at e'
      split at e'
      · rename_i hh
        cases e'
        subst hh
        refine ⟨Function.update_self .., ?_⟩
        rw [Function.update_of_ne (Ne.symm hd)]
        exact ht []
      · obtain ⟨e1, e2⟩ := h5 ds o hd e'
        refine ⟨keep e1, ?_⟩
        rw [Function.update_apply]
        split
        · intro e3; cases e3; exact ht ds e'
        · exact e2
    · intro a o e'
      obtain ⟨e1, e2⟩ := h6 a o e'
      refine ⟨keep e1, ?_⟩
      rw [Function.update_apply]
      split
      · intro e3; cases e3; exact ha a e'
      · exact e2
    · intro o ob e'
      rw [Function.update_apply] at e'
      split at e'
      · rename_i hh
        cases e'; subst hh
        by_cases hcs : cs = []
        · subst hcs; exact .inl (Function.update_self ..)
        · exact .inr (.inl ⟨hcs, rfl, Function.update_self ..⟩)
      · have upd : ∀ {ds x}, s.treeOf ds = some x →
            Function.update s.treeOf cs (some s.next) ds = some x := by
          intro ds x e3
          rw [Function.update_of_ne, e3]
          rintro rfl
          rw [e] at e3; cases e3
        rcases h7 o ob e' with e3 | ⟨e1, e2, e3⟩ | e3
        · exact .inl (upd e3)
        · exact .inr (.inl ⟨e1, e2, upd e3⟩)
        · exact .inr (.inr e3)

theorem newAtom_inv {s : CState V} (h : CopyInv s) (a : Atom V) : CopyInv (newAtom s a).2 := by
  unfold newAtom
  cases e : s.atomOf a with
  | some o => exact hold_inv h ⟨_, (h.atoms a o e).1⟩
  | none =>
    dsimp only
    have hf := fresh h
    have ht := fresh_tree h
    have ha := fresh_atom h
    obtain ⟨h1, h2, h3, h4, h5, h6, h7⟩ := h
    have keep : ∀ {o ob}, s.objs o = some ob →
        Function.update s.objs s.next (some ⟨[], some a⟩) o = some ob := by
      intro o ob e
      rw [Function.update_of_ne (Nat.ne_of_lt (h1 o ob e)), e]
    constructor <;> dsimp only
    · intro o ob e'
      rw [Function.update_apply] at e'
      split at e'
      · rename_i hh; subst hh; exact Nat.lt_succ_self _
      · exact Nat.lt_succ_of_lt (h1 _ _ e')
    · intro o ho
      rcases List.mem_cons.1 ho with rfl | ho
      · exact ⟨_, Function.update_self ..⟩
      · obtain ⟨ob, e'⟩ := h2 o ho
        exact ⟨ob, keep e'⟩
    · intro o ob e' c hc'
      have : ∃ ob', s.objs c = some ob' := by
        rw [Function.update_apply] at e'
        split at e'
        · cases e'; cases hc'
        · exact h3 o ob e' c hc'
      obtain ⟨ob', e''⟩ := this
      exact ⟨ob', keep e''⟩
    · intro o e'
      obtain ⟨ob, e''⟩ := h4 o e'
      exact ⟨ob, keep e''⟩
    · intro ds o hd e'
      obtain ⟨e1, e2⟩ := h5 ds o hd e'
      exact ⟨keep e1, e2⟩
    · intro b o e'
      rw [Function.update_apply] at e'
      split at e'
      · rename_i hh
        cases e'
        subst hh
        exact ⟨Function.update_self .., ht []⟩
      · obtain ⟨e1, e2⟩ := h6 b o e'
        exact ⟨keep e1, e2⟩
    · intro o ob e'
      rw [Function.update_apply] at e'
      split at e'
      · rename_i hh
        cases e'; subst hh
        exact .inr (.inr ⟨rfl, a, rfl, Function.update_self ..⟩)
      · rcases h7 o ob e' with e3 | e3 | ⟨e1, b, e2, e3⟩
        · exact .inl e3
        · exact .inr (.inl e3)
        · refine .inr (.inr ⟨e1, b, e2, ?_⟩)
          rw [Function.update_of_ne, e3]
          rintro rfl
          rw [e] at e3; cases e3

theorem newTree_keeps {s : CState V} (h : CopyInv s) (cs : List Nat) : Keeps s (newTree s cs).2 := by
  unfold newTree
  cases e : s.treeOf cs with
  | some o => exact hold_keeps s o
  | none =>
    dsimp only
    refine ⟨Nat.le_succ _, ?_, ?_⟩
    · intro o ob e' n
      refine ⟨.inl ?_, ?_⟩
      · show Function.update s.objs s.next _ o = _
        rw [Function.update_of_ne (ne_fresh h e'), e']
      · show Function.update s.treeOf cs _ [] ≠ _
        rw [Function.update_apply]
        split
        · intro e3; cases e3; exact ne_fresh h e' rfl
        · exact n
    · intro o ho e'
      show Function.update s.objs s.next _ o = _
      rw [Function.update_of_ne (Nat.ne_of_lt ho), e']

theorem newAtom_keeps {s : CState V} (h : CopyInv s) (a : Atom V) : Keeps s (newAtom s a).2 := by
  unfold newAtom
  cases e : s.atomOf a with
  | some o => exact hold_keeps s o
  | none =>
    dsimp only
    refine ⟨Nat.le_succ _, ?_, ?_⟩
    · intro o ob e' n
      refine ⟨.inl ?_, n⟩
      show Function.update s.objs s.next _ o = _
      rw [Function.update_of_ne (ne_fresh h e'), e']
    · intro o ho e'
      show Function.update s.objs s.next _ o = _
      rw [Function.update_of_ne (Nat.ne_of_lt ho), e']

/-- The object that `Tree()` returned is in the store afterwards. -/
theorem newTree_found (s : CState V) (cs : List Nat) :
    (newTree s cs).2.treeOf cs = some (newTree s cs).1 := by
  unfold newTree
  cases e : s.treeOf cs with
  | some o => exact e
  | none => exact Function.update_self ..

theorem newTree_live {s : CState V} (h : CopyInv s) {cs : List Nat} (hc : ∀ c ∈ cs, c ∈ s.held) :
    ∃ ob, (newTree s cs).2.objs (newTree s cs).1 = some ob :=
  found_live (newTree_inv h hc) (newTree_found s cs)

theorem Keeps.refl (s : CState V) : Keeps s s :=
  ⟨Nat.le_refl _, fun _ _ e n => ⟨.inl e, n⟩, fun _ _ e => e⟩

theorem Keeps.trans {s s' s'' : CState V} (h : CopyInv s) (h'' : CopyInv s'')
    (k : Keeps s s') (k' : Keeps s' s'') : Keeps s s'' := by
  refine ⟨Nat.le_trans k.next k'.next, ?_, ?_⟩
  · intro o ob e n
    rcases k.objs o ob e n with ⟨e1 | e1, n1⟩
    · exact k'.objs o ob e1 n1
    · have e2 := k'.none o (Nat.lt_of_lt_of_le (h.bounded o ob e) k.next) e1
      refine ⟨.inr e2, ?_⟩
      intro e3
      obtain ⟨ob', e4⟩ := h''.noArgs o e3
      rw [e2] at e4; cases e4
  · intro o ho e
    exact k'.none o (Nat.lt_of_lt_of_le ho k.next) (k.none o ho e)

/-- The object that `Tree()` is gets other attributes: nothing else happens. -/
theorem overwrite_inv {s : CState V} (h : CopyInv s) {r : Nat} (hr : s.treeOf [] = some r) (ob : TObj V)
    (hc : ∀ c ∈ ob.children, ∃ ob', s.objs c = some ob') :
    CopyInv { s with objs := Function.update s.objs r (some ob) } := by
  have hl := h.noArgs r hr
  obtain ⟨h1, h2, h3, h4, h5, h6, h7⟩ := h
  have live : ∀ {o}, (∃ ob', s.objs o = some ob') →
      ∃ ob', Function.update s.objs r (some ob) o = some ob' := by
    rintro o ⟨ob', e⟩
    rw [Function.update_apply]
    split
    · exact ⟨_, rfl⟩
    · exact ⟨_, e⟩
  have keep : ∀ {o ob'}, s.objs o = some ob' → s.treeOf [] ≠ some o →
      Function.update s.objs r (some ob) o = some ob' := by
    intro o ob' e n
    rw [Function.update_of_ne, e]
    rintro rfl
    exact n hr
  constructor
  · intro o ob' e
    dsimp only at e
    rw [Function.update_apply] at e
    split at e
    · rename_i hh; subst hh
      obtain ⟨ob'', e'⟩ := hl
      exact h1 _ _ e'
    · exact h1 _ _ e
  · intro o ho
    exact live (h2 o ho)
  · intro o ob' e c hc'
    dsimp only at e
    rw [Function.update_apply] at e
    split at e
    · cases e; exact live (hc c hc')
    · exact live (h3 o ob' e c hc')
  · intro o e
    exact live (h4 o e)
  · intro cs o hn e
    obtain ⟨e1, e2⟩ := h5 cs o hn e
    exact ⟨keep e1 e2, e2⟩
  · intro a o e
    obtain ⟨e1, e2⟩ := h6 a o e
    exact ⟨keep e1 e2, e2⟩
  · intro o ob' e
    dsimp only at e
    rw [Function.update_apply] at e
    split at e
    · rename_i hh; subst hh; exact .inl hr
    · exact h7 o ob' e

theorem overwrite_keeps (s : CState V) {r : Nat} (hr : s.treeOf [] = some r)
    (hl : ∃ ob', s.objs r = some ob') (ob : TObj V) :
    Keeps s { s with objs := Function.update s.objs r (some ob) } := by
  refine ⟨Nat.le_refl _, ?_, ?_⟩
  · intro o ob' e n
    refine ⟨.inl ?_, n⟩
    dsimp only
    rw [Function.update_of_ne, e]
    rintro rfl
    exact n hr
  · intro o _ e
    dsimp only
    rw [Function.update_of_ne, e]
    rintro rfl
    obtain ⟨ob', e'⟩ := hl
    rw [e] at e'; cases e'

/-- What `copy.copy` of a `Tree` does, when the `Tree` is there. -/
theorem copyTree_eq {s : CState V} (h : CopyInv s) {t : Nat} {x : TObj V} (e : s.objs t = some x) :
    ∃ y, (newTree s []).2.objs (newTree s []).1 = some y ∧
      copyTree s t = ((newTree s []).1, { (newTree s []).2 with
        objs := Function.update (newTree s []).2.objs (newTree s []).1 (some (assign x y)) }) := by
  obtain ⟨y, hy⟩ := newTree_live h (cs := []) (by simp)
  refine ⟨y, hy, ?_⟩
  simp only [copyTree, e, hy]

theorem newTree_objs {s : CState V} (h : CopyInv s) {cs : List Nat} {o : Nat} {ob : TObj V}
    (e : s.objs o = some ob) : (newTree s cs).2.objs o = some ob := by
  unfold newTree
  cases e' : s.treeOf cs with
  | some o => exact e
  | none =>
    show Function.update s.objs s.next _ o = _
    rw [Function.update_of_ne (ne_fresh h e), e]

theorem copyTree_inv {s : CState V} (h : CopyInv s) {t : Nat} (ht : t ∈ s.held) :
    CopyInv (copyTree s t).2 ∧ Keeps s (copyTree s t).2 := by
  obtain ⟨x, e⟩ := h.held t ht
  obtain ⟨y, hy, eq⟩ := copyTree_eq h e
  have hi := newTree_inv h (cs := []) (by simp)
  have hf := newTree_found s []
  rw [eq]
  have hi' : CopyInv _ := overwrite_inv hi hf (assign x y) (by
    intro c hc
    obtain ⟨ob', e'⟩ := h.closed t x e c hc
    exact ⟨ob', newTree_objs h e'⟩)
  exact ⟨hi', (newTree_keeps h []).trans h hi' (overwrite_keeps _ hf ⟨y, hy⟩ _)⟩

/-- What holds between two states of a `deepcopy`: nothing is freed. -/
structure Grows (s s' : CState V) : Prop where
  inv : CopyInv s'
  keeps : Keeps s s'
  live : ∀ o, (∃ ob, s.objs o = some ob) → ∃ ob, s'.objs o = some ob
  noArgs : ∀ r, s.treeOf [] = some r → s'.treeOf [] = some r
  held : ∀ o ∈ s.held, o ∈ s'.held

theorem Grows.refl {s : CState V} (h : CopyInv s) : Grows s s :=
  ⟨h, .refl s, fun _ h => h, fun _ h => h, fun _ h => h⟩

theorem Grows.trans {s s' s'' : CState V} (h : CopyInv s) (k : Grows s s') (k' : Grows s' s'') : Grows s s'' :=
  ⟨k'.inv, k.keeps.trans h k'.inv k'.keeps, fun o h => k'.live o (k.live o h),
    fun r h => k'.noArgs r (k.noArgs r h), fun o h => k'.held o (k.held o h)⟩

theorem newTree_held (s : CState V) (cs : List Nat) : (newTree s cs).2.held = (newTree s cs).1 :: s.held := by
  unfold newTree; split <;> rfl

theorem newTree_grows {s : CState V} (h : CopyInv s) : Grows s (newTree s []).2 := by
  refine ⟨newTree_inv h (by simp), newTree_keeps h [], ?_, ?_, ?_⟩
  · rintro o ⟨ob, e⟩
    exact ⟨ob, newTree_objs h e⟩
  · intro r e
    simp [newTree, e, CState.hold]
  · intro o ho
    rw [newTree_held]; exact List.mem_cons_of_mem _ ho

theorem overwrite_grows {s : CState V} (h : CopyInv s) {r : Nat} (hr : s.treeOf [] = some r) (ob : TObj V)
    (hc : ∀ c ∈ ob.children, ∃ ob', s.objs c = some ob') :
    Grows s { s with objs := Function.update s.objs r (some ob) } := by
  refine ⟨overwrite_inv h hr ob hc, overwrite_keeps s hr (h.noArgs r hr) ob, ?_, fun _ h => h, fun _ h => h⟩
  rintro o ⟨ob', e⟩
  dsimp only
  rw [Function.update_apply]
  split
  · exact ⟨_, rfl⟩
  · exact ⟨_, e⟩

/-- The copies in a memo are alive. -/
def MemoLive (s : CState V) (memo : List (Nat × Nat)) : Prop :=
  ∀ t r, memo.lookup t = some r → ∃ ob, s.objs r = some ob

theorem MemoLive.grows {s s' : CState V} {memo : List (Nat × Nat)} (h : MemoLive s memo) (k : Grows s s') :
    MemoLive s' memo := fun t r e => k.live r (h t r e)

theorem MemoLive.cons {s : CState V} {memo : List (Nat × Nat)} (h : MemoLive s memo) {t r : Nat}
    (hr : ∃ ob, s.objs r = some ob) : MemoLive s ((t, r) :: memo) := by
  intro u q e
  rw [List.lookup_cons] at e
  split at e
  · cases e; exact hr
  · exact h u q e

mutual
theorem deep_grows {s s' : CState V} {memo memo' : List (Nat × Nat)} {t : Nat} {res : PyM Nat} (h : CopyInv s)
    (hm : MemoLive s memo) (d : DeepCopy s memo t res s' memo') :
    Grows s s' ∧ MemoLive s' memo' ∧ ∀ r, res = .ok r → ∃ ob, s'.objs r = some ob := by
  match d with
  | .memo e => exact ⟨.refl h, hm, fun r hr => by cases hr; exact hm _ _ e⟩
  | .atom _ _ _ =>
    have k := newTree_grows h
    exact ⟨k, (hm.grows k).cons (newTree_live h (by simp)), fun r hr => by cases hr⟩
  | .fails _ e _ ds =>
    have k := newTree_grows h
    obtain ⟨k', hm', _⟩ := deepList_grows k.inv ((hm.grows k).cons (newTree_live h (by simp))) ds
    exact ⟨k.trans h k', hm', fun r hr => by cases hr⟩
  | .node (y := y) (rs := rs) _ e _ ds ey =>
    have k := newTree_grows h
    obtain ⟨k', hm', hr⟩ := deepList_grows k.inv ((hm.grows k).cons (newTree_live h (by simp))) ds
    have k'' := overwrite_grows k'.inv (k'.noArgs _ (newTree_found s [])) (assign ⟨rs, none⟩ y) (hr rs rfl)
    refine ⟨(k.trans h k').trans h k'', hm'.grows k'', fun r hr => ?_⟩
    cases hr
    exact k''.live _ ⟨y, ey⟩
theorem deepList_grows {s s' : CState V} {memo memo' : List (Nat × Nat)} {ts : List Nat} {res : PyM (List Nat)}
    (h : CopyInv s) (hm : MemoLive s memo) (d : DeepCopies s memo ts res s' memo') :
    Grows s s' ∧ MemoLive s' memo' ∧ ∀ rs, res = .ok rs → ∀ r ∈ rs, ∃ ob, s'.objs r = some ob := by
  match d with
  | .nil => exact ⟨.refl h, hm, fun r hr => by cases hr; simp⟩
  | .cons d ds =>
    obtain ⟨k, hm', hr⟩ := deep_grows h hm d
    obtain ⟨k', hm'', hr'⟩ := deepList_grows k.inv hm' ds
    refine ⟨k.trans h k', hm'', fun rs e => ?_⟩
    cases e
    intro r hmem
    rcases List.mem_cons.1 hmem with rfl | hmem
    · exact k'.live _ (hr _ rfl)
    · exact hr' _ rfl r hmem
  | .head d =>
    obtain ⟨k, hm', _⟩ := deep_grows h hm d
    exact ⟨k, hm', fun r hr => by cases hr⟩
  | .tail d ds =>
    obtain ⟨k, hm', hr⟩ := deep_grows h hm d
    obtain ⟨k', hm'', _⟩ := deepList_grows k.inv hm' ds
    exact ⟨k.trans h k', hm'', fun r hr => by cases hr⟩
end

mutual
theorem loads_grows {s s' : CState V} {memo memo' : List (Nat × Nat)} {im : Image} {res : PyM Nat} (h : CopyInv s)
    (hm : MemoLive s memo) (d : Loads s memo im res s' memo') :
    Grows s s' ∧ MemoLive s' memo' ∧ ∀ r, res = .ok r → ∃ ob, s'.objs r = some ob := by
  match d with
  | .ref e => exact ⟨.refl h, hm, fun r hr => by cases hr; exact hm _ _ e⟩
  | .atom =>
    have k := newTree_grows h
    exact ⟨k, (hm.grows k).cons (newTree_live h (by simp)), fun r hr => by cases hr⟩
  | .fails ds =>
    have k := newTree_grows h
    obtain ⟨k', hm', _⟩ := loadsList_grows k.inv ((hm.grows k).cons (newTree_live h (by simp))) ds
    exact ⟨k.trans h k', hm', fun r hr => by cases hr⟩
  | .node (y := y) (rs := rs) ds ey =>
    have k := newTree_grows h
    obtain ⟨k', hm', hr⟩ := loadsList_grows k.inv ((hm.grows k).cons (newTree_live h (by simp))) ds
    have k'' := overwrite_grows k'.inv (k'.noArgs _ (newTree_found s [])) (assign ⟨rs, none⟩ y) (hr rs rfl)
    refine ⟨(k.trans h k').trans h k'', hm'.grows k'', fun r hr => ?_⟩
    cases hr
    exact k''.live _ ⟨y, ey⟩
theorem loadsList_grows {s s' : CState V} {memo memo' : List (Nat × Nat)} {ims : List Image} {res : PyM (List Nat)}
    (h : CopyInv s) (hm : MemoLive s memo) (d : LoadsList s memo ims res s' memo') :
    Grows s s' ∧ MemoLive s' memo' ∧ ∀ rs, res = .ok rs → ∀ r ∈ rs, ∃ ob, s'.objs r = some ob := by
  match d with
  | .nil => exact ⟨.refl h, hm, fun r hr => by cases hr; simp⟩
  | .cons d ds =>
    obtain ⟨k, hm', hr⟩ := loads_grows h hm d
    obtain ⟨k', hm'', hr'⟩ := loadsList_grows k.inv hm' ds
    refine ⟨k.trans h k', hm'', fun rs e => ?_⟩
    cases e
    intro r hmem
    rcases List.mem_cons.1 hmem with rfl | hmem
    · exact k'.live _ (hr _ rfl)
    · exact hr' _ rfl r hmem
  | .head d =>
    obtain ⟨k, hm', _⟩ := loads_grows h hm d
    exact ⟨k, hm', fun r hr => by cases hr⟩
  | .tail d ds =>
    obtain ⟨k, hm', hr⟩ := loads_grows h hm d
    obtain ⟨k', hm'', _⟩ := loadsList_grows k.inv hm' ds
    exact ⟨k.trans h k', hm'', fun r hr => by cases hr⟩
end

theorem held_inv {s : CState V} (h : CopyInv s) {held : List Nat} (hh : ∀ o ∈ held, ∃ ob, s.objs o = some ob) :
    CopyInv { s with held := held } :=
  ⟨h.bounded, hh, h.closed, h.noArgs, h.trees, h.atoms, h.known⟩

theorem collect_inv {s : CState V} (h : CopyInv s) (dead : Nat → Bool) (hh : ∀ o ∈ s.held, dead o = false)
    (hc : ∀ o ob, s.objs o = some ob → dead o = false → ∀ c ∈ ob.children, dead c = false) :
    CopyInv { s with
        objs := fun o => if dead o then none else s.objs o
        treeOf := fun k => (s.treeOf k).filter fun o => !dead o
        atomOf := fun k => (s.atomOf k).filter fun o => !dead o } := by
  obtain ⟨h1, h2, h3, h4, h5, h6, h7⟩ := h
  have live : ∀ {o ob}, (if dead o then none else s.objs o) = some ob → dead o = false ∧ s.objs o = some ob := by
    intro o ob e
    cases hd : dead o <;> simp_all
  have fil : ∀ {x : Option Nat} {o}, (x.filter fun o => !dead o) = some o ↔ x = some o ∧ dead o = false := by
    intro x o
    rw [Option.filter_eq_some_iff]; simp
  constructor
  · intro o ob e
    exact h1 o ob (live e).2
  · intro o ho
    obtain ⟨ob, e⟩ := h2 o ho
    exact ⟨ob, by simp [hh o ho, e]⟩
  · intro o ob e c hc'
    obtain ⟨ob', e'⟩ := h3 o ob (live e).2 c hc'
    exact ⟨ob', by simp [hc o ob (live e).2 (live e).1 c hc', e']⟩
  · intro o e
    obtain ⟨e1, e2⟩ := fil.1 e
    obtain ⟨ob, e'⟩ := h4 o e1
    exact ⟨ob, by simp [e2, e']⟩
  · intro cs o hn e
    obtain ⟨e1, e2⟩ := fil.1 e
    obtain ⟨e3, e4⟩ := h5 cs o hn e1
    exact ⟨by simp [e2, e3], fun e5 => e4 (fil.1 e5).1⟩
  · intro a o e
    obtain ⟨e1, e2⟩ := fil.1 e
    obtain ⟨e3, e4⟩ := h6 a o e1
    exact ⟨by simp [e2, e3], fun e5 => e4 (fil.1 e5).1⟩
  · intro o ob e
    obtain ⟨e1, e2⟩ := live e
    rcases h7 o ob e2 with e3 | ⟨e3, e4, e5⟩ | ⟨e3, a, e4, e5⟩
    · exact .inl (fil.2 ⟨e3, e1⟩)
    · exact .inr (.inl ⟨e3, e4, fil.2 ⟨e5, e1⟩⟩)
    · exact .inr (.inr ⟨e3, a, e4, fil.2 ⟨e5, e1⟩⟩)

theorem step_inv {s s' : CState V} (h : CopyInv s) (st : CStep s s') : CopyInv s' ∧ Keeps s s' := by
  cases st with
  | atom a => exact ⟨newAtom_inv h a, newAtom_keeps h a⟩
  | tree cs hc => exact ⟨newTree_inv h hc, newTree_keeps h cs⟩
  | copy x hx =>
    cases x with
    | tree t => exact copyTree_inv h (hx t rfl)
    | atom a => exact ⟨h, .refl s⟩
    | sym r => exact ⟨h, .refl s⟩
  | deepcopy s' t res memo ht d =>
    obtain ⟨k, _, hr⟩ := deep_grows h (fun _ _ e => by cases e) d
    refine ⟨held_inv k.inv ?_, k.keeps.next, k.keeps.objs, k.keeps.none⟩
    intro o ho
    cases res with
    | error e => exact k.live o (h.held o ho)
    | ok r =>
      rcases List.mem_cons.1 ho with rfl | ho
      · exact hr _ rfl
      · exact k.live o (h.held o ho)
  | unpickle s' im res memo d =>
    obtain ⟨k, _, hr⟩ := loads_grows h (fun _ _ e => by cases e) d
    refine ⟨held_inv k.inv ?_, k.keeps.next, k.keeps.objs, k.keeps.none⟩
    intro o ho
    cases res with
    | error e => exact k.live o (h.held o ho)
    | ok r =>
      rcases List.mem_cons.1 ho with rfl | ho
      · exact hr _ rfl
      · exact k.live o (h.held o ho)
  | child t ob c ht e hc => exact ⟨hold_inv h (h.closed t ob e c hc), hold_keeps s c⟩
  | drop held hs =>
    exact ⟨⟨h.bounded, fun o ho => h.held o (hs o ho), h.closed, h.noArgs, h.trees, h.atoms, h.known⟩,
      Nat.le_refl _, fun _ _ e n => ⟨.inl e, n⟩, fun _ _ e => e⟩
  | collect dead hh hc =>
    refine ⟨collect_inv h dead hh hc, Nat.le_refl _, ?_, ?_⟩
    · intro o ob e n
      refine ⟨?_, fun e' => n (by rw [Option.filter_eq_some_iff] at e'; exact e'.1)⟩
      dsimp only
      split
      · exact .inr rfl
      · exact .inl e
    · intro o _ e
      dsimp only
      split
      · rfl
      · exact e

theorem steps_inv {s s' : CState V} (h : CopyInv s) (st : CSteps s s') : CopyInv s' ∧ Keeps s s' := by
  induction st with
  | refl => exact ⟨h, .refl s⟩
  | step _ st ih =>
    obtain ⟨h', k⟩ := ih
    obtain ⟨h'', k'⟩ := step_inv h' st
    exact ⟨h'', k.trans h h'' k'⟩

theorem history_inv {s : CState V} (h : CHistory s) : CopyInv s := (steps_inv start_inv h).1

theorem isNoArgs_iff {s : CState V} (h : CopyInv s) {o : Nat} {ob : TObj V} (e : s.objs o = some ob) :
    IsNoArgs s o ↔ s.treeOf [] = some o := by
  unfold IsNoArgs newTree
  cases e' : s.treeOf [] with
  | some r => simp
  | none => simp only [reduceCtorEq, iff_false]; exact fun e3 => ne_fresh h e e3.symm

mutual
theorem reads_kept {s s' : CState V} (hi : CopyInv s) (hi' : CopyInv s') (k : Keeps s s') {o : Nat} {t : Tree V}
    (r : Reads s o t) (hl : ∃ ob, s'.objs o = some ob) : Reads s' o t := by
  obtain ⟨ob', el⟩ := hl
  match r with
  | .atom (a := a) hn e =>
    rw [isNoArgs_iff hi e] at hn
    obtain ⟨h1, h2⟩ := k.objs _ _ e hn
    have h1 : s'.objs o = some ⟨[], some a⟩ := by
      rcases h1 with h1 | h1
      · exact h1
      · rw [h1] at el; cases el
    exact .atom (by rw [isNoArgs_iff hi' h1]; exact h2) h1
  | .node (ob := ob) hn e hc rs =>
    rw [isNoArgs_iff hi e] at hn
    obtain ⟨h1, h2⟩ := k.objs _ _ e hn
    have h1 : s'.objs o = some ob := by
      rcases h1 with h1 | h1
      · exact h1
      · rw [h1] at el; cases el
    exact .node (by rw [isNoArgs_iff hi' h1]; exact h2) h1 hc (readsList_kept hi hi' k rs (hi'.closed _ _ h1))
theorem readsList_kept {s s' : CState V} (hi : CopyInv s) (hi' : CopyInv s') (k : Keeps s s') {os : List Nat}
    {ts : List (Tree V)} (r : ReadsList s os ts) (hl : ∀ o ∈ os, ∃ ob, s'.objs o = some ob) :
    ReadsList s' os ts := by
  match r with
  | .nil => exact .nil
  | .cons r rs => 
    have h1 := reads_kept hi hi' k r (hl _ (by simp))
    exact .cons h1 (readsList_kept hi hi' k rs (fun o ho => hl o (by simp [ho])))
end

mutual
theorem reads_unique {s : CState V} (hi : CopyInv s) {o o' : Nat} {t : Tree V} (r : Reads s o t)
    (r' : Reads s o' t) : o = o' := by
  match r, r' with
  | .atom hn e, .atom hn' e' =>
    rw [isNoArgs_iff hi e] at hn
    rw [isNoArgs_iff hi e'] at hn'
    rcases hi.known _ _ e with h | ⟨h, _⟩ | ⟨_, a, h, h3⟩
    · exact absurd h hn
    · exact absurd rfl h
    rcases hi.known _ _ e' with h' | ⟨h', _⟩ | ⟨_, a', h', h3'⟩
    · exact absurd h' hn'
    · exact absurd rfl h'
    cases h; cases h'
    rw [h3] at h3'; cases h3'; rfl
  | .node (ob := ob) hn e hc rs, .node (ob := ob') hn' e' hc' rs' =>
    rw [isNoArgs_iff hi e] at hn
    rw [isNoArgs_iff hi e'] at hn'
    have hcs := readsList_unique hi rs rs'
    rcases hi.known _ _ e with h | ⟨_, _, h⟩ | ⟨h, _⟩
    · exact absurd h hn
    · rcases hi.known _ _ e' with h' | ⟨_, _, h'⟩ | ⟨h', _⟩
      · exact absurd h' hn'
      · rw [hcs, h'] at h; cases h; rfl
      · exact absurd h' hc'
    · exact absurd h hc
theorem readsList_unique {s : CState V} (hi : CopyInv s) {os os' : List Nat} {ts : List (Tree V)}
    (r : ReadsList s os ts) (r' : ReadsList s os' ts) : os = os' := by
  match r, r' with
  | .nil, .nil => rfl
  | .cons r rs, .cons r' rs' =>
    rw [reads_unique hi r r', readsList_unique hi rs rs']
end

mutual
theorem reads_eq {s : CState V} {o : Nat} {t t' : Tree V} (r : Reads s o t) (r' : Reads s o t') : t = t' := by
  match r, r' with
  | .atom _ e, .atom _ e' => rw [e] at e'; cases e'; rfl
  | .atom _ e, .node _ e' hc _ => rw [e] at e'; cases e'; exact absurd rfl hc
  | .node _ e hc _, .atom _ e' => rw [e] at e'; cases e'; exact absurd rfl hc
  | .node _ e _ rs, .node _ e' _ rs' =>
    rw [e] at e'; cases e'
    rw [readsList_eq rs rs']
theorem readsList_eq {s : CState V} {os : List Nat} {ts ts' : List (Tree V)} (r : ReadsList s os ts)
    (r' : ReadsList s os ts') : ts = ts' := by
  match r, r' with
  | .nil, .nil => rfl
  | .cons r rs, .cons r' rs' => rw [reads_eq r r', readsList_eq rs rs']
end

/-- No copy of something that reads `t` has been begun. -/
theorem lookup_none {s : CState V} {o : Nat} {t : Tree V} (r : Reads s o t) {memo : List (Nat × Nat)}
    (hm : ∀ k q, (k, q) ∈ memo → ∃ t', Reads s k t' ∧ sizeOf t < sizeOf t') : memo.lookup o = none := by
  rw [List.lookup_eq_none_iff]
  rintro ⟨k, q⟩ hk
  obtain ⟨t', r', hlt⟩ := hm k q hk
  simp only [bne_iff_ne, ne_eq, beq_eq_false_iff_ne]
  rintro rfl
  rw [reads_eq r r'] at hlt
  exact absurd hlt (Nat.lt_irrefl _)

theorem newTree_reads {s : CState V} (h : CopyInv s) {o : Nat} {t : Tree V} (r : Reads s o t) :
    Reads (newTree s []).2 o t := by
  have k := newTree_grows h
  refine reads_kept h k.inv k.keeps r (k.live o ?_)
  cases r with
  | atom _ e => exact ⟨_, e⟩
  | node _ e _ _ => exact ⟨_, e⟩

theorem deep_error {s : CState V} (h : CopyInv s) : ∀ (t : Tree V) {o : Nat} {memo : List (Nat × Nat)},
    Reads s o t → (∀ k q, (k, q) ∈ memo → ∃ t', Reads s k t' ∧ sizeOf t < sizeOf t') →
    (∃ s' memo', DeepCopy s memo o (.error .typeError) s' memo') ∧
    ∀ res s' memo', DeepCopy s memo o res s' memo' → res = .error .typeError ∧
      ∀ p ob, s.objs p = some ob → s'.objs p = some ob
  | .atom a, o, memo, r, hm => by
    have hl := lookup_none r hm
    cases r with
    | atom hn e =>
      refine ⟨⟨_, _, .atom hl e rfl⟩, ?_⟩
      intro res s' memo' d
      cases d with
      | memo e' => rw [hl] at e'; cases e'
      | atom _ _ _ => exact ⟨rfl, fun p ob e => newTree_objs h e⟩
      | node _ e' hv _ _ => rw [e] at e'; cases e'; cases hv
      | fails _ e' hv _ => rw [e] at e'; cases e'; cases hv
  | .node ts, o, memo, r, hm => by
    have hl := lookup_none r hm
    have rt := r
    cases r with
    | @node _ ob _ hn e hc rs =>
      have hv : ob.value = none := by
        rw [isNoArgs_iff h e] at hn
        rcases h.known _ _ e with h' | ⟨_, h', _⟩ | ⟨h', _⟩
        · exact absurd h' hn
        · exact h'
        · exact absurd h' hc
      have hcs : ∃ cs, ob.children = cs := ⟨_, rfl⟩
      obtain ⟨cs, hcs⟩ := hcs
      rw [hcs] at rs hc
      match ts, rs with
      | [], .nil => exact absurd rfl hc
      | t :: ts, .cons (o := c) (os := cs) r1 _ =>
        have hi := newTree_inv h (cs := []) (by simp)
        have ih := deep_error hi t (o := c) (memo := (o, (newTree s []).1) :: memo) (newTree_reads h r1) (by
          intro k q hk
          rcases List.mem_cons.1 hk with hk | hk
          · cases hk
            exact ⟨_, newTree_reads h rt, by simp +arith⟩
          · obtain ⟨t', r', hlt⟩ := hm k q hk
            refine ⟨t', newTree_reads h r', Nat.lt_trans ?_ hlt⟩
            simp +arith)
        obtain ⟨⟨s1, m1, d1⟩, ih⟩ := ih
        refine ⟨⟨s1, m1, .fails hl e hv (by rw [hcs]; exact .head d1)⟩, ?_⟩
        intro res s' memo' d
        cases d with
        | memo e' => rw [hl] at e'; cases e'
        | atom _ e' hv' => rw [e] at e'; cases e'; rw [hv] at hv'; cases hv'
        | node _ e' _ ds _ =>
          rw [e] at e'; cases e'
          rw [hcs] at ds
          cases ds with
          | cons d _ => exact absurd (ih _ _ _ d).1 (by simp)
        | fails _ e' _ ds =>
          rw [e] at e'; cases e'
          rw [hcs] at ds
          cases ds with
          | head d =>
            obtain ⟨h1, h2⟩ := ih _ _ _ d
            cases h1
            exact ⟨rfl, fun p ob e => h2 p ob (newTree_objs h e)⟩
          | tail d _ => exact absurd (ih _ _ _ d).1 (by simp)

/-- The first thing after the calls of `Tree()` is an `Atom`. -/
inductive Blocked : Image → Prop
  | atom {k : Nat} : Blocked (.atom k)
  | node {k : Nat} {im : Image} {ims : List Image} : Blocked im → Blocked (.node k (im :: ims))

theorem not_seen {s : CState V} {o : Nat} {t : Tree V} (r : Reads s o t) {seen : List Nat}
    (hm : ∀ k ∈ seen, ∃ t', Reads s k t' ∧ sizeOf t < sizeOf t') : o ∉ seen := by
  intro hk
  obtain ⟨t', r', hlt⟩ := hm o hk
  rw [reads_eq r r'] at hlt
  exact absurd hlt (Nat.lt_irrefl _)

theorem reads_value {s : CState V} (h : CopyInv s) {o : Nat} {ts : List (Tree V)} (r : Reads s o (.node ts)) :
    ∃ ob, s.objs o = some ob ∧ ob.value = none ∧ ob.children ≠ [] ∧ ReadsList s ob.children ts := by
  cases r with
  | @node _ ob _ hn e hc rs =>
    refine ⟨ob, e, ?_, hc, rs⟩
    rw [isNoArgs_iff h e] at hn
    rcases h.known _ _ e with h' | ⟨_, h', _⟩ | ⟨h', _⟩
    · exact absurd h' hn
    · exact h'
    · exact absurd h' hc

theorem dumps_blocked {s : CState V} (h : CopyInv s) : ∀ (t : Tree V) {o : Nat} {seen seen' : List Nat} {im : Image},
    Reads s o t → (∀ k ∈ seen, ∃ t', Reads s k t' ∧ sizeOf t < sizeOf t') → Dumps s seen o im seen' → Blocked im
  | .atom a, o, seen, seen', im, r, hm, d => by
    have hl := not_seen r hm
    cases r with
    | atom hn e =>
      cases d with
      | ref h' => exact absurd h' hl
      | atom _ _ _ => exact .atom
      | node _ e' hv _ => rw [e] at e'; cases e'; cases hv
  | .node ts, o, seen, seen', im, r, hm, d => by
    have hl := not_seen r hm
    obtain ⟨ob, e, hv, hc, rs⟩ := reads_value h r
    cases d with
    | ref h' => exact absurd h' hl
    | atom _ _ _ => exact .atom
    | node _ e' _ ds =>
      rw [e] at e'; cases e'
      obtain ⟨cs, hcs⟩ : ∃ cs, ob.children = cs := ⟨_, rfl⟩
      rw [hcs] at rs hc ds
      match ts, rs, ds with
      | [], .nil, _ => exact absurd rfl hc
      | t :: ts, .cons r1 _, .cons d1 _ =>
        refine .node (dumps_blocked h t r1 ?_ d1)
        intro k hk
        rcases List.mem_cons.1 hk with rfl | hk
        · exact ⟨_, r, by simp +arith⟩
        · obtain ⟨t', r', hlt⟩ := hm k hk
          refine ⟨t', r', Nat.lt_trans ?_ hlt⟩
          simp +arith

mutual
theorem dumps_ends {s : CState V} (h : CopyInv s) : ∀ (t : Tree V) {o : Nat} (seen : List Nat), Reads s o t →
    ∃ im seen', Dumps s seen o im seen'
  | .atom a, o, seen, r => by
    by_cases hs : o ∈ seen
    · exact ⟨_, _, .ref hs⟩
    · cases r with
      | atom _ e => exact ⟨_, _, .atom hs e rfl⟩
  | .node ts, o, seen, r => by
    by_cases hs : o ∈ seen
    · exact ⟨_, _, .ref hs⟩
    · obtain ⟨ob, e, hv, _, rs⟩ := reads_value h r
      obtain ⟨ims, seen', d⟩ := dumpsList_ends h ts (o :: seen) rs
      exact ⟨_, _, .node hs e hv d⟩
theorem dumpsList_ends {s : CState V} (h : CopyInv s) : ∀ (ts : List (Tree V)) {os : List Nat} (seen : List Nat),
    ReadsList s os ts → ∃ ims seen', DumpsList s seen os ims seen'
  | [], _, seen, .nil => ⟨_, _, .nil⟩
  | t :: ts, _, seen, .cons r rs => by
    obtain ⟨im, seen', d⟩ := dumps_ends h t seen r
    obtain ⟨ims, seen'', ds⟩ := dumpsList_ends h ts seen' rs
    exact ⟨_, _, .cons d ds⟩
end

theorem loads_error {im : Image} (b : Blocked im) : ∀ {s : CState V} {memo : List (Nat × Nat)}, CopyInv s →
    (∃ s' memo', Loads s memo im (.error .typeError) s' memo') ∧
    ∀ res s' memo', Loads s memo im res s' memo' → res = .error .typeError ∧
      ∀ p ob, s.objs p = some ob → s'.objs p = some ob := by
  induction b with
  | atom =>
    intro s memo h
    refine ⟨⟨_, _, .atom⟩, ?_⟩
    intro res s' memo' d
    cases d with
    | atom => exact ⟨rfl, fun p ob e => newTree_objs h e⟩
  | @node k im ims b ih =>
    intro s memo h
    have hi := newTree_inv h (cs := []) (by simp)
    obtain ⟨⟨s1, m1, d1⟩, ih⟩ := ih (memo := (k, (newTree s []).1) :: memo) hi
    refine ⟨⟨s1, m1, .fails (.head d1)⟩, ?_⟩
    intro res s' memo' d
    cases d with
    | node ds _ =>
      cases ds with
      | cons d _ => exact absurd (ih _ _ _ d).1 (by simp)
    | fails ds =>
      cases ds with
      | head d =>
        obtain ⟨h1, h2⟩ := ih _ _ _ d
        cases h1
        exact ⟨rfl, fun p ob e => h2 p ob (newTree_objs h e)⟩
      | tail d _ => exact absurd (ih _ _ _ d).1 (by simp)

theorem isNoArgs_of {s : CState V} {o : Nat} (e : s.treeOf [] = some o) : IsNoArgs s o := by
  simp [IsNoArgs, newTree, e]

theorem deep_result {s s' : CState V} {o r : Nat} {memo : List (Nat × Nat)} (h : CopyInv s)
    (d : DeepCopy s [] o (.ok r) s' memo) : IsNoArgs s' r := by
  cases d with
  | memo e => cases e
  | node _ _ _ ds _ =>
    have k := newTree_grows h
    obtain ⟨k', _, _⟩ := deepList_grows k.inv
      (MemoLive.cons (memo := []) (fun _ _ e => by cases e) (newTree_live h (by simp))) ds
    exact isNoArgs_of (k'.noArgs _ (newTree_found s []))

theorem loads_result {s s' : CState V} {im : Image} {r : Nat} {memo : List (Nat × Nat)} (h : CopyInv s)
    (d : Loads s [] im (.ok r) s' memo) : IsNoArgs s' r := by
  cases d with
  | ref e => cases e
  | node ds _ =>
    have k := newTree_grows h
    obtain ⟨k', _, _⟩ := loadsList_grows k.inv
      (MemoLive.cons (memo := []) (fun _ _ e => by cases e) (newTree_live h (by simp))) ds
    exact isNoArgs_of (k'.noArgs _ (newTree_found s []))

end Verif.Copy
