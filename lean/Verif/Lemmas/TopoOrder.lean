import Verif.Lemmas.Topo

namespace Verif
open Spec
variable {V : Type}

/-! ### Order of the kids in a postorder -/

/-- every occurrence of an expression is preceded by its non-excluded kids -/
def KidsFirst (heads : Bool) (excl : Tree V → Bool) (l : List (Tree V)) : Prop :=
  ∀ pre t post, l = pre ++ t :: post → ∀ c ∈ kids heads t, excl c = false → c ∈ pre

theorem KidsFirst.append {heads : Bool} {excl : Tree V → Bool} {l₁ l₂ : List (Tree V)}
    (h₁ : KidsFirst heads excl l₁) (h₂ : KidsFirst heads excl l₂) :
    KidsFirst heads excl (l₁ ++ l₂) := by
  intro pre t post h c hc hx
  rcases List.append_eq_append_iff.1 h with ⟨a, ha, hb⟩ | ⟨a, ha, hb⟩
  · have := h₂ a t post hb c hc hx
    rw [ha]; exact List.mem_append_right _ this
  · cases a with
    | nil =>
      simp only [List.nil_append] at hb
      have := h₂ [] t post hb.symm c hc hx
      cases this
    | cons x a =>
      simp only [List.cons_append, List.cons.injEq] at hb
      obtain ⟨rfl, rfl⟩ := hb
      exact h₁ pre t a ha c hc hx

theorem kidsFirst_nil {heads : Bool} {excl : Tree V → Bool} : KidsFirst heads excl [] := by
  intro pre t post h
  cases pre <;> cases h

theorem kidsFirst_flatMap {heads : Bool} {excl : Tree V → Bool} (cs : List (Tree V))
    (h : ∀ c ∈ cs, KidsFirst heads excl (postorder heads excl c)) :
    KidsFirst heads excl (cs.flatMap (postorder heads excl)) := by
  induction cs with
  | nil => exact kidsFirst_nil
  | cons c cs ih =>
    rw [List.flatMap_cons]
    exact (h c (by simp)).append (ih (fun d hd => h d (by simp [hd])))

theorem self_mem_postorder {heads : Bool} {excl : Tree V → Bool} {c : Tree V}
    (h : excl c = false) : c ∈ postorder heads excl c := by
  rw [postorder_eq]; simp [h]

theorem kidsFirst_postorder (heads : Bool) (excl : Tree V → Bool) (e : Tree V) :
    KidsFirst heads excl (postorder heads excl e) := by
  induction e using Tree.induction with
  | h e ih =>
    rw [postorder_eq]
    split
    · exact kidsFirst_nil
    · intro pre t post h c hc hx
      have hf := kidsFirst_flatMap (kids heads e) (fun c hc => ih c (kids_subset_children hc))
      rcases List.append_eq_append_iff.1 h with ⟨a, ha, hb⟩ | ⟨a, ha, hb⟩
      · cases a with
        | nil =>
          simp at hb
          obtain ⟨rfl, rfl⟩ := hb
          rw [ha, List.append_nil]
          exact List.mem_flatMap.2 ⟨c, hc, self_mem_postorder hx⟩
        | cons x a => simp at hb
      · cases a with
        | nil =>
          simp at hb
          obtain ⟨rfl, rfl⟩ := hb
          rw [List.append_nil] at ha
          rw [← ha]
          exact List.mem_flatMap.2 ⟨c, hc, self_mem_postorder hx⟩
        | cons x a =>
          simp only [List.cons_append, List.cons.injEq] at hb
          obtain ⟨rfl, rfl⟩ := hb
          exact hf pre t a ha c hc hx

section
variable {α : Type} [DecidableEq α]

theorem exists_first_split {l : List α} {t : α} (h : t ∈ l) :
    ∃ pre post, l = pre ++ t :: post ∧ t ∉ pre := by
  induction l with
  | nil => cases h
  | cons a l ih =>
    by_cases hat : a = t
    · subst hat; exact ⟨[], l, rfl, by simp⟩
    · have : t ∈ l := by
        rcases List.mem_cons.1 h with h | h
        · exact absurd h.symm hat
        · exact h
      obtain ⟨pre, post, h1, h2⟩ := ih this
      exact ⟨a :: pre, post, by rw [h1]; rfl, by
        intro hm
        rcases List.mem_cons.1 hm with h | h
        · exact hat h.symm
        · exact h2 h⟩

theorem before_keepFirst {l : List α} {c t : α} (ht : t ∈ l)
    (h : ∀ pre post, l = pre ++ t :: post → c ∈ pre) : Before (keepFirst l) c t := by
  obtain ⟨pre, post, hl, hnot⟩ := exists_first_split ht
  have hc := h pre post hl
  have hk : keepFirst l = addAll (addAll [] pre ++ [t]) post := by
    rw [keepFirst_eq, hl, addAll_append, addAll_cons, if_neg]
    rw [mem_addAll]; simp [hnot]
  obtain ⟨r, hr⟩ := prefix_addAll post (addAll [] pre ++ [t])
  rw [hr] at hk
  have hc' : c ∈ addAll [] pre := by rw [mem_addAll]; exact Or.inr hc
  obtain ⟨i, hi, hic⟩ := List.mem_iff_getElem.1 hc'
  refine ⟨i, (addAll [] pre).length, hi, ?_, ?_⟩
  · rw [hk, List.append_assoc, List.getElem?_append_left hi, List.getElem?_eq_getElem hi, hic]
  · rw [hk, List.append_assoc, List.getElem?_append_right (Nat.le_refl _)]
    simp

end

variable [DecidableEq V]

theorem mem_topologicalSort (heads : Bool) (excl : List (Tree V)) (e t : Tree V) :
    t ∈ topologicalSort heads excl e ↔ Reach heads (· ∈ excl) e t := by
  rw [topologicalSort_eq, keepFirst_eq, mem_addAll, mem_postorder_iff]
  simp

theorem nodup_topologicalSort (heads : Bool) (excl : List (Tree V)) (e : Tree V) :
    (topologicalSort heads excl e).Nodup := by
  rw [topologicalSort_eq, keepFirst_eq]
  exact nodup_addAll _ _ List.nodup_nil

theorem before_topologicalSort (heads : Bool) (excl : List (Tree V)) (e t c : Tree V)
    (ht : t ∈ topologicalSort heads excl e) (hc : c ∈ kids heads t) (hx : c ∉ excl) :
    Before (topologicalSort heads excl e) c t := by
  rw [topologicalSort_eq] at ht ⊢
  rw [keepFirst_eq, mem_addAll] at ht
  apply before_keepFirst
  · simpa using ht
  · intro pre post hl
    exact kidsFirst_postorder heads _ e pre t post hl c hc (by simpa using hx)

theorem topologicalSort_not_excl {heads : Bool} {excl : List (Tree V)} {e : Tree V}
    (hx : e ∉ excl) : ∃ l, topologicalSort heads excl e = l ++ [e] ∧ e ∉ l := by
  rw [topologicalSort_eq, postorder_eq]
  simp only [hx, decide_false, Bool.false_eq_true, if_false]
  rw [keepFirst_eq, addAll_append, addAll_cons]
  have hn : e ∉ addAll [] ((kids heads e).flatMap
      (postorder heads (fun x => decide (x ∈ excl)))) := by
    rw [mem_addAll]
    rintro (h | h)
    · cases h
    · have := mem_flatMap_postorder_size h; omega
  rw [if_neg hn]
  exact ⟨_, rfl, hn⟩

theorem topologicalSort_excl {heads : Bool} {excl : List (Tree V)} {e : Tree V}
    (hx : e ∈ excl) : topologicalSort heads excl e = [] := by
  rw [topologicalSort_eq, postorder_eq]
  simp [hx, keepFirst]

/-- Removing `t` and what follows, the kids of `t` are already there. -/
theorem kids_mem_prefix {heads : Bool} {excl : List (Tree V)} {e t c : Tree V}
    {pre post : List (Tree V)} (h : topologicalSort heads excl e = pre ++ t :: post)
    (hc : c ∈ kids heads t) (hx : c ∉ excl) : c ∈ pre := by
  have hnd := nodup_topologicalSort heads excl e
  obtain ⟨i, j, hij, hi, hj⟩ :=
    before_topologicalSort heads excl e t c (by rw [h]; simp) hc hx
  have hpos : (topologicalSort heads excl e)[pre.length]? = some t := by
    rw [h, List.getElem?_append_right (Nat.le_refl _)]; simp
  have hj' : j = pre.length := by
    obtain ⟨hjl, _⟩ := List.getElem?_eq_some_iff.1 hj
    exact (List.getElem?_inj hjl hnd).1 (hj.trans hpos.symm)
  rw [h, List.getElem?_append_left (by omega)] at hi
  exact List.mem_of_getElem? hi

/-! ### Counting the iterations -/

/-- Number of iterations of the loop until the stack is empty. -/
def topoSteps (heads : Bool) (s : TopoState V) : Nat :=
  match _h : topoStep heads s with
  | none => 0
  | some s' => topoSteps heads s' + 1
termination_by topoMeasure s
decreasing_by exact topoStep_measure (by assumption)

/-- iterations already accounted for in a state -/
def topoPotential (heads : Bool) (s : TopoState V) : Nat :=
  (s.out.map (fun t => (kids heads t).length + 1)).sum +
    (s.stack.map (fun f => (kids heads f.1).length - f.2.length)).sum

def FramesOk (heads : Bool) (s : TopoState V) : Prop :=
  ∀ f ∈ s.stack, f.2.length ≤ (kids heads f.1).length

theorem topoStep_potential {heads : Bool} {s s' : TopoState V}
    (h : topoStep heads s = some s') (hok : FramesOk heads s) :
    FramesOk heads s' ∧ topoPotential heads s' = topoPotential heads s + 1 := by
  unfold topoStep at h
  split at h
  · cases h
  · rename_i top children rest hstack
    have hr : ∀ f ∈ rest, f.2.length ≤ (kids heads f.1).length := fun f hf =>
      hok f (by rw [hstack]; exact List.mem_cons_of_mem _ hf)
    have ht : children.length ≤ (kids heads top).length :=
      hok (top, children) (by rw [hstack]; simp)
    split at h
    · rename_i child children' hpop
      have hc := pyPop_some hpop
      have hl : children.length = children'.length + 1 := by rw [hc]; simp
      split at h
      · cases h
        refine ⟨?_, ?_⟩
        · intro f hf
          rcases List.mem_cons.1 hf with rfl | hf
          · simp only; omega
          · exact hr f hf
        · simp [topoPotential, hstack]; omega
      · cases h
        refine ⟨?_, ?_⟩
        · intro f hf
          rcases List.mem_cons.1 hf with rfl | hf
          · simp [getChildren_eq]
          · rcases List.mem_cons.1 hf with rfl | hf
            · simp only; omega
            · exact hr f hf
        · simp [topoPotential, hstack, getChildren_eq]; omega
    · rename_i hpop
      have hnil : children = [] := by
        unfold pyPop at hpop
        cases hg : children.getLast? with
        | none => simpa using hg
        | some a => simp [hg] at hpop
      cases h
      refine ⟨hr, ?_⟩
      simp [topoPotential, hstack, hnil]; omega

theorem topoSteps_eq (heads : Bool) (s : TopoState V) (hok : FramesOk heads s) :
    topoPotential heads s + topoSteps heads s =
      ((topoRun heads s).map (fun t => (kids heads t).length + 1)).sum := by
  fun_induction topoSteps heads s with
  | case1 s h =>
    rw [topoRun_done h]
    have : s.stack = [] := by
      unfold topoStep at h
      split at h
      · assumption
      · split at h
        · split at h <;> cases h
        · cases h
    simp [topoPotential, this]
  | case2 s s' h ih =>
    obtain ⟨h1, h2⟩ := topoStep_potential h hok
    rw [topoRun_step h, ← ih h1, h2]; omega

end Verif
