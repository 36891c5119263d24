import Verif.Spec.Tree

namespace Verif
open Spec
variable {V : Type}

/-! ### keepFirst -/
section KeepFirst
variable {α : Type} [DecidableEq α]

/-- add the elements of `l` that are not yet in `acc` -/
def addAll (acc l : List α) : List α :=
  l.foldl (fun acc a => if a ∈ acc then acc else acc ++ [a]) acc

theorem keepFirst_eq (l : List α) : keepFirst l = addAll [] l := rfl

@[simp] theorem addAll_nil (acc : List α) : addAll acc [] = acc := rfl
theorem addAll_cons (acc : List α) (a : α) (l : List α) :
    addAll acc (a :: l) = addAll (if a ∈ acc then acc else acc ++ [a]) l := rfl
theorem addAll_append (acc l₁ l₂ : List α) :
    addAll acc (l₁ ++ l₂) = addAll (addAll acc l₁) l₂ := by
  simp [addAll, List.foldl_append]

theorem mem_addAll (l acc : List α) (x : α) : x ∈ addAll acc l ↔ x ∈ acc ∨ x ∈ l := by
  induction l generalizing acc with
  | nil => simp
  | cons a l ih =>
    rw [addAll_cons, ih]
    split
    · rename_i h
      constructor
      · rintro (h1 | h1) <;> simp [h1]
      · rintro (h1 | h1)
        · exact Or.inl h1
        · rcases List.mem_cons.1 h1 with rfl | h2
          · exact Or.inl h
          · exact Or.inr h2
    · simp [or_assoc]

theorem nodup_addAll (l acc : List α) (h : acc.Nodup) : (addAll acc l).Nodup := by
  induction l generalizing acc with
  | nil => simpa
  | cons a l ih =>
    rw [addAll_cons]
    split
    · exact ih _ h
    · rename_i ha
      apply ih
      rw [List.nodup_append]
      refine ⟨h, by simp, ?_⟩
      intro x hx y hy
      simp at hy
      subst hy
      intro he; subst he; exact ha hx

theorem addAll_of_subset (l acc : List α) (h : ∀ x ∈ l, x ∈ acc) : addAll acc l = acc := by
  induction l generalizing acc with
  | nil => rfl
  | cons a l ih =>
    rw [addAll_cons, if_pos (h a (by simp))]
    exact ih _ (fun x hx => h x (by simp [hx]))

theorem prefix_addAll (l acc : List α) : ∃ r, addAll acc l = acc ++ r := by
  induction l generalizing acc with
  | nil => exact ⟨[], by simp⟩
  | cons a l ih =>
    rw [addAll_cons]
    split
    · exact ih _
    · obtain ⟨r, hr⟩ := ih (acc ++ [a])
      exact ⟨a :: r, by rw [hr]; simp⟩

end KeepFirst

/-! ### kids, sizes -/

theorem getChildren_eq (heads : Bool) (t : Tree V) :
    getChildren heads t = (kids heads t).reverse := by
  unfold getChildren kids
  cases t with
  | atom a => simp [Tree.children]
  | node cs => cases cs <;> cases heads <;> simp [Tree.children]

theorem size_pos (t : Tree V) : 0 < t.size := by
  cases t <;> simp [Tree.size]; omega

theorem size_le_sizeList {c : Tree V} {cs : List (Tree V)} (h : c ∈ cs) :
    c.size ≤ Tree.sizeList cs := by
  induction cs with
  | nil => cases h
  | cons d ds ih =>
    simp only [Tree.sizeList]
    rcases List.mem_cons.1 h with rfl | h
    · omega
    · have := ih h; omega

theorem size_child {c t : Tree V} (h : c ∈ t.children) : c.size < t.size := by
  have h1 := size_le_sizeList h
  have h2 := Tree.sizeList_children t
  omega

theorem kids_subset_children {heads : Bool} {c t : Tree V} (h : c ∈ kids heads t) :
    c ∈ t.children := by
  unfold kids at h
  split at h
  · cases h
  · cases h
  · rename_i hd args
    simp only [Tree.children]
    split at h
    · exact h
    · exact List.mem_cons_of_mem _ h

theorem size_kids {heads : Bool} {c t : Tree V} (h : c ∈ kids heads t) : c.size < t.size :=
  size_child (kids_subset_children h)

/-- Induction on expressions: to prove `P t` assume `P` for all children. -/
theorem Tree.induction {P : Tree V → Prop}
    (h : ∀ t : Tree V, (∀ c ∈ t.children, P c) → P t) (t : Tree V) : P t := by
  have : ∀ n, ∀ t : Tree V, t.size < n → P t := by
    intro n
    induction n with
    | zero => intro t ht; omega
    | succ n ih =>
      intro t ht
      exact h t (fun c hc => ih c (by have := size_child hc; omega))
  exact this (t.size + 1) t (by omega)

/-! ### postorder -/

theorem postorderList_eq (heads : Bool) (excl : Tree V → Bool) (cs : List (Tree V)) :
    postorderList heads excl cs = cs.flatMap (postorder heads excl) := by
  induction cs with
  | nil => rfl
  | cons c cs ih => simp [postorderList, ih]

theorem postorder_eq (heads : Bool) (excl : Tree V → Bool) (t : Tree V) :
    postorder heads excl t =
      if excl t then [] else (kids heads t).flatMap (postorder heads excl) ++ [t] := by
  cases t with
  | atom a => simp [postorder, kids]
  | node cs =>
    cases cs with
    | nil => simp [postorder, kids]
    | cons h args =>
      simp only [postorder, kids, postorderList_eq]
      cases heads <;> simp

theorem mem_postorder_iff (heads : Bool) (excl : Tree V → Bool) (e t : Tree V) :
    t ∈ postorder heads excl e ↔ Reach heads (fun u => excl u = true) e t := by
  constructor
  · induction e using Tree.induction with
    | h e ih =>
      intro ht
      rw [postorder_eq] at ht
      split at ht
      · cases ht
      · rename_i hx
        rcases List.mem_append.1 ht with h | h
        · obtain ⟨c, hc, hct⟩ := List.mem_flatMap.1 h
          exact Reach.down hx hc (ih c (kids_subset_children hc) hct)
        · rw [List.mem_singleton] at h
          subst h
          exact Reach.refl hx
  · intro h
    induction h with
    | refl hx => rw [postorder_eq, if_neg hx]; simp
    | down hx hc _ ih =>
      rw [postorder_eq, if_neg hx]
      exact List.mem_append_left _ (List.mem_flatMap.2 ⟨_, hc, ih⟩)

theorem _root_.Verif.Spec.Reach.size_le {heads : Bool} {excl : Tree V → Prop} {e t : Tree V}
    (h : Reach heads excl e t) : t.size ≤ e.size := by
  induction h with
  | refl => exact Nat.le_refl _
  | down _ hc _ ih => have := size_kids hc; omega

theorem _root_.Verif.Spec.Reach.not_excl {heads : Bool} {excl : Tree V → Prop} {e t : Tree V}
    (h : Reach heads excl e t) : ¬ excl t := by
  induction h with
  | refl h => exact h
  | down _ _ _ ih => exact ih

theorem _root_.Verif.Spec.Reach.trans {heads : Bool} {excl : Tree V → Prop} {e t u : Tree V}
    (h : Reach heads excl e t) (h' : Reach heads excl t u) : Reach heads excl e u := by
  induction h with
  | refl _ => exact h'
  | down hx hc _ ih => exact Reach.down hx hc (ih h')

theorem _root_.Verif.Spec.Reach.lt_of_ne {heads : Bool} {excl : Tree V → Prop} {e t : Tree V}
    (h : Reach heads excl e t) (hne : t ≠ e) : t.size < e.size := by
  cases h with
  | refl => exact absurd rfl hne
  | down _ hc h' => have := size_kids hc; have := h'.size_le; omega

theorem mem_flatMap_postorder_size {heads : Bool} {excl : Tree V → Bool} {t u : Tree V}
    (h : u ∈ (kids heads t).flatMap (postorder heads excl)) : u.size < t.size := by
  obtain ⟨c, hc, hcu⟩ := List.mem_flatMap.1 h
  have h1 := size_kids hc
  have h2 := ((mem_postorder_iff _ _ _ _).1 hcu).size_le
  omega

/-! ### The loop computes the postorder without repetitions -/

variable [DecidableEq V]

theorem pyPop_reverse_cons {α : Type} (c : α) (cs : List α) :
    pyPop ((c :: cs).reverse) = some (c, cs.reverse) := by
  simp [pyPop]

theorem pyPop_nil {α : Type} : pyPop ([] : List α) = none := rfl

theorem topoRun_step {heads : Bool} {s s' : TopoState V} (h : topoStep heads s = some s') :
    topoRun heads s = topoRun heads s' := by
  rw [topoRun]
  split
  · rename_i h'; rw [h] at h'; cases h'
  · rename_i s'' h'; rw [h] at h'; cases h'; rfl

theorem topoRun_done {heads : Bool} {s : TopoState V} (h : topoStep heads s = none) :
    topoRun heads s = s.out := by
  rw [topoRun]
  split
  · rfl
  · rename_i s'' h'; rw [h] at h'; cases h'

/-- Invariant between `seen` and `out`, for the expressions smaller than `n` (those that
cannot be in progress). -/
structure TopoInv (heads : Bool) (excl : List (Tree V)) (n : Nat) (seen out : List (Tree V)) :
    Prop where
  seen_iff : ∀ t : Tree V, t.size < n → (t ∈ seen ↔ t ∈ excl ∨ t ∈ out)
  closed : ∀ t ∈ out, ∀ u ∈ postorder heads (fun x => decide (x ∈ excl)) t, u ∈ out

theorem topo_frame (heads : Bool) (excl : List (Tree V)) :
    ∀ n : Nat, ∀ (top : Tree V) (ks : List (Tree V)),
    (∀ k ∈ ks, k.size < top.size) → top.size ≤ n →
    ∀ (seen out : List (Tree V)) (rest : List (Tree V × List (Tree V))),
    TopoInv heads excl top.size seen out →
    ∃ seen' : List (Tree V),
      topoRun heads ⟨seen, (top, ks.reverse) :: rest, out⟩ =
        topoRun heads ⟨seen', rest,
          addAll out (ks.flatMap (postorder heads (fun x => decide (x ∈ excl)))) ++ [top]⟩
      ∧ TopoInv heads excl top.size seen'
          (addAll out (ks.flatMap (postorder heads (fun x => decide (x ∈ excl)))))
      ∧ (∀ t, t ∈ seen' ↔ t ∈ seen ∨
          t ∈ ks.flatMap (postorder heads (fun x => decide (x ∈ excl)))) := by
  intro n
  induction n with
  | zero => intro top _ _ h; have := size_pos top; omega
  | succ n ihn =>
    intro top ks
    induction ks with
    | nil =>
      intro _ _ seen out rest inv
      refine ⟨seen, ?_, by simpa using inv, by simp⟩
      apply topoRun_step
      simp [topoStep, pyPop]
    | cons c cs ihc =>
      intro hk hn seen out rest inv
      have hcs : c.size < top.size := hk c (by simp)
      have hk' : ∀ k ∈ cs, k.size < top.size := fun k h => hk k (by simp [h])
      by_cases hseen : c ∈ seen
      · -- already seen: nothing changes
        obtain ⟨seen', h1, h2, h3⟩ := ihc hk' hn seen out rest inv
        have hsub : ∀ u ∈ postorder heads (fun x => decide (x ∈ excl)) c, u ∈ out := by
          intro u hu
          rcases (inv.seen_iff c hcs).1 hseen with hx | ho
          · rw [postorder_eq] at hu
            simp [hx] at hu
          · exact inv.closed c ho u hu
        have hadd : addAll out ((c :: cs).flatMap (postorder heads (fun x => decide (x ∈ excl))))
            = addAll out (cs.flatMap (postorder heads (fun x => decide (x ∈ excl)))) := by
          rw [List.flatMap_cons, addAll_append, addAll_of_subset _ _ hsub]
        refine ⟨seen', ?_, ?_, ?_⟩
        · rw [hadd, ← h1]
          apply topoRun_step
          simp only [topoStep, pyPop_reverse_cons]
          rw [if_pos hseen]
        · rw [hadd]; exact h2
        · intro t
          rw [h3 t, List.flatMap_cons, List.mem_append]
          constructor
          · rintro (h | h)
            · exact Or.inl h
            · exact Or.inr (Or.inr h)
          · rintro (h | h | h)
            · exact Or.inl h
            · left
              have hto := hsub t h
              have hr := (mem_postorder_iff _ _ _ _).1 h
              have : t.size < top.size := by have := hr.size_le; omega
              exact (inv.seen_iff t this).2 (Or.inr hto)
            · exact Or.inr h
      · -- new child: process its frame first
        have hnx : c ∉ excl := fun hx => hseen ((inv.seen_iff c hcs).2 (Or.inl hx))
        have hno : c ∉ out := fun ho => hseen ((inv.seen_iff c hcs).2 (Or.inr ho))
        have inv1 : TopoInv heads excl c.size (c :: seen) out := by
          refine ⟨?_, inv.closed⟩
          intro t ht
          have hne : t ≠ c := by intro h; subst h; omega
          rw [List.mem_cons]
          simp only [hne, false_or]
          exact inv.seen_iff t (by omega)
        obtain ⟨seen1, g1, g2, g3⟩ :=
          ihn c (kids heads c) (fun k hk => size_kids hk) (by omega) (c :: seen) out
            ((top, cs.reverse) :: rest) inv1
        have hpost : postorder heads (fun x => decide (x ∈ excl)) c =
            (kids heads c).flatMap (postorder heads (fun x => decide (x ∈ excl))) ++ [c] := by
          rw [postorder_eq]; simp [hnx]
        have hcn : c ∉ addAll out
            ((kids heads c).flatMap (postorder heads (fun x => decide (x ∈ excl)))) := by
          rw [mem_addAll]
          rintro (h | h)
          · exact hno h
          · have := mem_flatMap_postorder_size h; omega
        have hadd1 : addAll out (postorder heads (fun x => decide (x ∈ excl)) c) =
            addAll out ((kids heads c).flatMap
              (postorder heads (fun x => decide (x ∈ excl)))) ++ [c] := by
          rw [hpost, addAll_append, addAll_cons, if_neg hcn]; rfl
        have inv2 : TopoInv heads excl top.size seen1
            (addAll out (postorder heads (fun x => decide (x ∈ excl)) c)) := by
          constructor
          · intro t ht
            rw [g3 t, mem_addAll, hpost, List.mem_cons, List.mem_append, List.mem_singleton]
            have := inv.seen_iff t ht
            rw [this]
            constructor
            · rintro ((h | h | h) | h) <;> simp [h]
            · rintro (h | h | h | h) <;> simp [h]
          · intro t ht u hu
            rw [mem_addAll] at ht ⊢
            rcases ht with h | h
            · exact Or.inl (inv.closed t h u hu)
            · right
              rw [mem_postorder_iff] at h hu ⊢
              exact h.trans hu
        obtain ⟨seen2, f1, f2, f3⟩ := ihc hk' hn seen1 _ rest inv2
        have hadd : addAll out ((c :: cs).flatMap (postorder heads (fun x => decide (x ∈ excl))))
            = addAll (addAll out (postorder heads (fun x => decide (x ∈ excl)) c))
              (cs.flatMap (postorder heads (fun x => decide (x ∈ excl)))) := by
          rw [List.flatMap_cons, addAll_append]
        refine ⟨seen2, ?_, ?_, ?_⟩
        · rw [hadd, ← f1, hadd1, ← g1]
          apply topoRun_step
          simp only [topoStep, pyPop_reverse_cons]
          rw [if_neg hseen, getChildren_eq]
        · rw [hadd]; exact f2
        · intro t
          rw [f3 t, g3 t, List.flatMap_cons, hpost]
          simp only [List.mem_cons, List.mem_append, List.not_mem_nil, or_false]
          constructor
          · rintro (((h | h) | h) | h) <;> simp [h]
          · rintro (h | (h | h) | h)
            · exact Or.inl (Or.inl (Or.inr h))
            · exact Or.inl (Or.inr h)
            · exact Or.inl (Or.inl (Or.inl h))
            · exact Or.inr h

theorem topologicalSort_eq (heads : Bool) (excl : List (Tree V)) (e : Tree V) :
    topologicalSort heads excl e =
      keepFirst (postorder heads (fun x => decide (x ∈ excl)) e) := by
  unfold topologicalSort topoInit
  by_cases hx : e ∈ excl
  · rw [postorder_eq]
    simp only [hx, if_true, decide_true]
    rw [topoRun_done (by simp [topoStep])]
    rfl
  · rw [if_neg hx, getChildren_eq]
    have inv : TopoInv heads excl e.size excl [] :=
      ⟨by intro t _; simp, by intro t h; cases h⟩
    obtain ⟨seen', h1, _, _⟩ := topo_frame heads excl e.size e (kids heads e)
      (fun k hk => size_kids hk) (Nat.le_refl _) excl [] [] inv
    rw [h1, topoRun_done (by simp [topoStep]), postorder_eq]
    simp only [hx, decide_false, Bool.false_eq_true, if_false]
    rw [keepFirst_eq, addAll_append, addAll_cons, if_neg]
    · rfl
    · rw [mem_addAll]
      rintro (h | h)
      · cases h
      · have := mem_flatMap_postorder_size h; omega

end Verif
