import Mathlib.Data.List.Perm.Subperm
import Verif.Spec.Size
import Verif.Lemmas.Graph
import Verif.Lemmas.Subs

/-!
# Counting distinct subexpressions
-/

set_option linter.unusedSectionVars false

namespace Verif
open Spec
variable {V : Type} [DecidableEq V]

theorem distinct_eq (e : Tree V) : distinct e = topologicalSort false [] e := by
  rw [topologicalSort_eq]
  rfl

theorem mem_distinct {e t : Tree V} : t ∈ distinct e ↔ ArgSub e t := by
  rw [distinct_eq, reach_topo]

theorem nodup_distinct (e : Tree V) : (distinct e).Nodup := by
  rw [distinct_eq]
  exact nodup_topologicalSort false [] e

theorem nodes_le_of_cover {e : Tree V} {L : List (Tree V)} (h : ∀ u, ArgSub e u → u ∈ L) :
    nodes e ≤ L.length := by
  have : (distinct e).Subperm L :=
    List.Nodup.subperm (nodup_distinct e) fun u hu => h u (mem_distinct.1 hu)
  exact this.length_le

theorem argSub_refl (e : Tree V) : ArgSub e e := .refl fun h => h

theorem argSub_trans {e t u : Tree V} (h1 : ArgSub e t) (h2 : ArgSub t u) : ArgSub e u :=
  Reach.trans h1 h2

theorem argSub_arg {h a : Tree V} {args : List (Tree V)} (ha : a ∈ args) :
    ArgSub (.node (h :: args)) a := .down (fun h => h) ha (argSub_refl a)

theorem argSub_node {h u : Tree V} {args : List (Tree V)} :
    ArgSub (.node (h :: args)) u ↔ u = .node (h :: args) ∨ ∃ a ∈ args, ArgSub a u := by
  constructor
  · intro hu
    cases hu with
    | refl _ => exact .inl rfl
    | down _ hc hr => exact .inr ⟨_, hc, hr⟩
  · rintro (rfl | ⟨a, ha, hu⟩)
    · exact argSub_refl _
    · exact argSub_trans (argSub_arg ha) hu

theorem argSub_leaf {t u : Tree V} (ht : t.children = []) (hu : ArgSub t u) : u = t := by
  cases hu with
  | refl _ => rfl
  | down _ hc _ =>
    have := kids_subset_children hc
    rw [ht] at this
    cases this

theorem argSub_kid {e t c : Tree V} (ht : ArgSub e t) (hc : c ∈ kids false t) : ArgSub e c :=
  argSub_trans ht (.down (fun h => h) hc (argSub_refl c))

/-- If each subexpression contributes a list of new subexpressions, the result is made of these. -/
theorem cover (e : Tree V) (F : Tree V → Tree V → Prop) (hdet : ∀ t d d', F t d → F t d' → d = d')
    (base : List (Tree V)) (c : Tree V → Nat) (Q : Tree V → Prop)
    (step : ∀ t, ArgSub e t → ∀ d, F t d → ∃ L : List (Tree V), L.length ≤ c t ∧ (∀ u ∈ L, Q u) ∧
      ∀ u, ArgSub d u → u ∈ L ∨ u ∈ base ∨ ∃ a ∈ kids false t, ∃ da, F a da ∧ ArgSub da u)
    {d : Tree V} (hd : F e d) :
    nodes d ≤ base.length + ((distinct e).map c).sum ∧
    ∀ u, ArgSub d u → u ∈ base ∨ Q u := by
  have step' : ∀ t, ∃ L : List (Tree V), L.length ≤ c t ∧ (∀ u ∈ L, Q u) ∧
      (ArgSub e t → ∀ d, F t d → ∀ u, ArgSub d u → u ∈ L ∨ u ∈ base ∨
        ∃ a ∈ kids false t, ∃ da, F a da ∧ ArgSub da u) := by
    intro t
    by_cases ht : ArgSub e t ∧ ∃ d, F t d
    · obtain ⟨h1, d, h2⟩ := ht
      obtain ⟨L, l1, l2, l3⟩ := step t h1 d h2
      refine ⟨L, l1, l2, fun _ d' hd' => ?_⟩
      rw [hdet t d' d hd' h2]
      exact l3
    · exact ⟨[], by simp, by simp, fun h1 d h2 => absurd ⟨h1, d, h2⟩ ht⟩
  obtain ⟨New, hNew⟩ := Classical.axiomOfChoice step'
  have key : ∀ t, ArgSub e t → ∀ d, F t d → ∀ u, ArgSub d u →
      u ∈ base ∨ ∃ s ∈ distinct e, u ∈ New s := by
    intro t
    induction t using Tree.induction with
    | h t ih =>
      intro ht d hd u hu
      rcases (hNew t).2.2 ht d hd u hu with h | h | ⟨a, ha, da, hda, hu'⟩
      · exact .inr ⟨t, mem_distinct.2 ht, h⟩
      · exact .inl h
      · exact ih a (kids_subset_children ha) (argSub_kid ht ha) da hda u hu'
  constructor
  · have hc : ∀ u, ArgSub d u → u ∈ base ++ (distinct e).flatMap New := by
      intro u hu
      rw [List.mem_append, List.mem_flatMap]
      exact key e (argSub_refl e) d hd u hu
    refine Nat.le_trans (nodes_le_of_cover hc) ?_
    rw [List.length_append, List.length_flatMap]
    refine Nat.add_le_add_left ?_ _
    generalize distinct e = l
    induction l with
    | nil => simp
    | cons t l ih =>
      simp only [List.map_cons, List.sum_cons]
      exact Nat.add_le_add (hNew t).1 ih
  · intro u hu
    rcases key e (argSub_refl e) d hd u hu with h | ⟨s, _, h⟩
    · exact .inl h
    · exact .inr ((hNew s).2.1 u h)

omit [DecidableEq V] in
theorem sublist_sum {l l' : List (Tree V)} (w : Tree V → Nat) (h : l.Sublist l') :
    (l.map w).sum ≤ (l'.map w).sum := by
  induction h with
  | slnil => exact Nat.le_refl _
  | cons a _ ih => simp only [List.map_cons, List.sum_cons]; omega
  | cons_cons a _ ih => simp only [List.map_cons, List.sum_cons]; omega

/-- `cover` with a weight for each subexpression. -/
theorem cover_sum (e : Tree V) (F : Tree V → Tree V → Prop) (hdet : ∀ t d d', F t d → F t d' → d = d')
    (w c : Tree V → Nat)
    (step : ∀ t, ArgSub e t → ∀ d, F t d → ∃ L : List (Tree V), (L.map w).sum ≤ c t ∧
      ∀ u, ArgSub d u → u ∈ L ∨ ∃ a ∈ kids false t, ∃ da, F a da ∧ ArgSub da u)
    {d : Tree V} (hd : F e d) : ((distinct d).map w).sum ≤ ((distinct e).map c).sum := by
  have step' : ∀ t, ∃ L : List (Tree V), (L.map w).sum ≤ c t ∧
      (ArgSub e t → ∀ d, F t d → ∀ u, ArgSub d u → u ∈ L ∨
        ∃ a ∈ kids false t, ∃ da, F a da ∧ ArgSub da u) := by
    intro t
    by_cases ht : ArgSub e t ∧ ∃ d, F t d
    · obtain ⟨h1, d, h2⟩ := ht
      obtain ⟨L, l1, l2⟩ := step t h1 d h2
      refine ⟨L, l1, fun _ d' hd' => ?_⟩
      rw [hdet t d' d hd' h2]
      exact l2
    · exact ⟨[], by simp, fun h1 d h2 => absurd ⟨h1, d, h2⟩ ht⟩
  obtain ⟨New, hNew⟩ := Classical.axiomOfChoice step'
  have key : ∀ t, ArgSub e t → ∀ d, F t d → ∀ u, ArgSub d u → ∃ s ∈ distinct e, u ∈ New s := by
    intro t
    induction t using Tree.induction with
    | h t ih =>
      intro ht d hd u hu
      rcases (hNew t).2 ht d hd u hu with h | ⟨a, ha, da, hda, hu'⟩
      · exact ⟨t, mem_distinct.2 ht, h⟩
      · exact ih a (kids_subset_children ha) (argSub_kid ht ha) da hda u hu'
  have hsub : (distinct d).Subperm ((distinct e).flatMap New) :=
    List.Nodup.subperm (nodup_distinct d) fun u hu => by
      rw [List.mem_flatMap]
      exact key e (argSub_refl e) d hd u (mem_distinct.1 hu)
  obtain ⟨l, hp, hl⟩ := hsub
  rw [← (hp.map w).sum_nat]
  refine Nat.le_trans (sublist_sum w hl) ?_
  generalize distinct e = l
  induction l with
  | nil => simp
  | cons t l ih =>
    simp only [List.flatMap_cons, List.map_append, List.sum_append_nat, List.map_cons, List.sum_cons]
    exact Nat.add_le_add (hNew t).1 ih

/-- The subexpressions of a substituted expression. -/
theorem argSub_subst {σ : Tree V → Option (Tree V)} (e : Tree V) {u : Tree V}
    (hu : ArgSub (subst σ e) u) :
    (∃ t, ArgSub e t ∧ σ t = none ∧ u = subst σ t) ∨
      ∃ k v, ArgSub e k ∧ σ k = some v ∧ ArgSub v u := by
  induction e using Tree.induction generalizing u with
  | h e ih =>
    cases hσ : σ e with
    | some v =>
      rw [subst_some hσ] at hu
      exact .inr ⟨e, v, argSub_refl e, hσ, hu⟩
    | none =>
      cases e with
      | atom a =>
        rw [subst_none_atom hσ] at hu
        have := argSub_leaf rfl hu
        subst this
        exact .inl ⟨.atom a, argSub_refl _, hσ, (subst_none_atom hσ).symm⟩
      | node cs =>
        cases cs with
        | nil =>
          rw [subst_none_node hσ] at hu
          have := argSub_leaf rfl hu
          subst this
          exact .inl ⟨.node [], argSub_refl _, hσ, (subst_none_node hσ).symm⟩
        | cons h args =>
          rw [subst_none_node hσ, List.map_cons, argSub_node] at hu
          rcases hu with rfl | ⟨a', ha', hu⟩
          · exact .inl ⟨.node (h :: args), argSub_refl _, hσ, by rw [subst_none_node hσ]; rfl⟩
          · obtain ⟨a, ha, rfl⟩ := List.mem_map.1 ha'
            rcases ih a (List.mem_cons_of_mem _ ha) hu with ⟨t, h1, h2⟩ | ⟨k, v, h1, h2⟩
            · exact .inl ⟨t, argSub_trans (argSub_arg ha) h1, h2⟩
            · exact .inr ⟨k, v, argSub_trans (argSub_arg ha) h1, h2⟩

/-- Substitution does not change the number of arguments of what it does not replace. -/
theorem kids_subst {σ : Tree V → Option (Tree V)} {t : Tree V} (h : σ t = none) :
    (kids false (subst σ t)).length = (kids false t).length := by
  cases t with
  | atom a => rw [subst_none_atom h]
  | node cs =>
    rw [subst_none_node h]
    cases cs <;> simp [kids]

end Verif
