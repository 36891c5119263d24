import Verif.Spec.Tree

namespace Verif
open Spec
namespace Dict
variable {K W : Type} [DecidableEq K]

theorem lookup_assign (l : List (K × W)) (k k' : K) (w : W) :
    lookup k' (assign k w l) = if k = k' then some w else lookup k' l := by
  induction l with
  | nil => simp [assign, lookup]
  | cons p r ih =>
    obtain ⟨a, b⟩ := p
    simp only [assign]
    by_cases hak : a = k
    · subst hak
      simp only [if_true, lookup]
      split <;> rfl
    · simp only [hak, if_false, lookup, ih]
      by_cases hk' : a = k'
      · have : k ≠ k' := fun h => hak (hk'.trans h.symm)
        simp [hk', this]
      · simp [hk']

@[simp] theorem get?_empty (k : K) : (empty : Dict K W).get? k = none := rfl

theorem get?_set (d : Dict K W) (k k' : K) (w : W) :
    (d.set k w).get? k' = if k = k' then some w else d.get? k' := by
  simp [get?, set, lookup_assign]

theorem get?_set_self (d : Dict K W) (k : K) (w : W) : (d.set k w).get? k = some w := by
  simp [get?_set]

theorem get?_set_ne (d : Dict K W) {k k' : K} (w : W) (h : k ≠ k') :
    (d.set k w).get? k' = d.get? k' := by
  simp [get?_set, h]

theorem get?_update (d : Dict K W) (ps : List (K × W)) (k : K) :
    (d.update ps).get? k = (lastAssoc k ps).or (d.get? k) := by
  unfold update
  induction ps generalizing d with
  | nil => simp [lastAssoc]
  | cons p ps ih =>
    obtain ⟨a, b⟩ := p
    rw [List.foldl_cons, ih]
    simp only [lastAssoc]
    cases h : lastAssoc k ps with
    | some w => simp
    | none =>
      simp only [Option.none_or, get?_set]
      split <;> simp

theorem get?_ofPairs (ps : List (K × W)) (k : K) :
    (ofPairs ps).get? k = lastAssoc k ps := by
  simp [ofPairs, get?_update]

theorem getItem_eq_ok {d : Dict K W} {k : K} {w : W} (h : d.get? k = some w) :
    d.getItem k = .ok w := by
  simp [getItem, h]

end Dict

section
variable {K W : Type} [DecidableEq K]

theorem lastAssoc_mem {ps : List (K × W)} {k : K} {w : W} (h : lastAssoc k ps = some w) :
    (k, w) ∈ ps := by
  induction ps with
  | nil => cases h
  | cons p ps ih =>
    obtain ⟨a, b⟩ := p
    simp only [lastAssoc] at h
    cases h' : lastAssoc k ps with
    | some w' =>
      rw [h'] at h; cases h
      exact List.mem_cons_of_mem _ (ih h')
    | none =>
      rw [h'] at h
      simp only at h
      split at h
      · rename_i hak; cases h; subst hak; simp
      · cases h

theorem lastAssoc_eq_none_iff {ps : List (K × W)} {k : K} :
    lastAssoc k ps = none ↔ k ∉ ps.map Prod.fst := by
  induction ps with
  | nil => simp [lastAssoc]
  | cons p ps ih =>
    obtain ⟨a, b⟩ := p
    simp only [lastAssoc]
    cases h' : lastAssoc k ps with
    | some w' =>
      have := lastAssoc_mem h'
      simp only [reduceCtorEq, false_iff]
      intro hn
      exact hn (List.mem_map.2 ⟨(k, w'), List.mem_cons_of_mem _ this, rfl⟩)
    | none =>
      rw [h'] at ih
      simp only [List.map_cons, List.mem_cons, not_or]
      simp only [true_iff] at ih
      by_cases hak : a = k
      · simp [hak]
      · simp only [hak, if_false, true_iff]
        exact ⟨fun h => hak h.symm, ih⟩

/-- lookups in `zip l (range' s l.length)` for a duplicate-free list give the position -/
theorem lastAssoc_zip_range' {l : List K} (hnd : l.Nodup) (s i : Nat) (k : K) :
    lastAssoc k (l.zip (List.range' s l.length)) = some (s + i) ↔ l[i]? = some k := by
  induction l generalizing s i with
  | nil => simp [lastAssoc]
  | cons a l ih =>
    rw [List.nodup_cons] at hnd
    simp only [List.length_cons, List.range'_succ, List.zip_cons_cons, lastAssoc]
    cases h : lastAssoc k (l.zip (List.range' (s + 1) l.length)) with
    | some w =>
      have hmem := lastAssoc_mem h
      have hkl : k ∈ l := (List.of_mem_zip hmem).1
      have hak : a ≠ k := by intro h; subst h; exact hnd.1 hkl
      cases i with
      | zero =>
        simp only [Nat.add_zero, Option.some.injEq, List.getElem?_cons_zero]
        have hw := (List.of_mem_zip hmem).2
        have := List.mem_range'_1.1 hw
        constructor
        · intro h; omega
        · intro h; exact absurd h hak
      | succ i =>
        have := ih hnd.2 (s + 1) i
        rw [h] at this
        simp only [List.getElem?_cons_succ]
        rw [← this]
        simp only [Option.some.injEq]
        omega
    | none =>
      have hkl : k ∉ l := by
        intro hk
        have := lastAssoc_eq_none_iff.1 h
        apply this
        rw [List.map_fst_zip (by simp)]
        exact hk
      cases i with
      | zero =>
        simp only [Nat.add_zero, List.getElem?_cons_zero, Option.some.injEq]
        by_cases hak : a = k <;> simp [hak]
      | succ i =>
        simp only [List.getElem?_cons_succ]
        constructor
        · intro h'
          split at h'
          · simp only [Option.some.injEq] at h'; omega
          · cases h'
        · intro h'; exact absurd (List.mem_of_getElem? h') hkl

theorem lastAssoc_zip_range {l : List K} (hnd : l.Nodup) (i : Nat) (k : K) :
    lastAssoc k (l.zip (List.range l.length)) = some i ↔ l[i]? = some k := by
  have := lastAssoc_zip_range' hnd 0 i k
  rw [List.range_eq_range']
  simpa using this

end
end Verif
