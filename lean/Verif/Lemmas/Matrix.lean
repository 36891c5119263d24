import Verif.Spec.Matrix
import Verif.Lemmas.F64
import Verif.Props.DiffRules

/-!
# Sparse storage of matrices
-/

set_option linter.unusedSectionVars false

namespace Verif
open Spec

/-- `k in d` and `d[k]` in terms of the items. -/
theorem Dict.mem_items_iff {K W : Type} [DecidableEq K] (d : Dict K W) (h : d.keys.Nodup) (k : K)
    (w : W) : (k, w) ∈ d.items ↔ d.get? k = some w := by
  obtain ⟨l⟩ := d
  simp only [Dict.keys, Dict.get?] at *
  induction l with
  | nil => simp [Dict.lookup]
  | cons p l ih =>
    obtain ⟨k', w'⟩ := p
    simp only [List.map_cons, List.nodup_cons] at h
    simp only [List.mem_cons, Prod.mk.injEq, Dict.lookup, ih h.2]
    by_cases hk : k' = k
    · subst hk
      simp only [true_and, if_true, Option.some.injEq]
      constructor
      · rintro (h1 | h1)
        · exact h1.symm
        · exfalso
          have := (ih h.2).2 h1
          exact h.1 (List.mem_map.2 ⟨_, this, rfl⟩)
      · intro h1; exact Or.inl h1.symm
    · simp only [hk, if_false]
      constructor
      · rintro (⟨h1, _⟩ | h1)
        · exact absurd h1.symm hk
        · exact h1
      · exact Or.inr

/-- A consistent sparse store: positions in range, no two keys at the same position, every
position used. -/
structure StoreOK (els : List Expr) (em : Dict (Nat × Nat) Nat) : Prop where
  bound : ∀ k n, em.get? k = some n → n < els.length
  inj : ∀ k k' n, em.get? k = some n → em.get? k' = some n → k = k'
  nodup : em.keys.Nodup
  surj : ∀ n, n < els.length → ∃ k, em.get? k = some n

/-- The entry stored for a key. -/
def entry (els : List Expr) (em : Dict (Nat × Nat) Nat) (k : Nat × Nat) : Option Expr :=
  (em.get? k).bind (fun n => els[n]?)

theorem StoreOK.empty : StoreOK [] Dict.empty :=
  ⟨fun _ _ h => (by cases h), fun _ _ _ h => (by cases h), List.nodup_nil, fun _ h => (by cases h)⟩

theorem StoreOK.isSome {els : List Expr} {em : Dict (Nat × Nat) Nat} (h : StoreOK els em)
    (k : Nat × Nat) : (entry els em k).isSome = (em.get? k).isSome := by
  unfold entry
  cases hk : em.get? k with
  | none => rfl
  | some n =>
    have := h.bound k n hk
    simp [this]

theorem StoreOK.push {els : List Expr} {em : Dict (Nat × Nat) Nat} (h : StoreOK els em)
    {k : Nat × Nat} (hk : em.get? k = none) (e : Expr) :
    StoreOK (els ++ [e]) (em.set k els.length) ∧
    ∀ k', entry (els ++ [e]) (em.set k els.length) k' =
      if k = k' then some e else entry els em k' := by
  refine ⟨⟨?_, ?_, Dict.keys_set_nodup _ h.nodup _ _, ?_⟩, ?_⟩
  · intro k' n hn
    rw [Dict.get?_set] at hn
    rw [List.length_append, List.length_singleton]
    split at hn
    · cases hn; omega
    · have := h.bound k' n hn; omega
  · intro k1 k2 n h1 h2
    rw [Dict.get?_set] at h1 h2
    split at h1 <;> split at h2
    · rename_i e1 e2; rw [← e1, ← e2]
    · cases h1; have := h.bound _ _ h2; omega
    · cases h2; have := h.bound _ _ h1; omega
    · exact h.inj _ _ _ h1 h2
  · intro n hn
    by_cases he : n = els.length
    · exact ⟨k, by rw [Dict.get?_set_self, he]⟩
    · rw [List.length_append, List.length_singleton] at hn
      obtain ⟨k', hk'⟩ := h.surj n (by omega)
      exact ⟨k', by rw [Dict.get?_set_ne _ _ (by rintro rfl; rw [hk] at hk'; cases hk')]; exact hk'⟩
  · intro k'
    unfold entry
    rw [Dict.get?_set]
    split
    · simp
    · cases hk' : em.get? k' with
      | none => rfl
      | some n =>
        have := h.bound _ _ hk'
        simp only [Option.bind_some]
        rw [List.getElem?_append_left this]

theorem StoreOK.update {els : List Expr} {em : Dict (Nat × Nat) Nat} (h : StoreOK els em)
    {k : Nat × Nat} {n : Nat} (hk : em.get? k = some n) (r : Expr) :
    StoreOK (els.set n r) em ∧
    ∀ k', entry (els.set n r) em k' = if k = k' then some r else entry els em k' := by
  refine ⟨⟨fun k' m hm => by rw [List.length_set]; exact h.bound k' m hm, h.inj, h.nodup,
    fun m hm => h.surj m (by simpa using hm)⟩, ?_⟩
  intro k'
  unfold entry
  split
  · rename_i e; subst e
    have := h.bound _ _ hk
    simp [hk, this]
  · rename_i hne
    cases hk' : em.get? k' with
    | none => rfl
    | some m =>
      have : n ≠ m := by
        rintro rfl; exact hne (h.inj _ _ _ hk hk')
      simp only [Option.bind_some]
      rw [List.getElem?_set_ne this]

/-! ### The constructor -/

theorem rowLoop_spec (i : Nat) (row : List Expr) :
    ∀ (j : Nat) (els : List Expr) (em : Dict (Nat × Nat) Nat), StoreOK els em →
    (∀ j', j ≤ j' → em.get? (i, j') = none) →
    ∃ els' em', Mat.rowLoop i j row (els, em) = (els', em') ∧ StoreOK els' em' ∧
      (∀ e ∈ els', e ∈ els ∨ e ≠ Expr.zero) ∧
      (∀ k, k.1 ≠ i ∨ k.2 < j → entry els' em' k = entry els em k) ∧
      (∀ j', j ≤ j' → entry els' em' (i, j') =
        (row[j' - j]?).bind (fun e => if e = Expr.zero then none else some e)) := by
  induction row with
  | nil =>
    intro j els em h hn
    refine ⟨els, em, rfl, h, fun e he => Or.inl he, fun _ _ => rfl, fun j' hj => ?_⟩
    simp [entry, hn j' hj]
  | cons x row ih =>
    intro j els em h hn
    unfold Mat.rowLoop
    by_cases hx : x = Expr.zero
    · rw [if_neg (by simp [hx])]
      obtain ⟨els', em', h1, h2, h3, h4, h5⟩ := ih (j + 1) els em h (fun j' hj => hn j' (by omega))
      refine ⟨els', em', h1, h2, h3, fun k hk => h4 k (by omega), fun j' hj => ?_⟩
      by_cases hjj : j' = j
      · subst hjj
        rw [h4 (i, j') (Or.inr (by simp))]
        simp [entry, hn j' hj, hx]
      · rw [h5 j' (by omega)]
        rw [show j' - j = (j' - (j + 1)) + 1 by omega, List.getElem?_cons_succ]
    · rw [if_pos hx]
      obtain ⟨hp1, hp2⟩ := h.push (hn j (Nat.le_refl _)) x
      obtain ⟨els', em', h1, h2, h3, h4, h5⟩ := ih (j + 1) _ _ hp1 (fun j' hj => by
        rw [Dict.get?_set_ne]
        · exact hn j' (by omega)
        · intro h; simp only [Prod.mk.injEq, true_and] at h; omega)
      refine ⟨els', em', h1, h2, ?_, ?_, ?_⟩
      · intro e he
        rcases h3 e he with h | h
        · rcases List.mem_append.1 h with h | h
          · exact Or.inl h
          · rw [List.mem_singleton] at h; rw [h]; exact Or.inr hx
        · exact Or.inr h
      · intro k hk
        rw [h4 k (by omega), hp2 k, if_neg]
        rintro rfl; simp at hk
      · intro j' hj
        by_cases hjj : j' = j
        · subst hjj
          rw [h4 (i, j') (Or.inr (by simp)), hp2, if_pos rfl]
          simp [hx]
        · rw [h5 j' (by omega)]
          rw [show j' - j = (j' - (j + 1)) + 1 by omega, List.getElem?_cons_succ]

theorem rowsLoop_spec (rows : List (List Expr)) :
    ∀ (i : Nat) (els : List Expr) (em : Dict (Nat × Nat) Nat), StoreOK els em →
    (∀ i' j, i ≤ i' → em.get? (i', j) = none) →
    ∃ els' em', Mat.rowsLoop i rows (els, em) = (els', em') ∧ StoreOK els' em' ∧
      (∀ e ∈ els', e ∈ els ∨ e ≠ Expr.zero) ∧
      (∀ k, k.1 < i → entry els' em' k = entry els em k) ∧
      (∀ i' j, i ≤ i' → entry els' em' (i', j) =
        (entryAt rows (i' - i) j).bind (fun e => if e = Expr.zero then none else some e)) := by
  induction rows with
  | nil =>
    intro i els em h hn
    refine ⟨els, em, rfl, h, fun e he => Or.inl he, fun _ _ => rfl, fun i' j hi => ?_⟩
    simp [entry, hn i' j hi, entryAt]
  | cons row rows ih =>
    intro i els em h hn
    unfold Mat.rowsLoop
    obtain ⟨els1, em1, h1, h2, h3, h4, h5⟩ :=
      rowLoop_spec i row 0 els em h (fun j' _ => hn i j' (Nat.le_refl _))
    rw [h1]
    obtain ⟨els', em', g1, g2, g3, g4, g5⟩ := ih (i + 1) els1 em1 h2 (fun i' j hi => by
      have := h4 (i', j) (Or.inl (by simp only; omega))
      have h6 := h2.isSome (i', j)
      rw [this] at h6
      unfold entry at h6
      rw [hn i' j (by omega)] at h6
      simpa using h6.symm)
    refine ⟨els', em', g1, g2, ?_, ?_, ?_⟩
    · intro e he
      rcases g3 e he with h | h
      · exact h3 e h
      · exact Or.inr h
    · intro k hk
      rw [g4 k (by omega), h4 k (Or.inl (by omega))]
    · intro i' j hi
      by_cases hii : i' = i
      · subst hii
        rw [g4 (i', j) (by simp), h5 j (by omega)]
        simp [entryAt]
      · rw [g5 i' j (by omega)]
        rw [show i' - i = (i' - (i + 1)) + 1 by omega]
        simp only [entryAt, List.getElem?_cons_succ]

/-! ### Elementwise operations -/

/-- Combination of stored entries by `binop`. -/
def combine (f : Expr) : Option Expr → Option Expr → Option Expr
  | some a, some b => some (.node [f, a, b])
  | some a, none => some a
  | none, b => b

theorem pyGet_ok {α : Type} {l : List α} {i : Nat} {a : α} (h : l[i]? = some a) :
    pyGet l i = .ok a := by
  unfold pyGet; rw [h]

theorem entry_of_get {els : List Expr} {em : Dict (Nat × Nat) Nat} (h : StoreOK els em)
    {k : Nat × Nat} {n : Nat} (hk : em.get? k = some n) :
    ∃ e, els[n]? = some e ∧ entry els em k = some e := by
  have hb := h.bound k n hk
  refine ⟨els[n], List.getElem?_eq_getElem hb, ?_⟩
  unfold entry; rw [hk]; simp [hb]

theorem binopLoop_spec (oels : List Expr) (f : Expr) (items : List ((Nat × Nat) × Nat)) :
    ∀ (els : List Expr) (em : Dict (Nat × Nat) Nat), StoreOK els em →
    (items.map Prod.fst).Nodup → (∀ p ∈ items, p.2 < oels.length) →
    ∃ els' em', Mat.binopLoop oels f items (els, em) = .ok (els', em') ∧ StoreOK els' em' ∧
      ∀ k, entry els' em' k = combine f (entry els em k)
        (((Dict.mk items).get? k).bind (fun n => oels[n]?)) := by
  induction items with
  | nil =>
    intro els em h _ _
    refine ⟨els, em, rfl, h, fun k => ?_⟩
    simp only [Dict.get?, Dict.lookup, Option.bind_none]
    cases entry els em k <;> rfl
  | cons p items ih =>
    obtain ⟨ij, no⟩ := p
    intro els em h hnd hb
    simp only [List.map_cons, List.nodup_cons] at hnd
    have hno := hb (ij, no) (by simp)
    simp only at hno
    have hother := pyGet_ok (List.getElem?_eq_getElem hno)
    have hnone : (Dict.mk items).get? ij = none := by
      cases hg : (Dict.mk items).get? ij with
      | none => rfl
      | some w =>
        have := ((Dict.mk items).mem_items_iff hnd.2 ij w).2 hg
        exact absurd (List.mem_map.2 ⟨_, this, rfl⟩) hnd.1
    have hlook : ∀ k, (Dict.mk ((ij, no) :: items)).get? k =
        if ij = k then some no else (Dict.mk items).get? k := fun k => rfl
    unfold Mat.binopLoop
    cases hij : em.get? ij with
    | some n =>
      obtain ⟨e, he, hent⟩ := entry_of_get h hij
      have hset : pySet els n (.node [f, e, oels[no]]) = .ok (els.set n (.node [f, e, oels[no]])) := by
        unfold pySet; rw [if_pos (h.bound _ _ hij)]
      obtain ⟨hu1, hu2⟩ := h.update hij (.node [f, e, oels[no]])
      obtain ⟨els', em', h1, h2, h3⟩ := ih _ _ hu1 hnd.2 (fun p hp => hb p (by simp [hp]))
      refine ⟨els', em', ?_, h2, fun k => ?_⟩
      · simp only [pyGet_ok he, hother, bind, Except.bind]
        rw [show f.call [e, oels[no]] = .node [f, e, oels[no]] from rfl, hset]; exact h1
      · rw [h3 k, hu2 k, hlook k]
        by_cases hk : ij = k
        · subst hk
          simp only [if_true, hnone, hent, Option.bind_none, Option.bind_some, combine,
            List.getElem?_eq_getElem hno]
        · simp only [if_neg hk]
    | none =>
      obtain ⟨hp1, hp2⟩ := h.push hij oels[no]
      obtain ⟨els', em', h1, h2, h3⟩ := ih _ _ hp1 hnd.2 (fun p hp => hb p (by simp [hp]))
      refine ⟨els', em', ?_, h2, fun k => ?_⟩
      · simp only [hother, bind, Except.bind]; exact h1
      · rw [h3 k, hp2 k, hlook k]
        by_cases hk : ij = k
        · subst hk
          have : entry els em ij = none := by unfold entry; rw [hij]; rfl
          simp only [if_true, hnone, this, Option.bind_none, Option.bind_some, combine,
            List.getElem?_eq_getElem hno]
        · simp only [if_neg hk]

/-! ### Well-formed matrices -/

/-- What all reachable matrices satisfy. -/
structure MatWF (m : Mat) : Prop where
  store : StoreOK m.elements m.entrymap
  inside : ∀ i j, Stores m i j → i < m.nrows ∧ j < m.ncols
  graph : m.elementsGraph = .node (Expr.listH :: m.elements)

/-- The entry stored at `(i, j)`. -/
def Mat.entry (m : Mat) (i j : Nat) : Option Expr := Verif.entry m.elements m.entrymap (i, j)

theorem MatWF.stores_iff {m : Mat} (h : MatWF m) (i j : Nat) :
    Stores m i j ↔ (m.entry i j).isSome = true := by
  unfold Stores Mat.entry
  rw [h.store.isSome]

theorem MatWF.getItem {m : Mat} (h : MatWF m) (i j : Nat) (hi : i < m.nrows) (hj : j < m.ncols) :
    m.getItem (.pair i j) = .ok ((m.entry i j).getD Expr.zero) := by
  unfold Mat.getItem Mat.entry
  simp only
  rw [if_neg (by omega)]
  simp only [Int.toNat_natCast]
  cases hk : m.entrymap.get? (i, j) with
  | none => simp [Verif.entry, hk]
  | some n =>
    obtain ⟨e, he, hent⟩ := entry_of_get h.store hk
    simp only [pyGet_ok he, hent, Option.getD_some]

theorem mk'_wf {nr nc : Nat} {els : List Expr} {em : Dict (Nat × Nat) Nat} (h : StoreOK els em)
    (hin : ∀ i j, (entry els em (i, j)).isSome = true → i < nr ∧ j < nc) :
    MatWF (Mat.mk' nr nc els em) := by
  refine ⟨h, ?_, rfl⟩
  intro i j hs
  refine hin i j ?_
  rw [h.isSome]; exact hs

end Verif
