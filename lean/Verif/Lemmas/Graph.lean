import Verif.Lemmas.Dict
import Verif.Lemmas.TopoOrder

namespace Verif
open Spec
variable {V : Type} [DecidableEq V]

/-! ### topological_split -/

/-- no children -/
def isLeaf (t : Tree V) : Bool := t.children.isEmpty

/-- `children[0]` of a compound expression -/
def headOf (t : Tree V) : Tree V := t.children.headD t

/-- `children[1:]` -/
def argsOf (t : Tree V) : List (Tree V) := t.children.drop 1

omit [DecidableEq V] in
theorem kids_false_eq (t : Tree V) : kids false t = argsOf t := by
  cases t with
  | atom a => rfl
  | node cs => cases cs <;> rfl

omit [DecidableEq V] in
theorem foldl_splitStep (l : List (Tree V)) (s : Split V) :
    l.foldl splitStep s =
      ⟨s.atoms ++ l.filter isLeaf,
       ((l.filter (fun t => !isLeaf t)).map headOf).reverse ++ s.heads,
       s.nodes ++ l.filter (fun t => !isLeaf t)⟩ := by
  induction l generalizing s with
  | nil => simp
  | cons t l ih =>
    rw [List.foldl_cons, ih]
    unfold splitStep
    cases hc : t.children with
    | nil =>
      have h1 : isLeaf t = true := by simp [isLeaf, hc]
      simp [h1]
    | cons h args =>
      have h1 : isLeaf t = false := by simp [isLeaf, hc]
      have h2 : headOf t = h := by simp [headOf, hc]
      simp [h1, h2]

theorem topologicalSplit_eq (exclude : List (Tree V)) (e : Tree V) :
    topologicalSplit exclude e =
      ⟨(topologicalSort false exclude e).filter isLeaf,
       (((topologicalSort false exclude e).filter (fun t => !isLeaf t)).map headOf).reverse,
       (topologicalSort false exclude e).filter (fun t => !isLeaf t)⟩ := by
  unfold topologicalSplit
  rw [foldl_splitStep]
  simp

/-- The order in which the forward graph lists the subexpressions: atoms first. -/
def graphOrder (e : Tree V) : List (Tree V) :=
  (topologicalSort false [] e).filter isLeaf ++
    (topologicalSort false [] e).filter (fun t => !isLeaf t)

/-- A list in which the arguments of every compound member stand before it. -/
def ArgsFirst (l : List (Tree V)) : Prop :=
  ∀ pre t post, l = pre ++ t :: post → ∀ c ∈ argsOf t, c ∈ pre

theorem reach_topo {e t : Tree V} :
    t ∈ topologicalSort false [] e ↔ ArgSub e t := by
  rw [mem_topologicalSort]; simp [ArgSub]

theorem mem_graphOrder {e t : Tree V} : t ∈ graphOrder e ↔ ArgSub e t := by
  rw [← reach_topo]
  simp only [graphOrder, List.mem_append, List.mem_filter]
  cases isLeaf t <;> simp

theorem nodup_graphOrder (e : Tree V) : (graphOrder e).Nodup := by
  have h := nodup_topologicalSort false [] e
  unfold graphOrder
  rw [List.nodup_append]
  refine ⟨h.filter _, h.filter _, ?_⟩
  intro x hx y hy
  rw [List.mem_filter] at hx hy
  intro he; subst he
  simp [hx.2] at hy

/-- splitting a filtered list at an element gives a split of the list -/
theorem filter_eq_split {α : Type} {p : α → Bool} {l pre post : List α} {t : α}
    (h : l.filter p = pre ++ t :: post) :
    ∃ pre' post', l = pre' ++ t :: post' ∧ pre'.filter p = pre := by
  induction l generalizing pre with
  | nil => simp at h
  | cons a l ih =>
    by_cases ha : p a
    · rw [List.filter_cons_of_pos ha] at h
      cases pre with
      | nil =>
        simp only [List.nil_append, List.cons.injEq] at h
        obtain ⟨rfl, _⟩ := h
        exact ⟨[], l, rfl, rfl⟩
      | cons b pre =>
        simp only [List.cons_append, List.cons.injEq] at h
        obtain ⟨rfl, h⟩ := h
        obtain ⟨pre', post', h1, h2⟩ := ih h
        exact ⟨a :: pre', post', by rw [h1]; rfl, by rw [List.filter_cons_of_pos ha, h2]⟩
    · rw [List.filter_cons_of_neg ha] at h
      obtain ⟨pre', post', h1, h2⟩ := ih h
      exact ⟨a :: pre', post', by rw [h1]; rfl, by rw [List.filter_cons_of_neg ha, h2]⟩

omit [DecidableEq V] in
theorem argsOf_leaf {t : Tree V} (h : isLeaf t = true) : argsOf t = [] := by
  simp only [isLeaf, List.isEmpty_iff] at h
  simp [argsOf, h]

theorem argsFirst_graphOrder (e : Tree V) : ArgsFirst (graphOrder e) := by
  intro pre t post h c hc
  have htl : isLeaf t = false := by
    cases hl : isLeaf t with
    | false => rfl
    | true => rw [argsOf_leaf hl] at hc; cases hc
  unfold graphOrder at h
  rcases List.append_eq_append_iff.1 h with ⟨a, ha, hb⟩ | ⟨a, ha, hb⟩
  · obtain ⟨pre', post', h1, h2⟩ := filter_eq_split hb
    have hcp : c ∈ pre' := by
      apply kids_mem_prefix h1
      · rw [kids_false_eq]; exact hc
      · simp
    rw [ha]
    cases hcl : isLeaf c with
    | false =>
      apply List.mem_append_right
      rw [← h2, List.mem_filter]
      simp [hcp, hcl]
    | true =>
      apply List.mem_append_left
      rw [List.mem_filter]
      exact ⟨by rw [h1]; simp [hcp], hcl⟩
  · cases a with
    | nil =>
      have hb' : List.filter (fun t => !isLeaf t) (topologicalSort false [] e) = [] ++ t :: post := by
        simpa using hb.symm
      obtain ⟨pre', post', h1, h2⟩ := filter_eq_split hb'
      have hcp : c ∈ pre' := by
        apply kids_mem_prefix h1
        · rw [kids_false_eq]; exact hc
        · simp
      rw [List.append_nil] at ha
      rw [← ha, List.mem_filter]
      cases hcl : isLeaf c with
      | true => exact ⟨by rw [h1]; simp [hcp], rfl⟩
      | false =>
        exfalso
        have : c ∈ pre'.filter (fun t => !isLeaf t) := by
          rw [List.mem_filter]; simp [hcp, hcl]
        rw [h2] at this; cases this
    | cons x a =>
      simp only [List.cons_append, List.cons.injEq] at hb
      obtain ⟨rfl, _⟩ := hb
      have : t ∈ (topologicalSort false [] e).filter isLeaf := by rw [ha]; simp
      rw [List.mem_filter] at this
      rw [htl] at this; cases this.2

theorem graphOrder_last (e : Tree V) : ∃ l, graphOrder e = l ++ [e] := by
  obtain ⟨l, hl, hn⟩ := topologicalSort_not_excl (heads := false) (excl := []) (e := e) (by simp)
  unfold graphOrder
  rw [hl]
  simp only [List.filter_append]
  cases he : isLeaf e with
  | false =>
    refine ⟨List.filter isLeaf l ++ List.filter (fun t => !isLeaf t) l, ?_⟩
    simp [he]
  | true =>
    have hlnil : l = [] := by
      cases l with
      | nil => rfl
      | cons x l =>
        exfalso
        have hx : x ∈ topologicalSort false [] e := by rw [hl]; simp
        rw [reach_topo] at hx
        cases hx with
        | refl _ => simp at hn
        | down _ hc _ =>
          rw [kids_false_eq, argsOf_leaf he] at hc; cases hc
    subst hlnil
    exact ⟨[], by simp [he]⟩

/-! ### forward_graph in closed form -/

/-- The operation recorded for a compound expression, given the list of positions. -/
def opOf (l : List (Tree V)) (t : Tree V) : Tree V × List Nat :=
  (headOf t, (argsOf t).map (fun c => l.idxOf c))

theorem idxOf_getElem? {α : Type} [DecidableEq α] {l : List α} {a : α} (h : a ∈ l) :
    l[l.idxOf a]? = some a := by
  rw [List.getElem?_eq_getElem (List.idxOf_lt_length_of_mem h), List.getElem_idxOf]

theorem mapM_getItem_ok {K W : Type} [DecidableEq K] (d : Dict K W) (f : K → W)
    (l : List K) (h : ∀ k ∈ l, d.get? k = some (f k)) :
    l.mapM (fun k => d.getItem k) = .ok (l.map f) := by
  induction l with
  | nil => rfl
  | cons k l ih =>
    rw [List.mapM_cons, Dict.getItem_eq_ok (h k (by simp)), ih (fun x hx => h x (by simp [hx]))]
    rfl

theorem forwardLoop_eq (L : List (Tree V)) (hnd : L.Nodup) (hargs : ArgsFirst L) :
    ∀ (nodes done : List (Tree V)) (indices : Dict (Tree V) Nat)
      (ops : List (Tree V × List Nat)),
    L = done ++ nodes → (∀ t ∈ nodes, isLeaf t = false) →
    (∀ t i, indices.get? t = some i ↔ done[i]? = some t) →
    forwardLoop done.length indices ops nodes = .ok (ops ++ nodes.map (opOf L)) := by
  intro nodes
  induction nodes with
  | nil => intro done indices ops _ _ _; simp [forwardLoop]
  | cons t nodes ih =>
    intro done indices ops hL hleaf hidx
    have ht : isLeaf t = false := hleaf t (by simp)
    have hchild : ∃ h args, t.children = h :: args := by
      cases hc : t.children with
      | nil => simp [isLeaf, hc] at ht
      | cons h args => exact ⟨h, args, rfl⟩
    obtain ⟨h, args, hc⟩ := hchild
    have hh : headOf t = h := by simp [headOf, hc]
    have ha : argsOf t = args := by simp [argsOf, hc]
    have hmap : (t.children.drop 1).mapM (fun e => indices.getItem e)
        = .ok (args.map (fun c => L.idxOf c)) := by
      rw [hc, List.drop_one, List.tail_cons]
      apply mapM_getItem_ok
      intro c hcm
      have hcd : c ∈ done := hargs done t nodes hL c (by rw [ha]; exact hcm)
      rw [hidx]
      have hcL : c ∈ L := by rw [hL]; simp [hcd]
      have h1 : L.idxOf c = done.idxOf c := by
        rw [hL, List.idxOf_append]; simp [hcd]
      rw [h1]; exact idxOf_getElem? hcd
    unfold forwardLoop
    have hget : pyGet t.children 0 = .ok h := by simp [pyGet, hc]
    rw [hget]
    simp only [bind, Except.bind]
    rw [hmap]
    simp only
    have hlen : done.length + 1 = (done ++ [t]).length := by simp
    rw [hlen, ih (done ++ [t]) _ _ (by rw [hL]; simp) (fun x hx => hleaf x (by simp [hx])) ?_]
    · have : opOf L t = (h, args.map (fun c => L.idxOf c)) := by simp [opOf, hh, ha]
      simp [this]
    · intro u i
      rw [Dict.get?_set]
      by_cases htu : t = u
      · subst htu
        simp only [if_true, Option.some.injEq]
        have htd : t ∉ done := by
          rw [hL] at hnd
          have := (List.nodup_append.1 hnd).2.2
          intro hm; exact this t hm t (by simp) rfl
        constructor
        · intro h; subst h; simp
        · intro hi
          by_cases hlt : i < done.length
          · rw [List.getElem?_append_left hlt] at hi
            exact absurd (List.mem_of_getElem? hi) htd
          · rw [List.getElem?_append_right (by omega)] at hi
            have : i - done.length = 0 := by
              rcases Nat.eq_zero_or_pos (i - done.length) with h | h
              · exact h
              · rw [List.getElem?_eq_none (by simp; omega)] at hi; cases hi
            omega
      · simp only [htu, if_false]
        rw [hidx]
        by_cases hlt : i < done.length
        · rw [List.getElem?_append_left hlt]
        · rw [List.getElem?_append_right (by omega), List.getElem?_eq_none (by omega)]
          constructor
          · intro h; cases h
          · intro h
            have := List.mem_of_getElem? h
            simp at this
            exact absurd this.symm htu

/-- `forward_graph` in closed form: it never raises, lists the atoms and for each compound
expression its head and the positions of its arguments. -/
theorem forwardGraph_eq (e : Tree V) :
    forwardGraph e = .ok
      ⟨(topologicalSort false [] e).filter isLeaf,
       (((topologicalSort false [] e).filter (fun t => !isLeaf t)).map headOf).reverse,
       ((topologicalSort false [] e).filter (fun t => !isLeaf t)).map (opOf (graphOrder e))⟩ := by
  unfold forwardGraph
  rw [topologicalSplit_eq]
  simp only
  have hL := forwardLoop_eq (graphOrder e) (nodup_graphOrder e) (argsFirst_graphOrder e)
    ((topologicalSort false [] e).filter (fun t => !isLeaf t))
    ((topologicalSort false [] e).filter isLeaf)
    (Dict.ofPairs (((topologicalSort false [] e).filter isLeaf).zip
      (List.range ((topologicalSort false [] e).filter isLeaf).length))) [] rfl
    (by intro t ht; rw [List.mem_filter] at ht; simpa using ht.2)
    (by
      intro t i
      rw [Dict.get?_ofPairs]
      exact lastAssoc_zip_range ((nodup_topologicalSort false [] e).filter _) i t)
  rw [hL]
  simp only [bind, Except.bind, List.nil_append]
  rfl

/-- Looking up the recorded positions in a list of values computed in graph order. -/
theorem mapM_pyGet_idx {T : Type} (L pre post : List (Tree V)) (t : Tree V) (f : Tree V → T)
    (hL : L = pre ++ t :: post) (hargs : ArgsFirst L) :
    (opOf L t).2.mapM (fun i => pyGet (pre.map f) i) = .ok ((argsOf t).map f) := by
  have hmem : ∀ c ∈ argsOf t, c ∈ pre := fun c hc => hargs pre t post hL c hc
  unfold opOf
  simp only
  generalize argsOf t = args at hmem
  induction args with
  | nil => rfl
  | cons c cs ih =>
    have hcp := hmem c (by simp)
    have h1 : L.idxOf c = pre.idxOf c := by rw [hL, List.idxOf_append]; simp [hcp]
    rw [List.map_cons, List.mapM_cons, ih (fun x hx => hmem x (by simp [hx]))]
    have : pyGet (pre.map f) (L.idxOf c) = .ok (f c) := by
      rw [h1]; simp [pyGet, idxOf_getElem? hcp]
    rw [this]; rfl

end Verif
