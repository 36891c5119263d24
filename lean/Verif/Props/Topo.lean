import Verif.Lemmas.Graph
import Verif.Spec.Graph
import Verif.Props.Samples

/-!
# C05–C10: traversal and forward graphs
-/

namespace Verif.Props
open Spec Samples
variable {V : Type} [DecidableEq V]

/-- **C05.** `topological_sort(e, heads=heads)` lists exactly the subexpressions reachable
from `e`, each once, every visited child before its parent, ending with `e`. -/
theorem C05_topological_sort (heads : Bool) (e : Tree V) :
    (∀ t, t ∈ topologicalSort heads [] e ↔ Reach heads (fun _ => False) e t) ∧
    (topologicalSort heads [] e).Nodup ∧
    (∀ t ∈ topologicalSort heads [] e, ∀ c ∈ kids heads t,
      Before (topologicalSort heads [] e) c t) ∧
    (topologicalSort heads [] e).getLast? = some e := by
  refine ⟨?_, nodup_topologicalSort _ _ _, ?_, ?_⟩
  · intro t; rw [mem_topologicalSort]; simp
  · intro t ht c hc
    exact before_topologicalSort heads [] e t c ht hc (by simp)
  · obtain ⟨l, hl, _⟩ := topologicalSort_not_excl (heads := heads) (excl := []) (e := e) (by simp)
    rw [hl]; simp

/-- Non-trivial instance: a shared subexpression is listed once, before both uses. -/
example : topologicalSort false [] fgxygx = [x, gx, y, fgxygx] ∧
    topologicalSort true [] fgxygx = [f, g, x, gx, y, fgxygx] := by
  decide +kernel

/-- **C06.** With `exclude`, exactly the expressions reachable without meeting an excluded
one are listed, each once and after its non-excluded children; the result is empty when `e`
itself is excluded and ends with `e` otherwise. -/
theorem C06_topological_sort_exclude (heads : Bool) (exclude : List (Tree V)) (e : Tree V) :
    (∀ t, t ∈ topologicalSort heads exclude e ↔ Reach heads (· ∈ exclude) e t) ∧
    (topologicalSort heads exclude e).Nodup ∧
    (∀ t ∈ topologicalSort heads exclude e, ∀ c ∈ kids heads t, c ∉ exclude →
      Before (topologicalSort heads exclude e) c t) ∧
    (e ∈ exclude → topologicalSort heads exclude e = []) ∧
    (e ∉ exclude → (topologicalSort heads exclude e).getLast? = some e) := by
  refine ⟨fun t => mem_topologicalSort _ _ _ _, nodup_topologicalSort _ _ _, ?_, ?_, ?_⟩
  · intro t ht c hc hx
    exact before_topologicalSort heads exclude e t c ht hc hx
  · exact topologicalSort_excl
  · intro hx
    obtain ⟨l, hl, _⟩ := topologicalSort_not_excl (heads := heads) hx
    rw [hl]; simp

/-- `f(g(x), x)` without `g(x)`: `x` is hidden below `g(x)` but reachable elsewhere;
`y` in `f(g(y), x)` is not. -/
example :
    topologicalSort false [gx] (f.call [gx, x]) = [x, f.call [gx, x]] ∧
    topologicalSort false [g.call [y]] (f.call [g.call [y], x]) = [x, f.call [g.call [y], x]] := by
  decide +kernel

/-- **C07.** The order is the left-to-right postorder keeping first occurrences. -/
theorem C07_topological_sort_order (heads : Bool) (exclude : List (Tree V)) (e : Tree V) :
    topologicalSort heads exclude e =
      keepFirst (postorder heads (fun t => decide (t ∈ exclude)) e) :=
  topologicalSort_eq heads exclude e

/-- `keepFirst` really drops repetitions here. -/
example : postorder false (fun _ => false) fgxygx = [x, gx, y, x, gx, fgxygx] ∧
    keepFirst (postorder false (fun _ => false) fgxygx) = [x, gx, y, fgxygx] := by
  decide

/-- **C08.** The loop terminates (it is a total function) and takes exactly one iteration
per listed expression plus one per child of a listed expression: linear in the graph. -/
theorem C08_topological_sort_linear (heads : Bool) (exclude : List (Tree V)) (e : Tree V) :
    topoSteps heads (topoInit heads exclude e) =
      (topologicalSort heads exclude e).length +
      ((topologicalSort heads exclude e).map (fun t => (kids heads t).length)).sum := by
  have h := topoSteps_eq heads (topoInit heads exclude e) (by
    intro f hf
    unfold topoInit at hf
    simp only at hf
    split at hf
    · cases hf
    · simp only [List.mem_singleton] at hf
      subst hf
      simp [getChildren_eq])
  have h0 : topoPotential heads (topoInit heads exclude e) = 0 := by
    unfold topoInit topoPotential
    split <;> simp [getChildren_eq]
  rw [h0, Nat.zero_add] at h
  rw [h]
  unfold topologicalSort
  generalize topoRun heads (topoInit heads exclude e) = l
  induction l with
  | nil => rfl
  | cons t l ih => simp only [List.map_cons, List.sum_cons, List.length_cons, ih]; omega

example : topoSteps false (topoInit false [] fgxygx) = 4 + 4 := by decide +kernel

/-- **C09.** `topological_split` partitions the topological sort. -/
theorem C09_topological_split (exclude : List (Tree V)) (e : Tree V) :
    (topologicalSplit exclude e).atoms =
      (topologicalSort false exclude e).filter (fun t => t.children = []) ∧
    (topologicalSplit exclude e).nodes =
      (topologicalSort false exclude e).filter (fun t => t.children ≠ []) ∧
    (∀ h, h ∈ (topologicalSplit exclude e).heads ↔
      ∃ t ∈ topologicalSort false exclude e, ∃ args, t = Tree.node (h :: args)) := by
  rw [topologicalSplit_eq]
  have hf : (isLeaf : Tree V → Bool) = fun t => decide (t.children = []) := by
    funext t; unfold isLeaf; cases t.children <;> simp
  have hf' : (fun t : Tree V => !isLeaf t) = fun t => decide (t.children ≠ []) := by
    funext t; rw [hf]; simp
  refine ⟨by rw [hf], by rw [hf'], ?_⟩
  intro h
  simp only [List.mem_reverse, List.mem_map, List.mem_filter]
  constructor
  · rintro ⟨t, ⟨ht, hl⟩, rfl⟩
    refine ⟨t, ht, ?_⟩
    cases t with
    | atom a => simp [isLeaf, Tree.children] at hl
    | node cs =>
      cases cs with
      | nil => simp [isLeaf, Tree.children] at hl
      | cons c cs => exact ⟨cs, by simp [headOf, Tree.children]⟩
  · rintro ⟨t, ht, args, rfl⟩
    exact ⟨_, ⟨ht, by simp [isLeaf, Tree.children]⟩, by simp [headOf, Tree.children]⟩

example : (topologicalSplit [] fgxy).atoms = [x, y] ∧ (topologicalSplit [] fgxy).nodes = [gx, fgxy] ∧
    f ∈ (topologicalSplit [] fgxy).heads := by decide +kernel

theorem replay_graph (L : List (Tree V)) (hargs : ArgsFirst L) :
    ∀ (nodes done : List (Tree V)), L = done ++ nodes → (∀ t ∈ nodes, isLeaf t = false) →
    replay done (nodes.map (opOf L)) = .ok L := by
  intro nodes
  induction nodes with
  | nil => intro done h _; simp [replay, h]
  | cons t nodes ih =>
    intro done hL hleaf
    have hm := mapM_pyGet_idx L done nodes t id hL hargs
    simp only [List.map_id] at hm
    rw [List.map_cons]
    have hop : opOf L t = (headOf t, (opOf L t).2) := rfl
    rw [hop]
    unfold replay
    rw [hm]
    simp only [bind, Except.bind]
    have ht : (headOf t).call (argsOf t) = t := by
      have h := hleaf t (by simp)
      cases t with
      | atom a => simp [isLeaf, Tree.children] at h
      | node cs =>
        cases cs with
        | nil => simp [isLeaf, Tree.children] at h
        | cons c cs => simp [headOf, argsOf, Tree.children, Tree.call]
    rw [ht]
    exact ih (done ++ [t]) (by rw [hL]; simp) (fun u hu => hleaf u (by simp [hu]))

omit [DecidableEq V] in
/-- `Before` from prefix membership. -/
theorem argsFirst_before {L : List (Tree V)} (hargs : ArgsFirst L) {t c : Tree V} (ht : t ∈ L)
    (hc : c ∈ kids false t) : Before L c t := by
  obtain ⟨pre, post, h⟩ := List.append_of_mem ht
  rw [kids_false_eq] at hc
  have hm := hargs pre t post h c hc
  obtain ⟨i, hi, hic⟩ := List.mem_iff_getElem.1 hm
  refine ⟨i, pre.length, hi, ?_, ?_⟩
  · rw [h, List.getElem?_append_left hi, List.getElem?_eq_getElem hi, hic]
  · rw [h, List.getElem?_append_right (Nat.le_refl _)]; simp

theorem isTopoOrder_graphOrder (e : Tree V) : IsTopoOrder e (graphOrder e) := by
  refine ⟨fun t => mem_graphOrder, nodup_graphOrder e, ?_, ?_⟩
  · intro t ht c hc; exact argsFirst_before (argsFirst_graphOrder e) ht hc
  · obtain ⟨l, hl⟩ := graphOrder_last e; rw [hl]; simp

/-- **C10.** `forward_graph` never raises; its `k`-th operation only refers to positions
before its own; its heads are the heads of the compound subexpressions; replaying it gives a topological order of `e` that starts with the atoms
and ends with `e`. The docstring's additional claim that the replayed list *equals*
`topological_sort(e)` is refuted below, hence only "a topological order". -/
theorem C10_forward_graph_replay (e : Tree V) :
    ∃ g, forwardGraph e = .ok g ∧
      (∀ k op, g.operations[k]? = some op → ∀ i ∈ op.2, i < g.atoms.length + k) ∧
      (∀ a, a ∈ g.atoms ↔ ArgSub e a ∧ a.children = []) ∧
      (∀ h, h ∈ g.heads ↔ ∃ args, ArgSub e (.node (h :: args))) ∧
      ∃ stack, replay g.atoms g.operations = .ok stack ∧
        IsTopoOrder e stack ∧
        stack.take g.atoms.length = g.atoms ∧
        stack.length = g.atoms.length + g.operations.length ∧
        stack.Perm (topologicalSort false [] e) := by
  refine ⟨_, forwardGraph_eq e, ?_, ?_, ?_, graphOrder e, ?_, isTopoOrder_graphOrder e, ?_, ?_, ?_⟩
  · intro k op hop i hi
    simp only [List.getElem?_map, Option.map_eq_some_iff] at hop
    obtain ⟨t, ht, rfl⟩ := hop
    simp only [opOf, List.mem_map] at hi
    obtain ⟨c, hc, rfl⟩ := hi
    have hsplit : graphOrder e =
        (List.filter isLeaf (topologicalSort false [] e) ++
          (List.filter (fun t => !isLeaf t) (topologicalSort false [] e)).take k) ++
        t :: (List.filter (fun t => !isLeaf t) (topologicalSort false [] e)).drop (k + 1) := by
      obtain ⟨hk, hkt⟩ := List.getElem?_eq_some_iff.1 ht
      unfold graphOrder
      conv => lhs; rw [← List.take_append_drop k
        (List.filter (fun t => !isLeaf t) (topologicalSort false [] e))]
      rw [List.drop_eq_getElem_cons hk, hkt]; simp
    have hm := argsFirst_graphOrder e _ _ _ hsplit c hc
    have h1 : (graphOrder e).idxOf c = (List.filter isLeaf (topologicalSort false [] e) ++
          (List.filter (fun t => !isLeaf t) (topologicalSort false [] e)).take k).idxOf c := by
      rw [hsplit, List.idxOf_append]; simp only [hm, if_true]
    rw [h1]
    have h2 := List.idxOf_lt_length_of_mem hm
    simp only [List.length_append, List.length_take] at h2
    show _ < (List.filter isLeaf (topologicalSort false [] e)).length + k
    omega
  · intro a
    simp only [List.mem_filter, reach_topo, isLeaf, List.isEmpty_iff]
  · intro h
    have h9 := (C09_topological_split [] e).2.2 h
    rw [topologicalSplit_eq] at h9
    refine h9.trans ⟨?_, ?_⟩
    · rintro ⟨t, ht, args, rfl⟩
      exact ⟨args, reach_topo.1 ht⟩
    · rintro ⟨args, ha⟩
      exact ⟨_, reach_topo.2 ha, args, rfl⟩
  · exact replay_graph (graphOrder e) (argsFirst_graphOrder e) _ _ rfl
      (by intro t ht; rw [List.mem_filter] at ht; simpa using ht.2)
  · simp [graphOrder]
  · simp [graphOrder]
  · unfold graphOrder
    exact List.filter_append_perm isLeaf (topologicalSort false [] e)

/-- The example in the docstring: `f(g(x, y), y)`. -/
example : forwardGraph (f.call [g.call [x, y], y]) =
    .ok ⟨[x, y], [f, g], [(g, [0, 1]), (f, [2, 1])]⟩ := by
  rw [forwardGraph_eq]; decide +kernel

/-- **C10, refutation of the docstring** (tree.py:366, "Now ``stack`` is the topological
sort of ``expr``", and the doctest `stack == topological_sort(expr)`): for `f(g(x), y)` the
replayed list is `[x, y, g(x), f(g(x), y)]` but `topological_sort` gives
`[x, g(x), y, f(g(x), y)]`. -/
theorem C10_docstring_claim_false :
    ∃ (e : Tree String) (gr : ForwardGraph String) (stack : List (Tree String)),
      forwardGraph e = .ok gr ∧ replay gr.atoms gr.operations = .ok stack ∧
      stack ≠ topologicalSort false [] e := by
  refine ⟨fgxy, _, [x, y, gx, fgxy], forwardGraph_eq fgxy, ?_, ?_⟩ <;> decide +kernel

end Verif.Props
