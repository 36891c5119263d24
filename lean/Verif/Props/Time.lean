import Verif.Lemmas.Time
import Verif.Props.DiffExact
import Verif.Props.Samples

/-!
# Running times (C66)

`Model/Time.lean` says what a step is.  Each theorem says first that the counting function returns
(or raises) what the function without counter does, then how many steps it takes.
-/

namespace Verif.Props
open Spec Timed Samples
variable {V T : Type} [DecidableEq V]

/-- **C66, topological_sort.** Two steps for each listed expression and each of its children, one for
each excluded expression, and one. -/
theorem C66_sort (heads : Bool) (exclude : List (Tree V)) (e : Tree V) :
    (timedSort heads exclude e).result = .ok (topologicalSort heads exclude e) ∧
    (timedSort heads exclude e).steps = exclude.length + 1 +
      2 * ((topologicalSort heads exclude e).length +
        ((topologicalSort heads exclude e).map fun t => (kids heads t).length).sum) := by
  rw [timedSort_eq]
  exact ⟨rfl, rfl⟩

/-- Without exclusion and heads: two for each node and each edge of the graph, and one. -/
theorem C66_sort_graph (e : Tree V) :
    (timedSort false [] e).steps = 1 + 2 * (nodes e + edges e) := by
  rw [timedSort_eq]
  unfold nodes edges
  rw [distinct_eq]
  simp

/-- **C66, forward_graph.** Four steps for each node and each edge of the graph, and one. -/
theorem C66_forward_graph (e : Tree V) :
    (timedGraph e).result = forwardGraph e ∧
    (timedGraph e).steps = 4 * (nodes e + edges e) + 1 := by
  exact timedGraph_eq e

example : nodes fgxygx = 4 ∧ edges fgxygx = 4 ∧ (timedGraph fgxygx).steps = 33 := by
  decide +kernel

/-- **C66, evaluation.** An evaluation takes time linear in the graph, with the rules that it calls
(once for each node). -/
theorem C66_eval [HasNone T] (ev : Evaluator Timed V T) (e : Tree V) (values : Dict (Tree V) T) :
    (timedEval ev e values).result = (untimed ev).evalForward e values ∧
    ∀ k, RulesWithin k ev →
      (timedEval ev e values).steps ≤ 1 + (k + 6) * (nodes e + edges e) := by
  obtain ⟨h1, h2⟩ := timedGraph_eq e
  refine ⟨?_, fun k hk => ?_⟩
  · unfold timedEval Evaluator.evalForward
    simp only [timed_bind_result, h1, timedAtomsLoop_result, timedOpsLoop_result, free_result,
      liftPy_py]
  · unfold timedEval
    obtain ⟨g, hg⟩ : ∃ g, forwardGraph e = .ok g := ⟨_, forwardGraph_eq e⟩
    obtain ⟨h3, h4⟩ := graph_shape hg
    have hb := timed_bind_steps_le (timedGraph e)
      (fun graph => do
        let stack ← timedAtomsLoop ev values [] graph.atoms
        let stack ← timedOpsLoop ev stack graph.operations
        free (pyLast stack)) (4 * (nodes e + edges e) + 1)
      ((k + 1) * nodes e + (k + 2) * edges e) (Nat.le_of_eq h2) (by
        intro g' hg'
        rw [h1, hg] at hg'
        cases hg'
        have := timed_bind_steps_le _ (fun stack => do
          let stack ← timedOpsLoop ev stack g.operations
          free (pyLast stack)) _ ((k + 1) * g.operations.length + (k + 2) * edges e)
          (timedAtomsLoop_steps hk values g.atoms []) (by
            intro st _
            have := timed_bind_steps_le _ (fun stack : List T => free (pyLast stack)) _ 0
              (timedOpsLoop_steps hk g.operations st) (fun _ _ => Nat.le_refl _)
            rw [h4] at this
            exact this)
        refine Nat.le_trans this ?_
        rw [← Nat.add_assoc, ← Nat.mul_add, h3]
        exact Nat.le_refl _)
    refine Nat.le_trans hb ?_
    simp only [Nat.add_mul, Nat.mul_add]
    omega

/-- **C66, SubsFunc.** Making a `SubsFunc` takes time linear in the part of the expression outside
the parameters. -/
theorem C66_subs_new (e : Tree V) (params : List (Tree V)) :
    (timedSubsNew e params).result = SubsFunc.new e params ∧
    (timedSubsNew e params).steps ≤ 4 * params.length + 1 + 7 * outsideSize params e := by
  exact ⟨timedSubsNew_result e params, timedSubsNew_steps e params⟩

/-- **C66, SubsFunc calls.** Calling it takes time linear in the same part, whatever the size of the
arguments. -/
theorem C66_subs_call (e : Tree V) (params : List (Tree V)) (f : SubsFunc V)
    (hf : SubsFunc.new e params = .ok f) (args : List (Tree V)) :
    (timedSubsCall f args).result = f.call args ∧
    (timedSubsCall f args).steps ≤ 1 + params.length + 2 * outsideSize params e := by
  exact ⟨timedSubsCall_result f args, Nat.le_trans (timedSubsCall_steps f args) (callCost_new e params f hf)⟩

example : outsideSize [x] fgxygx = 11 ∧ (timedSubsNew fgxygx [x]).steps = 67 ∧
    ∃ f, SubsFunc.new fgxygx [x] = .ok f ∧ (timedSubsCall f [fgxygx]).steps = 21 := by
  exact ⟨by decide +kernel, by decide +kernel, ⟨1, [f, g, y], [[2, 0], [1, 4, 3, 4]]⟩,
    by decide +kernel, by decide +kernel⟩


/-! ### Differentiation -/

theorem made_cost {T : DiffTable} {p : DiffProps Val} (hm : Made T p) {R : Nat}
    (hR : ∀ h params sym rhs, .rule (.node (h :: params)) sym rhs ∈ T.told →
      1 + params.length + 2 * outsideSize params rhs ≤ R) (q : Expr × Nat) (f : SubsFunc Val)
    (hf : p.diffRules.get? q = some f) : callCost f ≤ R := by
  obtain ⟨hd, i⟩ := q
  obtain ⟨h1, h2, h3⟩ := made_rule hm hd i
  rcases h3 with ⟨params, rhs, hr⟩ | hn
  · obtain ⟨f', hf', hnew⟩ := h1 params rhs hr
    rw [hf] at hf'
    cases hf'
    obtain ⟨later, sym, earlier, ht, _, _⟩ := hr
    exact Nat.le_trans (callCost_new rhs params f hnew)
      (hR hd params sym rhs (by rw [ht]; simp))
  · rw [h2 hn] at hf
    cases hf

/-- **C66, differentiation.** When no operation other than sums and distributive ones has more than
`k` arguments, a derivative takes time linear in the graph of the expression, whatever the size of the
derivative written out as a tree; `R` is the size of the largest rule. -/
theorem C66_diff (T : DiffTable) (p : DiffProps Val) (hm : Made T p) (R : Nat)
    (hR : ∀ h params sym rhs, .rule (.node (h :: params)) sym rhs ∈ T.told →
      1 + params.length + 2 * outsideSize params rhs ≤ R) (e x : Expr) :
    (timedDiff e x p).result = e.diff x 1 p ∧
    ∀ k, FactorsAtMost T k e →
      (timedDiff e x p).steps ≤ 1 + 12 * nodes e + (2 * k + R + 14) * edges e := by
  rw [diff_one]
  refine ⟨timedDiff_result e x p, fun k hk => timedDiff_steps e x p R k ?_ (made_cost hm hR)⟩
  obtain ⟨_, _, ha, _, hd⟩ := made_fields hm
  intro h args hs
  rw [hd, ha]
  exact hk h args hs

theorem simplecas_cost {h : Expr} {params : List Expr} {sym rhs : Expr}
    (hr : .rule (.node (h :: params)) sym rhs ∈ simplecasTable.told) :
    1 + params.length + 2 * outsideSize params rhs ≤ 35 := by
  have hmem : (params, rhs) ∈ ([([Expr.wild "a", Expr.wild "b"],
      Expr.mul (Expr.wild "b") (Expr.pow (Expr.wild "a") (Expr.add (Expr.wild "b") Expr.negone))),
      ([Expr.wild "a"], Expr.mul Expr.negone (Expr.sin (Expr.wild "a"))),
      ([Expr.wild "a"], Expr.cos (Expr.wild "a"))] : List (List Expr × Expr)) := by
    simp only [simplecasTable, List.mem_cons, List.not_mem_nil, or_false, reduceCtorEq,
      false_or] at hr
    rcases hr with hr | hr | hr <;> cases hr <;> simp
  have hall : ∀ q ∈ ([([Expr.wild "a", Expr.wild "b"],
      Expr.mul (Expr.wild "b") (Expr.pow (Expr.wild "a") (Expr.add (Expr.wild "b") Expr.negone))),
      ([Expr.wild "a"], Expr.mul Expr.negone (Expr.sin (Expr.wild "a"))),
      ([Expr.wild "a"], Expr.cos (Expr.wild "a"))] : List (List Expr × Expr)),
      1 + q.1.length + 2 * outsideSize q.1 q.2 ≤ 35 := by
    decide +kernel
  exact hall _ hmem

/-- **C66, simplecas.** `e.diff(x)`. -/
theorem C66_diff_builtin (e x : Expr) :
    (timedDiff e x builtinDiff).result = e.diff x ∧
    ∀ k, FactorsAtMost simplecasTable k e →
      (timedDiff e x builtinDiff).steps ≤ 1 + 12 * nodes e + (2 * k + 49) * edges e := by
  obtain ⟨h1, h2⟩ := C66_diff simplecasTable builtinDiff C52_builtin 35
    (fun h params sym rhs hr => simplecas_cost hr) e x
  refine ⟨h1, fun k hk => ?_⟩
  exact h2 k hk

example : (timedDiff (Expr.sin (Expr.mul (Expr.symbol "x") (Expr.symbol "x"))) (Expr.symbol "x")
    builtinDiff).steps = 78 := by
  decide +kernel

/-! ### bin_expand -/

theorem timedReduceLoop_eq (h : Expr) (as : List Expr) (acc : Expr) :
    timedReduceLoop h acc as = ⟨.ok (as.foldl (fun a b => .node [h, a, b]) acc), 5 * as.length⟩ := by
  induction as generalizing acc with
  | nil => rfl
  | cons a as ih =>
    simp only [timedReduceLoop, ih, timed_tick_bind, List.foldl_cons, List.length_cons, Timed.mk.injEq,
      true_and]
    omega

theorem timedReduce_steps (h : Expr) (as : List Expr) : (timedReduce h as).steps ≤ 5 * (1 + as.length) := by
  cases as with
  | nil => exact Nat.zero_le _
  | cons a as =>
    simp only [timedReduce, timedReduceLoop_eq, List.length_cons]
    omega

theorem timedReduce_result (h : Expr) (as : List Expr) :
    (timedReduce h as).result = pyReduce (fun a b => .node [h, a, b]) as := by
  cases as with
  | nil => rfl
  | cons a as => simp only [timedReduce, timedReduceLoop_eq, pyReduce]

theorem untimed_binExpander : untimed timedBinExpander = binExpandTransformer := by
  have h : (fun vs => (timedReduce Expr.addH vs).result) = pyReduce Expr.add ∧
      (fun vs => (timedReduce Expr.mulH vs).result) = pyReduce Expr.mul :=
    ⟨funext fun vs => timedReduce_result _ vs, funext fun vs => timedReduce_result _ vs⟩
  unfold binExpandTransformer
  rw [← h.1, ← h.2]
  rfl

theorem binExpander_within : RulesWithin 5 timedBinExpander := by
  refine ⟨fun t => ?_, fun h vs => ?_⟩
  · cases t with
    | atom a => exact Nat.zero_le _
    | node cs => exact Nat.zero_le _
  · unfold Evaluator.evalOperation
    have hg : timedBinExpander.operations.get? h =
        if Expr.mulH = h then some (.seq (timedReduce Expr.mulH))
        else if Expr.addH = h then some (.seq (timedReduce Expr.addH)) else none := by
      simp only [timedBinExpander, Evaluator.addOpN, Dict.get?_set]
      rfl
    rw [hg]
    split
    · rename_i h0
      split at h0
      · cases h0
      · split at h0
        · cases h0
        · show 1 + (vs.length + 1) + 0 ≤ _
          omega
    · rename_i f h0
      split at h0
      · cases h0
      · split at h0 <;> cases h0
    · rename_i f h0
      split at h0
      · cases h0
        exact timedReduce_steps _ _
      · split at h0
        · cases h0
          exact timedReduce_steps _ _
        · cases h0

/-- **C66, bin_expand.** -/
theorem C66_bin_expand (e : Expr) :
    (timedBinExpand e).result = binExpand e ∧
    (timedBinExpand e).steps ≤ 1 + 11 * (nodes e + edges e) := by
  obtain ⟨h1, h2⟩ := C66_eval timedBinExpander e Dict.empty
  rw [untimed_binExpander] at h1
  exact ⟨h1, h2 5 binExpander_within⟩

/-! ### Sharing -/

theorem argSub_doubled (h x : Tree V) (hx : x.children = []) (n : Nat) (u : Tree V)
    (hu : ArgSub (doubled h x n) u) : ∃ m, m ≤ n ∧ u = doubled h x m := by
  induction n with
  | zero => exact ⟨0, Nat.le_refl _, argSub_leaf hx hu⟩
  | succ n ih =>
    rcases argSub_node.1 hu with rfl | ⟨a, ha, hu⟩
    · exact ⟨n + 1, Nat.le_refl _, rfl⟩
    · have : a = doubled h x n := by simpa using ha
      subst this
      obtain ⟨m, hm, rfl⟩ := ih hu
      exact ⟨m, by omega, rfl⟩

theorem edges_le_mul {k : Nat} {e : Tree V} (h : ArgsAtMost k e) : edges e ≤ k * nodes e := by
  have : ∀ l : List (Tree V), (∀ t ∈ l, (kids false t).length ≤ k) →
      (l.map fun t => (kids false t).length).sum ≤ k * l.length := by
    intro l
    induction l with
    | nil => intro _; exact Nat.zero_le _
    | cons t l ih =>
      intro hl
      have h1 := hl t (by simp)
      have h2 := ih fun t ht => hl t (List.mem_cons_of_mem _ ht)
      simp only [List.map_cons, List.sum_cons, List.length_cons, Nat.mul_succ]
      omega
  exact this _ fun t ht => h t (mem_distinct.1 ht)

theorem doubled_args (h x : Tree V) (hx : x.children = []) (n : Nat) :
    ArgsAtMost 2 (doubled h x n) := by
  intro t ht
  obtain ⟨m, _, rfl⟩ := argSub_doubled h x hx n t ht
  cases m with
  | zero =>
    have h0 : doubled h x 0 = x := rfl
    rw [h0, kids_false_eq, argsOf, hx]
    exact Nat.zero_le _
  | succ m => exact Nat.le_refl _

/-- The graph of `doubled h x n` is small. -/
theorem doubled_size (h x : Tree V) (hx : x.children = []) (n : Nat) :
    nodes (doubled h x n) ≤ n + 1 ∧ edges (doubled h x n) ≤ 2 * n + 2 := by
  have h1 : nodes (doubled h x n) ≤ n + 1 := by
    have := nodes_le_of_cover (e := doubled h x n) (L := (List.range (n + 1)).map (doubled h x)) (by
      intro u hu
      obtain ⟨m, hm, rfl⟩ := argSub_doubled h x hx n u hu
      exact List.mem_map.2 ⟨m, List.mem_range.2 (by omega), rfl⟩)
    simpa using this
  have h2 := edges_le_mul (doubled_args h x hx n)
  exact ⟨h1, by omega⟩

/-- **C66, sharing.** On `h(e, e)` nested `n` times, a tree of `2 ^ n` leaves, the algorithms take
time linear in `n`. -/
theorem C66_shared (h x : Tree V) (hx : x.children = []) (n : Nat) :
    (timedSort false [] (doubled h x n)).steps ≤ 6 * n + 7 ∧
    (timedGraph (doubled h x n)).steps ≤ 12 * n + 13 ∧
    ∀ (T : Type) [HasNone T] (ev : Evaluator Timed V T) (values : Dict (Tree V) T) (k : Nat),
      RulesWithin k ev → (timedEval ev (doubled h x n) values).steps ≤ 1 + (k + 6) * (3 * n + 3) := by
  obtain ⟨h1, h2⟩ := doubled_size h x hx n
  refine ⟨?_, ?_, ?_⟩
  · rw [C66_sort_graph]; omega
  · rw [(C66_forward_graph _).2]; omega
  · intro T _ ev values k hk
    refine Nat.le_trans ((C66_eval ev (doubled h x n) values).2 k hk) ?_
    have : (k + 6) * (nodes (doubled h x n) + edges (doubled h x n)) ≤ (k + 6) * (3 * n + 3) :=
      Nat.mul_le_mul (Nat.le_refl _) (by omega)
    omega

/-- The same for a derivative. -/
theorem C66_shared_diff (h v x : Expr) (hx : x.children = []) (n : Nat) :
    (timedDiff (doubled h x n) v builtinDiff).steps ≤ 118 * n + 119 := by
  obtain ⟨h1, h2⟩ := doubled_size h x hx n
  have := (C66_diff_builtin (doubled h x n) v).2 2
    (fun h' args hs => .inr (.inr (by simpa [kids] using doubled_args h x hx n _ hs)))
  omega

theorem nodes_flat (h : Tree V) (args : List (Tree V)) (ha : ∀ a ∈ args, a.children = []) :
    nodes (.node (h :: args)) ≤ args.length + 1 ∧ edges (.node (h :: args)) = args.length := by
  have hsub : ∀ u, ArgSub (.node (h :: args)) u → u = .node (h :: args) ∨ u ∈ args := by
    intro u hu
    rcases argSub_node.1 hu with rfl | ⟨a, hm, hu⟩
    · exact .inl rfl
    · exact .inr (argSub_leaf (ha a hm) hu ▸ hm)
  refine ⟨?_, ?_⟩
  · have := nodes_le_of_cover (e := .node (h :: args)) (L := args ++ [.node (h :: args)])
      (fun u hu => by rcases hsub u hu with rfl | hm <;> simp [*])
    simpa using this
  · unfold edges
    have hone : ∀ l : List (Tree V), l.Nodup → (∀ u ∈ l, u = .node (h :: args) ∨ u ∈ args) →
        (l.map fun t => (kids false t).length).sum = if .node (h :: args) ∈ l then args.length else 0 := by
      intro l
      induction l with
      | nil => intro _ _; rfl
      | cons u l ih =>
        intro hn hl
        rw [List.nodup_cons] at hn
        rw [List.map_cons, List.sum_cons, ih hn.2 (fun v hv => hl v (List.mem_cons_of_mem _ hv))]
        by_cases hu : u = .node (h :: args)
        · subst hu
          simp [hn.1, kids]
        · have hm := (hl u List.mem_cons_self).resolve_left hu
          have hk : (kids false u).length = 0 := by
            rw [kids_false_eq]; simp [argsOf, ha u hm]
          have : (Tree.node (h :: args) ∈ u :: l) ↔ Tree.node (h :: args) ∈ l := by
            rw [List.mem_cons]
            exact ⟨fun h' => h'.resolve_left (fun e => hu e.symm), .inr⟩
          simp only [this, hk, Nat.zero_add]
    rw [hone _ (nodup_distinct _) (fun u hu => hsub u (mem_distinct.1 hu)),
      if_pos (mem_distinct.2 (argSub_refl _))]

/-- **C66, long sums.** The derivative of a sum of `n` atoms takes a number of steps linear in `n`. -/
theorem C66_sum_diff (x : Expr) (as : List Expr) (ha : ∀ a ∈ as, a.children = []) :
    (timedDiff (.node (Expr.addH :: as)) x builtinDiff).steps ≤ 61 * as.length + 13 := by
  obtain ⟨h1, h2⟩ := nodes_flat Expr.addH as ha
  have := (C66_diff_builtin (.node (Expr.addH :: as)) x).2 0 (by
    intro h args hs
    rcases argSub_node.1 hs with hs | ⟨a, hm, hs⟩
    · cases hs; exact .inr (.inl rfl)
    · have := argSub_leaf (ha a hm) hs
      subst this
      have := ha _ hm
      cases this)
  omega

mutual
theorem timedEvalRecursive_result (ev : Evaluator Timed V T) (values : Dict (Tree V) T) :
    ∀ e : Tree V, (timedEvalRecursive ev values e).result = (untimed ev).evalRecursive values e
  | .atom a => by
    simp only [timedEvalRecursive, Evaluator.evalRecursive, timed_tick_bind]
    cases values.get? (.atom a) with
    | some v => rfl
    | none => exact untimed_atom ev _
  | .node [] => by
    simp only [timedEvalRecursive, Evaluator.evalRecursive, timed_tick_bind]
    cases values.get? (.node []) with
    | some v => rfl
    | none => exact untimed_atom ev _
  | .node (h :: args) => by
    simp only [timedEvalRecursive, Evaluator.evalRecursive, timed_tick_bind]
    cases values.get? (.node (h :: args)) with
    | some v => rfl
    | none =>
      simp only [timed_bind_result, timedEvalRecursiveList_result ev values args, untimed_op]
theorem timedEvalRecursiveList_result (ev : Evaluator Timed V T) (values : Dict (Tree V) T) :
    ∀ es : List (Tree V), (timedEvalRecursiveList ev values es).result =
      (untimed ev).evalRecursiveList values es
  | [] => rfl
  | e :: es => by
    simp only [timedEvalRecursiveList, Evaluator.evalRecursiveList, timed_bind_result,
      timedEvalRecursive_result ev values e, timedEvalRecursiveList_result ev values es]
    rfl
end

/-- **C66, the contrast.** `eval_recursive` takes at least `2 ^ n` steps there. -/
theorem C66_recursive (ev : Evaluator Timed V T) :
    (∀ (e : Tree V) (values : Dict (Tree V) T),
      (timedEvalRecursive ev values e).result = (untimed ev).evalRecursive values e) ∧
    ∀ (h x : Tree V) (n : Nat) (v : T),
      (untimed ev).evalRecursive Dict.empty (doubled h x n) = .ok v →
        2 ^ n ≤ (timedEvalRecursive ev Dict.empty (doubled h x n)).steps := by
  refine ⟨fun e values => timedEvalRecursive_result ev values e, fun h x n => ?_⟩
  induction n with
  | zero =>
    intro v _
    show 1 ≤ _
    cases hx : doubled h x 0 with
    | atom a => simp only [timedEvalRecursive, timed_tick_bind]; omega
    | node cs =>
      cases cs <;> simp only [timedEvalRecursive, timed_tick_bind] <;> omega
  | succ n ih =>
    intro v hv
    rw [← timedEvalRecursive_result] at hv
    have hn : (Dict.empty : Dict (Tree V) T).get? (doubled h x (n + 1)) = none := rfl
    simp only [doubled, timedEvalRecursive] at hv hn ⊢
    simp only [timed_tick_bind, hn, timedEvalRecursiveList] at hv ⊢
    generalize hd : timedEvalRecursive ev Dict.empty (doubled h x n) = r at *
    obtain ⟨res, st⟩ := r
    cases res with
    | error err => cases hv
    | ok w =>
      have := ih w (by rw [← timedEvalRecursive_result, hd])
      simp only [timed_bind_ok, timed_pure] at hv ⊢
      simp only at this
      rw [Nat.pow_succ]
      omega

/-- An evaluator that counts the leaves of the tree: one step for a leaf and for each argument. -/
def leafCounter : Evaluator Timed String Nat :=
  (Evaluator.new.addAtomGeneric fun _ => ⟨.ok 1, 1⟩).addOpGeneric fun _ vs => ⟨.ok vs.sum, vs.length⟩

/-- At `n = 6`: 64 leaves, and the times of the two evaluations. -/
example : RulesWithin 1 leafCounter ∧
    (untimed leafCounter).evalRecursive Dict.empty (doubled f x 6) = .ok 64 ∧
    (timedEvalRecursive leafCounter Dict.empty (doubled f x 6)).steps = 569 ∧
    (timedEval leafCounter (doubled f x 6) Dict.empty).steps = 121 := by
  refine ⟨⟨fun t => ?_, fun h vs => ?_⟩, by decide +kernel, by decide +kernel, by decide +kernel⟩
  · cases t with
    | atom a => exact Nat.le_refl _
    | node cs => exact Nat.zero_le _
  · show vs.length ≤ _
    omega

end Verif.Props
