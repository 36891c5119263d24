import Verif.Model.TimeLLVM
import Verif.Props.Time
import Verif.Props.LLVMWork
import Verif.Props.LLVMMatrix

/-!
# Running times of code generation and of matrix operations (C66)
-/

namespace Verif.Props
open Spec Timed

/-! ### bin_expand -/

theorem sum_twice (l : List Expr) (g : Expr → Nat) :
    (l.map fun t => 2 * g t).sum = 2 * (l.map g).sum := by
  induction l with
  | nil => rfl
  | cons t l ih => simp only [List.map_cons, List.sum_cons, ih, Nat.mul_add]

theorem leftNest_edges (h : Expr) : ∀ (as : List Expr) (a : Expr),
    ∃ L : List Expr, (L.map fun t => (kids false t).length).sum ≤ 2 * as.length ∧
      ∀ u, ArgSub (leftNest h a as) u → u ∈ L ∨ ArgSub a u ∨ ∃ b ∈ as, ArgSub b u := by
  intro as
  induction as with
  | nil => exact fun a => ⟨[], by simp, fun u hu => .inr (.inl hu)⟩
  | cons b bs ih =>
    intro a
    obtain ⟨L, l1, l2⟩ := ih (.node [h, a, b])
    refine ⟨.node [h, a, b] :: L, ?_, fun u hu => ?_⟩
    · have hk : (kids false (.node [h, a, b])).length = 2 := rfl
      rw [List.map_cons, List.sum_cons, List.length_cons, hk]
      omega
    rcases l2 u hu with h' | h' | ⟨c, hc, h'⟩
    · exact .inl (List.mem_cons_of_mem _ h')
    · rcases Props.argSub_node.1 h' with rfl | ⟨c, hc, h''⟩
      · exact .inl List.mem_cons_self
      · simp only [List.mem_cons, List.not_mem_nil, or_false] at hc
        rcases hc with rfl | rfl
        · exact .inr (.inl h'')
        · exact .inr (.inr ⟨_, List.mem_cons_self, h''⟩)
    · exact .inr (.inr ⟨c, List.mem_cons_of_mem _ hc, h'⟩)

/-- **C56, `bin_expand`, edges.** -/
theorem C56_bin_expand_edges (e u : Expr) (h : binExpand e = .ok u) : edges u ≤ 2 * edges e := by
  have hdet : ∀ t d d', BinExpands t d → BinExpands t d' → d = d' := by
    intro t d d' h1 h2
    have h1 := (C20_bin_expand_nests t d).2 h1
    have h2 := (C20_bin_expand_nests t d').2 h2
    exact Except.ok.inj (h1.symm.trans h2)
  have hcov := cover_sum e BinExpands hdet (fun t => (kids false t).length)
    (fun t => 2 * (kids false t).length) ?_ ((C20_bin_expand_nests e u).1 h)
  · unfold edges
    rwa [sum_twice] at hcov
  · intro t _ht d hd
    cases hd with
    | atom =>
      rename_i a
      refine ⟨[.atom a], by simp [kids], fun u hu => .inl ?_⟩
      rw [argSub_leaf rfl hu]
      exact List.mem_cons_self
    | other _h1 h2 =>
      rename_i h args args'
      have hlen := binExpandsAll_len h2
      refine ⟨[.node (h :: args')], by simp [kids, hlen]; omega, fun u hu => ?_⟩
      rcases Props.argSub_node.1 hu with rfl | ⟨d, hd, hu⟩
      · exact .inl List.mem_cons_self
      · obtain ⟨a, ha, hda⟩ := binExpandsAll_member h2 hd
        exact .inr ⟨a, ha, d, hda, hu⟩
    | nest _h1 h2 =>
      rename_i h args a as
      obtain ⟨L, l1, l2⟩ := leftNest_edges h as a
      have hlen := binExpandsAll_len h2
      refine ⟨L, ?_, fun u hu => ?_⟩
      · have hk : (kids false (.node (h :: args))).length = args.length := rfl
        simp only [List.length_cons] at hlen
        show _ ≤ 2 * (kids false (.node (h :: args))).length
        rw [hk]
        omega
      · rcases l2 u hu with h' | h' | ⟨b, hb, h'⟩
        · exact .inl h'
        · obtain ⟨c, hc, hda⟩ := binExpandsAll_member h2 (List.mem_cons_self (a := a))
          exact .inr ⟨c, hc, a, hda, h'⟩
        · obtain ⟨c, hc, hda⟩ := binExpandsAll_member h2 (List.mem_cons_of_mem a hb)
          exact .inr ⟨c, hc, b, hda, h'⟩

/-! ### Code generation -/

theorem timedAtoms_result (symargs : List Expr) (argnames : Dict Expr String) (l : List Expr) :
    (timedAtoms symargs argnames l).result = l.mapM (llvmAtom symargs argnames) := by
  induction l with
  | nil => rfl
  | cons a l ih =>
    rw [List.mapM_cons]
    simp only [timedAtoms, timed_tick_bind, timed_bind_result, free_result, ih]
    rfl

theorem takeWhile_le {α : Type} (p : α → Bool) (l : List α) : (l.takeWhile p).length ≤ l.length := by
  exact (List.takeWhile_sublist p).length_le

theorem timedAtoms_steps (symargs : List Expr) (argnames : Dict Expr String) (l : List Expr) :
    (timedAtoms symargs argnames l).steps ≤ (1 + symargs.length) * l.length := by
  induction l with
  | nil => exact Nat.zero_le _
  | cons a l ih =>
    have ht := takeWhile_le (fun s => decide (s ≠ a)) symargs
    simp only [timedAtoms, timed_tick_bind, List.length_cons, Nat.mul_succ]
    cases llvmAtom symargs argnames a with
    | error err => simp only [timed_free_error, timed_bind_error]; omega
    | ok s =>
      simp only [timed_free_ok, timed_bind_ok]
      have := timed_bind_steps_le (timedAtoms symargs argnames l)
        (fun ids => (pure (s :: ids) : Timed (List String))) _ 0 ih (fun _ _ => Nat.le_refl _)
      omega

/-- The scan of the parameters for each atom that is not one of them. -/
theorem timedAtoms_scan (symargs : List Expr) (argnames : Dict Expr String) (l : List Expr)
    (ids : List String) (h : l.mapM (llvmAtom symargs argnames) = .ok ids) :
    symargs.length * (l.filter (· ∉ symargs)).length ≤ (timedAtoms symargs argnames l).steps := by
  induction l generalizing ids with
  | nil => simp
  | cons a l ih =>
    rw [List.mapM_cons] at h
    cases ha : llvmAtom symargs argnames a with
    | error err => rw [ha] at h; cases h
    | ok s =>
      rw [ha] at h
      cases hl : l.mapM (llvmAtom symargs argnames) with
      | error err => simp only [hl, bind, Except.bind] at h; cases h
      | ok ids' =>
        have ih := ih ids' hl
        have hres := timedAtoms_result symargs argnames l
        rw [hl] at hres
        simp only [timedAtoms, timed_tick_bind, ha, timed_free_ok, timed_bind_ok]
        generalize timedAtoms symargs argnames l = y at *
        obtain ⟨r, n⟩ := y
        simp only at hres
        subst hres
        simp only [timed_bind_ok, timed_pure]
        simp only at ih
        rw [List.filter_cons]
        split
        · rename_i hm
          have ht : symargs.takeWhile (fun s => decide (s ≠ a)) = symargs := by
            have : ∀ m : List Expr, a ∉ m → m.takeWhile (fun s => decide (s ≠ a)) = m := by
              intro m
              induction m with
              | nil => intro _; rfl
              | cons b m ihm =>
                intro hb
                rw [List.mem_cons, not_or] at hb
                rw [List.takeWhile_cons, ihm hb.2, if_pos (by simpa using fun e => hb.1 e.symm)]
            exact this _ (by simpa using hm)
          rw [ht, List.length_cons, Nat.mul_succ]
          omega
        · omega

theorem timedLlvmOps_result (ops : List (Expr × List Nat)) (ids : List String) (ins : List Instr) :
    (timedLlvmOps ids ins ops).result = llvmOpsLoop ids ins ops := by
  induction ops generalizing ids ins with
  | nil => rfl
  | cons o ops ih =>
    obtain ⟨func, is⟩ := o
    simp only [timedLlvmOps, llvmOpsLoop, timed_bind_result, timed_tick_bind, free_result, ih]

theorem timedLlvmOps_steps (ops : List (Expr × List Nat)) (ids : List String) (ins : List Instr) :
    (timedLlvmOps ids ins ops).steps ≤ 2 * ops.length + 2 * (ops.map (fun o => o.2.length)).sum := by
  induction ops generalizing ids ins with
  | nil => exact Nat.zero_le _
  | cons o ops ih =>
    obtain ⟨func, is⟩ := o
    simp only [timedLlvmOps, timed_tick_bind, List.length_cons, List.map_cons, List.sum_cons]
    cases h1 : is.mapM (fun i => pyGet (ids ++ [regName ins.length]) i) with
    | error err => simp only [timed_free_error, timed_bind_error]; omega
    | ok argids =>
      have hl := Verif.mapM_length _ _ _ h1
      simp only [timed_free_ok, timed_bind_ok]
      cases h2 : llvmLine (regName ins.length) func argids with
      | error err => simp only [timed_free_error, timed_bind_error]; omega
      | ok line =>
        simp only [timed_free_ok, timed_bind_ok]
        have := ih (ids ++ [regName ins.length]) (ins ++ [line])
        omega

theorem toLlvm_time_result (symargs : List Expr) (e : Expr) :
    (timedToLlvm symargs e).result = toLlvm symargs e := by
  unfold timedToLlvm toLlvm
  simp only [timed_bind_result, (C66_bin_expand _).1, (C66_forward_graph _).1, free_result,
    timedAtoms_result, timed_tick_bind, timedLlvmOps_result]
  rfl

theorem leaf_count {e u : Expr} (hu : binExpand e = .ok u) {g : ForwardGraph Val}
    (hg : forwardGraph u = .ok g) : g.atoms.length ≤ leafCount e := by
  rw [forwardGraph_eq] at hg
  cases hg
  unfold leafCount
  have hn : ((topologicalSort false [] u).filter isLeaf).Nodup :=
    (nodup_topologicalSort false [] u).filter _
  refine (List.Nodup.subperm hn ?_).length_le
  intro t ht
  rw [List.mem_filter] at ht
  have hs := (leaf_expanded hu ht.2).1 (reach_topo.1 ht.1)
  exact List.mem_filter.2 ⟨mem_distinct.2 hs, ht.2⟩

/-- **C66, code generation.** The code for an expression takes time linear in the graph and in the
number of parameters, and for each distinct atom a search through the parameters. -/
theorem C66_to_llvm (symargs : List Expr) (e : Expr) :
    (timedToLlvm symargs e).result = toLlvm symargs e ∧
    (timedToLlvm symargs e).steps ≤ 3 + 2 * symargs.length + 18 * nodes e + 30 * edges e +
      symargs.length * leafCount e := by
  refine ⟨toLlvm_time_result symargs e, ?_⟩
  unfold timedToLlvm
  obtain ⟨b1, b2⟩ := C66_bin_expand e
  cases hu : binExpand e with
  | error err =>
    rw [hu] at b1
    generalize timedBinExpand e = y at *
    obtain ⟨r, n⟩ := y
    simp only at b1 b2
    subst b1
    simp only [timed_bind_error]
    rw [Nat.mul_add] at b2
    omega
  | ok u =>
    rw [hu] at b1
    have hn := C56_bin_expand e u hu
    rw [countOpsGraph_eq, countOpsGraph_eq] at hn
    have hedge := C56_bin_expand_edges e u hu
    generalize timedBinExpand e = y at *
    obtain ⟨r, n⟩ := y
    simp only at b1 b2
    subst b1
    simp only [timed_bind_ok]
    obtain ⟨g1, g2⟩ := timedGraph_eq u
    obtain ⟨g, hg⟩ : ∃ g, forwardGraph u = .ok g := ⟨_, forwardGraph_eq u⟩
    obtain ⟨h3, h4⟩ := graph_shape hg
    have hleaf := leaf_count hu hg
    rw [hg] at g1
    generalize timedGraph u = y at *
    obtain ⟨r, n'⟩ := y
    simp only at g1 g2
    subst g1
    simp only [timed_bind_ok, timed_tick_bind]
    have hmul : symargs.length * g.atoms.length ≤ symargs.length * leafCount e :=
      Nat.mul_le_mul (Nat.le_refl _) hleaf
    have hrest : (do
        let argnames ← free (llvmArgnames symargs)
        let identifiers ← timedAtoms symargs argnames g.atoms
        tick symargs.length
        let params ← free (symargs.mapM argnames.getItem)
        let (identifiers, instructions) ← timedLlvmOps identifiers [] g.operations
        let last ← free (pyLast identifiers)
        tick (1 + instructions.length)
        return (⟨false, params, instructions ++ [.ret last]⟩ : IRFunction) : Timed IRFunction).steps ≤
        (1 + symargs.length) * g.atoms.length + (symargs.length + (2 * g.operations.length +
          2 * edges u + (1 + g.operations.length))) := by
      cases llvmArgnames symargs with
      | error err => exact Nat.zero_le _
      | ok argnames =>
        simp only [timed_free_ok, timed_bind_ok, Nat.zero_add]
        refine timed_bind_steps_le _ _ _ _ (timedAtoms_steps symargs argnames g.atoms) ?_
        intro ids _
        simp only [timed_tick_bind]
        cases symargs.mapM argnames.getItem with
        | error err => simp only [timed_free_error, timed_bind_error]; omega
        | ok params =>
          simp only [timed_free_ok, timed_bind_ok, Nat.zero_add]
          refine Nat.add_le_add_left ?_ _
          refine timed_bind_steps_le _ _ _ _ (by rw [← h4]; exact timedLlvmOps_steps g.operations ids []) ?_
          rintro ⟨ids', ins⟩ hr
          rw [timedLlvmOps_result] at hr
          have hlen := opsLoop_length g.operations ids [] _ hr
          simp only [List.length_nil, Nat.zero_add] at hlen
          cases pyLast ids' with
          | error err => simp only [timed_free_error, timed_bind_error]; omega
          | ok last =>
            simp only [timed_free_ok, timed_bind_ok, timed_pure]
            omega
    refine Nat.le_trans (Nat.add_le_add_left (Nat.add_le_add_left (Nat.add_le_add_left hrest _) _) _) ?_
    rw [Nat.add_mul, Nat.one_mul]
    omega

theorem timed_bind_steps_ge {α β : Type} (x : Timed α) (f : α → Timed β) : x.steps ≤ (x >>= f).steps := by
  obtain ⟨r, n⟩ := x
  cases r with
  | ok a => exact Nat.le_add_right _ _
  | error e => exact Nat.le_refl _

theorem timed_bind_steps_ge' {α β : Type} (x : Timed α) (f : α → Timed β) (a : α) (h : x.result = .ok a) :
    (f a).steps ≤ (x >>= f).steps := by
  obtain ⟨r, n⟩ := x
  simp only at h
  subst h
  exact Nat.le_add_left _ _

theorem leaf_count_outside {e u : Expr} (hu : binExpand e = .ok u) {g : ForwardGraph Val}
    (hg : forwardGraph u = .ok g) (symargs : List Expr) :
    ((distinct e).filter (fun t => t.children.isEmpty && t ∉ symargs)).length ≤
      (g.atoms.filter (· ∉ symargs)).length := by
  rw [forwardGraph_eq] at hg
  cases hg
  have hn : ((distinct e).filter (fun t => t.children.isEmpty && t ∉ symargs)).Nodup :=
    (nodup_distinct e).filter _
  refine (List.Nodup.subperm hn ?_).length_le
  intro t ht
  rw [List.mem_filter, Bool.and_eq_true] at ht
  have hs := (leaf_expanded hu ht.2.1).2 (mem_distinct.1 ht.1)
  exact List.mem_filter.2 ⟨List.mem_filter.2 ⟨reach_topo.2 hs, ht.2.1⟩, ht.2.2⟩

/-- **C66, the search is real.** For each constant all the parameters are compared: with `n` distinct
constants and `m` parameters code generation takes at least `m * n` steps. -/
theorem C66_to_llvm_search (symargs : List Expr) (e : Expr) (fn : IRFunction)
    (h : toLlvm symargs e = .ok fn) :
    symargs.length * ((distinct e).filter (fun t => t.children.isEmpty && t ∉ symargs)).length ≤
      (timedToLlvm symargs e).steps := by
  have h0 := h
  unfold toLlvm at h
  cases hu : binExpand e with
  | error err => rw [hu] at h; cases h
  | ok u =>
    rw [hu] at h
    cases hg : forwardGraph u with
    | error err => simp only [hg, bind, Except.bind] at h; cases h
    | ok g =>
      cases ha : llvmArgnames symargs with
      | error err => simp only [hg, ha, bind, Except.bind] at h; cases h
      | ok argnames =>
        cases hi : g.atoms.mapM (llvmAtom symargs argnames) with
        | error err => simp only [hg, ha, hi, bind, Except.bind] at h; cases h
        | ok ids =>
          have hscan := timedAtoms_scan symargs argnames g.atoms ids hi
          refine Nat.le_trans (Nat.mul_le_mul (Nat.le_refl _) (leaf_count_outside hu hg symargs)) ?_
          refine Nat.le_trans hscan ?_
          unfold timedToLlvm
          refine Nat.le_trans ?_ (timed_bind_steps_ge' _ _ u (by rw [(C66_bin_expand e).1, hu]))
          refine Nat.le_trans ?_ (timed_bind_steps_ge' _ _ g (by rw [(timedGraph_eq u).1, hg]))
          simp only [timed_tick_bind, ha, timed_free_ok, timed_bind_ok, Nat.zero_add]
          exact Nat.le_trans (timed_bind_steps_ge _ _) (Nat.le_add_left _ _)

/-- With 3 parameters and the constants 2 and 3. -/
example : (timedToLlvm [Expr.symbol "x", Expr.symbol "y", Expr.symbol "z"]
      (Expr.add (Expr.mul (Expr.integer 2) (Expr.symbol "x")) (Expr.integer 3))).steps = 127 ∧
    (toLlvm [Expr.symbol "x", Expr.symbol "y", Expr.symbol "z"]
      (Expr.add (Expr.mul (Expr.integer 2) (Expr.symbol "x")) (Expr.integer 3))).isOk = true := by
  decide +kernel

/-! ### Matrices -/

theorem timedStores_result (ncols : Nat) (ids : List String) (is : List Nat)
    (l : List ((Nat × Nat) × Nat)) (c : Nat) (ins : List Instr) :
    (timedStores ncols ids is c ins l).result = llvmStoreLoop ncols ids is c ins l := by
  induction l generalizing c ins with
  | nil => rfl
  | cons q l ih =>
    obtain ⟨⟨i, j⟩, n⟩ := q
    simp only [timedStores, llvmStoreLoop, timed_bind_result, timed_tick_bind, free_result, ih]

theorem timedStores_steps (ncols : Nat) (ids : List String) (is : List Nat)
    (l : List ((Nat × Nat) × Nat)) (c : Nat) (ins : List Instr) :
    (timedStores ncols ids is c ins l).steps ≤ 3 * l.length := by
  induction l generalizing c ins with
  | nil => exact Nat.zero_le _
  | cons q l ih =>
    obtain ⟨⟨i, j⟩, n⟩ := q
    simp only [timedStores, timed_tick_bind, List.length_cons]
    cases pyGet is n with
    | error err => simp only [timed_free_error, timed_bind_error]; omega
    | ok k =>
      simp only [timed_free_ok, timed_bind_ok]
      cases pyGet ids k with
      | error err => simp only [timed_free_error, timed_bind_error]; omega
      | ok v =>
        simp only [timed_free_ok, timed_bind_ok]
        have := ih (c + 1) (ins ++ [.gep (regName c) outName (i * ncols + j), .store v (regName c)])
        omega

theorem toLlvmMatrix_time_result (symargs : List Expr) (m : Mat) :
    (timedToLlvmMatrix symargs m).result = toLlvmMatrix symargs m := by
  unfold timedToLlvmMatrix toLlvmMatrix
  simp only [timed_bind_result, (C66_bin_expand _).1, (C66_forward_graph _).1, free_result,
    timedAtoms_result, timed_tick_bind, timedLlvmOps_result, timedStores_result]
  rfl

theorem le_sum_nat (l : List Nat) (a : Nat) (h : a ∈ l) : a ≤ l.sum := by
  induction l with
  | nil => cases h
  | cons b l ih =>
    rw [List.sum_cons]
    rcases List.mem_cons.1 h with rfl | h
    · omega
    · have := ih h
      omega

theorem wf_items {m : Mat} (h : MatWF m) :
    m.entrymap.items.length ≤ m.elements.length ∧ m.elements.length ≤ edges m.elementsGraph := by
  constructor
  · have hn : (m.entrymap.items.map (·.2)).Nodup := by
      have hi : m.entrymap.items.Nodup := by
        have := h.store.nodup
        unfold Dict.keys at this
        exact List.Nodup.of_map _ this
      refine List.Nodup.map_on ?_ hi
      rintro ⟨k, n⟩ h1 ⟨k', n'⟩ h2 heq
      simp only at heq
      subst heq
      rw [Dict.mem_items_iff _ h.store.nodup] at h1 h2
      rw [h.store.inj k k' n h1 h2]
    have := (List.Nodup.subperm hn (l₂ := List.range m.elements.length) ?_).length_le
    · simpa using this
    · intro n hm
      obtain ⟨⟨k, n'⟩, h1, rfl⟩ := List.mem_map.1 hm
      rw [Dict.mem_items_iff _ h.store.nodup] at h1
      exact List.mem_range.2 (h.store.bound k n' h1)
  · rw [h.graph]
    unfold edges
    refine le_sum_nat _ _ (List.mem_map.2 ⟨.node (Expr.listH :: m.elements), ?_, rfl⟩)
    exact mem_distinct.2 (argSub_refl _)

theorem dropLast_sum (l : List (Expr × List Nat)) :
    (l.dropLast.map (fun o => o.2.length)).sum ≤ (l.map (fun o => o.2.length)).sum := by
  induction l with
  | nil => exact Nat.le_refl _
  | cons o l ih =>
    cases l with
    | nil => exact Nat.zero_le _
    | cons o' l =>
      simp only [List.dropLast_cons_cons, List.map_cons, List.sum_cons] at ih ⊢
      omega

theorem log_mono {a b : Nat} (h : a ≤ b) : a * (a.log2 + 1) ≤ b * (b.log2 + 1) := by
  refine Nat.mul_le_mul h (Nat.add_le_add_right ?_ _)
  by_cases ha : a = 0
  · subst ha; simp
  · rw [Nat.le_log2 (by omega)]
    exact Nat.le_trans (Nat.log2_self_le ha) h

/-- **C66, matrices.** The code for a matrix takes time linear in the graph of all its entries and in
the number of parameters, with a search through the parameters for each distinct atom, and the time
for sorting the stored entries. -/
theorem C66_to_llvm_matrix (symargs : List Expr) (m : Mat) :
    (timedToLlvmMatrix symargs m).result = toLlvmMatrix symargs m ∧
    (MatHistory m → (timedToLlvmMatrix symargs m).steps ≤ 3 + 2 * symargs.length +
      19 * nodes m.elementsGraph + 36 * edges m.elementsGraph +
      symargs.length * leafCount m.elementsGraph +
      m.elements.length * (m.elements.length.log2 + 1)) := by
  refine ⟨toLlvmMatrix_time_result symargs m, fun hm => ?_⟩
  obtain ⟨w1, w2⟩ := wf_items (history_wf hm)
  have w3 := log_mono w1
  unfold timedToLlvmMatrix
  generalize m.elementsGraph = e at *
  obtain ⟨b1, b2⟩ := C66_bin_expand e
  cases hu : binExpand e with
  | error err =>
    rw [hu] at b1
    generalize timedBinExpand e = y at *
    obtain ⟨r, n⟩ := y
    simp only at b1 b2
    subst b1
    simp only [timed_bind_error]
    rw [Nat.mul_add] at b2
    omega
  | ok u =>
    rw [hu] at b1
    have hn := C56_bin_expand e u hu
    rw [countOpsGraph_eq, countOpsGraph_eq] at hn
    have hedge := C56_bin_expand_edges e u hu
    generalize timedBinExpand e = y at *
    obtain ⟨r, n⟩ := y
    simp only at b1 b2
    subst b1
    simp only [timed_bind_ok]
    obtain ⟨g1, g2⟩ := timedGraph_eq u
    obtain ⟨g, hg⟩ : ∃ g, forwardGraph u = .ok g := ⟨_, forwardGraph_eq u⟩
    obtain ⟨h3, h4⟩ := graph_shape hg
    have hleaf := leaf_count hu hg
    rw [hg] at g1
    generalize timedGraph u = y at *
    obtain ⟨r, n'⟩ := y
    simp only at g1 g2
    subst g1
    simp only [timed_bind_ok, timed_tick_bind]
    have hmul : symargs.length * g.atoms.length ≤ symargs.length * leafCount e :=
      Nat.mul_le_mul (Nat.le_refl _) hleaf
    have hd := dropLast_sum g.operations
    rw [h4] at hd
    have hdl : g.operations.dropLast.length ≤ g.operations.length := by
      rw [List.length_dropLast]; omega
    refine Nat.le_trans (Nat.add_le_add_left (Nat.add_le_add_left (Nat.add_le_add_left
      (m := (1 + symargs.length) * g.atoms.length + (symargs.length + (g.operations.length +
        ((2 * g.operations.length + 2 * edges u) +
          (m.entrymap.items.length * (m.entrymap.items.length.log2 + 1) +
            (3 * m.entrymap.items.length + (1 + (g.operations.length +
              2 * m.entrymap.items.length)))))))) ?_ _) _) _) ?_
    · cases llvmArgnames symargs with
      | error err => exact Nat.zero_le _
      | ok argnames =>
        simp only [timed_free_ok, timed_bind_ok, Nat.zero_add]
        refine timed_bind_steps_le _ _ _ _ (timedAtoms_steps symargs argnames g.atoms) ?_
        intro ids _
        cases symargs.mapM argnames.getItem with
        | error err => simp only [timed_free_error, timed_bind_error]; omega
        | ok params =>
          simp only [timed_free_ok, timed_bind_ok, Nat.zero_add]
          refine Nat.add_le_add_left (Nat.add_le_add_left ?_ _) _
          refine timed_bind_steps_le _ _ _ _
            (Nat.le_trans (timedLlvmOps_steps g.operations.dropLast ids []) (by omega)) ?_
          rintro ⟨ids', ins⟩ hr
          rw [timedLlvmOps_result] at hr
          have hlen := opsLoop_length g.operations.dropLast ids [] _ hr
          simp only [List.length_nil, Nat.zero_add] at hlen
          cases pyLast g.operations with
          | error err => simp only [timed_free_error, timed_bind_error]; omega
          | ok q =>
            obtain ⟨f, is⟩ := q
            simp only [timed_free_ok, timed_bind_ok, Nat.zero_add]
            refine Nat.add_le_add_left ?_ _
            refine timed_bind_steps_le _ _ _ _ (Nat.le_trans (timedStores_steps ..) ?_) ?_
            · rw [List.length_mergeSort]
            · intro ins' hs
              rw [timedStores_result] at hs
              have hl := storeLoop_length _ _ _ _ _ _ _ hs
              rw [List.length_mergeSort] at hl
              simp only [timed_pure]
              omega
    rw [Nat.add_mul, Nat.one_mul]
    omega

/-- **C66, matrix derivatives.** Linear in the graph of all the entries, however many there are. -/
theorem C66_matrix_diff (m : Mat) (x : Expr) :
    (timedMatDiff m x builtinDiff).result = m.diff (.expr x) ∧
    (MatHistory m → ∀ k, FactorsAtMost simplecasTable k m.elementsGraph →
      (timedMatDiff m x builtinDiff).steps ≤
        3 + 12 * nodes m.elementsGraph + (2 * k + 54) * edges m.elementsGraph) := by
  obtain ⟨h1, h2⟩ := C66_diff_builtin m.elementsGraph x
  refine ⟨?_, fun hm k hk => ?_⟩
  · unfold timedMatDiff timedMatMk Mat.diff
    simp only [timed_bind_result, h1, timed_tick_bind]
    rfl
  · have hw := history_wf hm
    obtain ⟨_, w2⟩ := wf_items hw
    have h2 := h2 k hk
    unfold timedMatDiff timedMatMk
    have := timed_bind_steps_le (timedDiff m.elementsGraph x builtinDiff) (fun elementsDiff =>
      (do
        let args := elementsDiff.children.drop 1
        tick args.length
        tick args.length
        tick args.length
        tick args.length
        tick (1 + (args.length + 1))
        return Mat.mk' m.nrows m.ncols args m.entrymap : Timed Mat)) _ (5 * edges m.elementsGraph + 2) h2 ?_
    · refine Nat.le_trans this ?_
      have e1 : (2 * k + 54) * edges m.elementsGraph = (2 * k + 49) * edges m.elementsGraph +
        5 * edges m.elementsGraph := by rw [← Nat.add_mul]
      omega
    · intro d hd
      rw [h1] at hd
      have hmd : m.diff (.expr x) = .ok (Mat.mk' m.nrows m.ncols (d.children.drop 1) m.entrymap) := by
        show (Expr.diff m.elementsGraph x).bind (fun d => .ok (Mat.mk' m.nrows m.ncols
          (d.children.drop 1) m.entrymap)) = _
        rw [hd]; rfl
      have hlen : (d.children.drop 1).length = m.elements.length := by
        obtain ⟨ds, hds, hall, _⟩ := (diff_wf hw (by decide +kernel) x _).1 hmd
        have := congrArg Mat.elements hds
        simp only [Mat.mk'] at this
        rw [this, hall]
      simp only [timed_tick_bind, timed_pure, hlen]
      omega

theorem timedBinopLoop_result (els : List Expr) (f : Expr) (l : List ((Nat × Nat) × Nat))
    (s : List Expr × Dict (Nat × Nat) Nat) :
    (timedBinopLoop els f l s).result = Mat.binopLoop els f l s := by
  induction l generalizing s with
  | nil => rfl
  | cons q l ih =>
    obtain ⟨ij, n⟩ := q
    obtain ⟨es, em⟩ := s
    simp only [timedBinopLoop, Mat.binopLoop, timed_tick_bind]
    cases em.get? ij with
    | none => simp only [timed_bind_result, free_result, ih]
    | some k => simp only [timed_bind_result, free_result, timed_tick_bind, ih]

theorem timedBinopLoop_steps (els : List Expr) (f : Expr) (l : List ((Nat × Nat) × Nat))
    (s : List Expr × Dict (Nat × Nat) Nat) : (timedBinopLoop els f l s).steps ≤ 5 * l.length := by
  induction l generalizing s with
  | nil => exact Nat.zero_le _
  | cons q l ih =>
    obtain ⟨ij, n⟩ := q
    obtain ⟨es, em⟩ := s
    simp only [timedBinopLoop, timed_tick_bind, List.length_cons]
    cases em.get? ij with
    | none =>
      simp only
      cases pyGet els n with
      | error err => simp only [timed_free_error, timed_bind_error]; omega
      | ok e =>
        simp only [timed_free_ok, timed_bind_ok]
        have := ih (es ++ [e], em.set ij es.length)
        omega
    | some k =>
      simp only
      cases pyGet es k with
      | error err => simp only [timed_free_error, timed_bind_error]; omega
      | ok a =>
        simp only [timed_free_ok, timed_bind_ok]
        cases pyGet els n with
        | error err => simp only [timed_free_error, timed_bind_error]; omega
        | ok b =>
          simp only [timed_free_ok, timed_bind_ok]
          cases pySet es k (f.call [a, b]) with
          | error err => simp only [timed_free_error, timed_bind_error]; omega
          | ok es' =>
            simp only [timed_free_ok, timed_bind_ok]
            have := ih (es', em)
            omega

theorem binopLoop_length (els : List Expr) (f : Expr) (l : List ((Nat × Nat) × Nat))
    (s r : List Expr × Dict (Nat × Nat) Nat) (h : Mat.binopLoop els f l s = .ok r) :
    r.1.length ≤ s.1.length + l.length := by
  induction l generalizing s with
  | nil => rw [Mat.binopLoop] at h; cases h; exact Nat.le_refl _
  | cons q l ih =>
    obtain ⟨ij, n⟩ := q
    obtain ⟨es, em⟩ := s
    rw [Mat.binopLoop] at h
    simp only [bind, Except.bind] at h
    split at h
    · split at h
      · cases h
      · split at h
        · cases h
        · split at h
          · cases h
          · rename_i es' hs
            have := ih _ h
            unfold pySet at hs
            split at hs
            · cases hs
              simp only [List.length_set, List.length_cons] at this ⊢
              omega
            · cases hs
    · split at h
      · cases h
      · have := ih _ h
        simp only [List.length_append, List.length_cons, List.length_nil] at this ⊢
        omega

/-- **C66, matrix addition** (and any elementwise operation): linear in the number of stored entries. -/
theorem C66_matrix_binop (a b : Mat) (f : Expr) :
    (timedBinop a b f).result = a.binop b f ∧
    (MatHistory a → MatHistory b →
      (timedBinop a b f).steps ≤ 2 + 4 * a.elements.length + 7 * b.elements.length) := by
  constructor
  · unfold timedBinop Mat.binop timedMatMk
    split
    · rfl
    · simp only [timed_bind_result, timed_tick_bind, timedBinopLoop_result]
      rfl
  · intro ha hb
    obtain ⟨a1, _⟩ := wf_items (history_wf ha)
    obtain ⟨b1, _⟩ := wf_items (history_wf hb)
    unfold timedBinop timedMatMk
    split
    · exact Nat.zero_le _
    · simp only [timed_tick_bind]
      have h := timed_bind_steps_le
        (timedBinopLoop b.elements f b.entrymap.items (a.elements, a.entrymap)) (fun s =>
          (⟨.ok (Mat.mk' a.nrows a.ncols s.1 s.2), s.1.length + (1 + (s.1.length + 1))⟩ : Timed Mat))
        _ (2 + 2 * (a.elements.length + b.elements.length)) (timedBinopLoop_steps ..) ?_
      · have h' : (timedBinopLoop b.elements f b.entrymap.items (a.elements, a.entrymap) >>= fun s =>
          (⟨.ok (Mat.mk' a.nrows a.ncols s.1 s.2), s.1.length + (1 + (s.1.length + 1))⟩ :
            Timed Mat)).steps ≤ 2 + 2 * a.elements.length + 7 * b.elements.length := by omega
        refine Nat.le_trans (Nat.add_le_add_left (Nat.add_le_add_left h' _) _) ?_
        omega
      · intro s hs
        rw [timedBinopLoop_result] at hs
        have := binopLoop_length _ _ _ _ _ hs
        simp only at this ⊢
        omega

/-- The bound `k` exists for every expression and every table. -/
theorem factorsAtMost_exists (T : DiffTable) (e : Expr) : ∃ k, FactorsAtMost T k e := by
  obtain ⟨k, hk⟩ := exists_argsAtMost e
  exact ⟨k, fun h args hs => .inr (.inr (by simpa [kids] using hk _ hs))⟩

/-- `Matrix([[x, 0], [2, x*y + 1]])`: the list of its entries has 7 nodes and 7 edges. -/
example : MatHistory sampleMat ∧ FactorsAtMost simplecasTable 2 sampleMat.elementsGraph ∧
    nodes sampleMat.elementsGraph = 7 ∧ edges sampleMat.elementsGraph = 7 ∧
    (timedMatDiff sampleMat (Expr.symbol "x") builtinDiff).steps = 131 ∧
    (timedBinop sampleMat sampleMat Expr.addH).steps = 29 := by
  refine ⟨sampleMat_compiles.1, ?_, by decide +kernel, by decide +kernel, by decide +kernel,
    by decide +kernel⟩
  have h : ∀ t ∈ distinct sampleMat.elementsGraph, t.children.headD t = Expr.listH ∨
      (kids false t).length ≤ 2 := by decide +kernel
  intro hd args hs
  rcases h _ (mem_distinct.2 hs) with h | h
  · exact .inl (by
      have : hd = Expr.listH := h
      subst this
      simp [DiffTable.Distributive, simplecasTable])
  · exact .inr (.inr (by simpa [kids] using h))

end Verif.Props
