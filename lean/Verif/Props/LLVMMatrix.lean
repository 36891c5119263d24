import Verif.Props.LLVM
import Verif.Props.Matrix
import Mathlib.Tactic.IntervalCases

/-!
# C36: LLVM code for matrices
-/

set_option linter.unusedSectionVars false
set_option linter.unusedSimpArgs false
set_option exponentiation.threshold 2000

namespace Verif.Props
open Spec Expr

/-! ### The generated code in closed form -/

/-- The instructions that store the entries. -/
def storeCode (ncols : Nat) (value : Nat → String) : Nat → List ((Nat × Nat) × Nat) → List Instr
  | _, [] => []
  | c, ((i, j), n) :: rest =>
    .gep (regName c) outName (i * ncols + j) :: .store (value n) (regName c) ::
      storeCode ncols value (c + 1) rest

theorem llvmStoreLoop_eq (ncols : Nat) (ids : List String) (indices : List Nat)
    (value : Nat → String) : ∀ (entries : List ((Nat × Nat) × Nat)) (c : Nat) (instrs : List Instr),
    (∀ p ∈ entries, (pyGet indices p.2 >>= fun k => pyGet ids k) = .ok (value p.2)) →
    llvmStoreLoop ncols ids indices c instrs entries =
      .ok (instrs ++ storeCode ncols value c entries) := by
  intro entries
  induction entries with
  | nil => intro c instrs _; simp [llvmStoreLoop, storeCode]
  | cons p rest ih =>
    intro c instrs h
    obtain ⟨⟨i, j⟩, n⟩ := p
    have h1 := h ((i, j), n) (by simp)
    simp only at h1
    unfold llvmStoreLoop
    simp only
    cases hk : pyGet indices n with
    | error err => rw [hk] at h1; cases h1
    | ok k =>
      rw [hk] at h1
      have h2 : pyGet ids k = .ok (value n) := h1
      simp only [bind, Except.bind, h2]
      rw [ih _ _ (fun q hq => h q (by simp [hq]))]
      simp [storeCode]

/-- The sorted entries of a matrix. -/
def sortedEntries (m : Mat) : List ((Nat × Nat) × Nat) := m.entrymap.items.mergeSort entryLe

theorem mem_sortedEntries {m : Mat} (h : MatWF m) (p : (Nat × Nat) × Nat) :
    p ∈ sortedEntries m ↔ m.entrymap.get? p.1 = some p.2 := by
  unfold sortedEntries
  rw [(List.mergeSort_perm _ _).mem_iff]
  exact m.entrymap.mem_items_iff h.store.nodup p.1 p.2

theorem sortedEntries_nodup {m : Mat} (h : MatWF m) : ((sortedEntries m).map Prod.fst).Nodup := by
  unfold sortedEntries
  exact ((List.mergeSort_perm _ _).map Prod.fst).nodup_iff.2 h.store.nodup

/-- All the compound subexpressions of the elements, in graph order. -/
def elementNodes (us : List Expr) : List Expr := (graphNodes (.node (listH :: us))).dropLast

theorem graphNodes_list (us : List Expr) :
    graphNodes (.node (listH :: us)) = elementNodes us ++ [.node (listH :: us)] := by
  unfold elementNodes
  set u : Expr := .node (listH :: us) with hu
  obtain ⟨l, hl⟩ := graphOrder_last u
  have hmem : u ∈ graphNodes u := by
    have h1 : u ∈ graphOrder u := by rw [hl]; simp
    rw [graphOrder_split] at h1
    rcases List.mem_append.1 h1 with h | h
    · have := graphAtoms_leaf h
      rw [hu] at this; cases this
    · exact h
  have hne : graphNodes u ≠ [] := List.ne_nil_of_mem hmem
  have hlast : (graphNodes u).getLast hne = u := by
    have h2 : (graphOrder u).getLast? = some u := by rw [hl]; simp
    rw [graphOrder_split, List.getLast?_append, List.getLast?_eq_some_getLast hne] at h2
    simpa using h2
  conv_lhs => rw [← List.dropLast_append_getLast hne, hlast]

theorem arg_mem_nodes {us : List Expr} {c : Expr} (hc : c ∈ us) :
    c ∈ graphAtoms (.node (listH :: us)) ++ elementNodes us := by
  refine argsFirst_graphOrder (.node (listH :: us)) _ (.node (listH :: us)) [] ?_ c hc
  rw [graphOrder_split, graphNodes_list]; simp

theorem binExpand_list {els us : List Expr} (h : BinExpandsAll els us) :
    binExpand (.node (listH :: els)) = .ok (.node (listH :: us)) := by
  rw [C20_bin_expand_nests]
  exact .other (by unfold IsAssocHead; decide) h

theorem binExpand_list_inv {els : List Expr} {u : Expr}
    (h : binExpand (.node (listH :: els)) = .ok u) :
    ∃ us, u = .node (listH :: us) ∧ BinExpandsAll els us := by
  rw [C20_bin_expand_nests] at h
  cases h with
  | other _ h => exact ⟨_, rfl, h⟩
  | nest h _ => exact absurd h (by unfold IsAssocHead; decide)

theorem binExpandsAll_length {els us : List Expr} (h : BinExpandsAll els us) :
    els.length = us.length := by
  induction els generalizing us with
  | nil => cases h; rfl
  | cons t ts ih => cases h with | cons _ h => simp [ih h]

theorem binExpandsAll_get {els us : List Expr} (h : BinExpandsAll els us) {n : Nat} {e : Expr}
    (he : els[n]? = some e) : ∃ u, us[n]? = some u ∧ BinExpands e u := by
  induction els generalizing us n with
  | nil => simp at he
  | cons t ts ih =>
    cases h with
    | cons h1 h2 =>
      cases n with
      | zero => simp at he; subst he; exact ⟨_, rfl, h1⟩
      | succ n => simpa using ih h2 (by simpa using he)

/-- The operand for element number `n`. -/
def elementId (symargs us : List Expr) (n : Nat) : String :=
  ((us[n]?).map (identOf symargs (graphNodes (.node (listH :: us))))).getD ""

/-- The generated function. -/
def matrixFn (symargs : List Expr) (m : Mat) (us : List Expr) : IRFunction :=
  ⟨true, symargs.map nameOf,
    (elementNodes us).map (instrOf symargs (graphNodes (.node (listH :: us)))) ++
      storeCode m.ncols (elementId symargs us) (elementNodes us).length (sortedEntries m) ++
      [.retVoid]⟩

theorem toLlvmMatrix_eq (symargs : List Expr) (names : List String) (m : Mat) (us : List Expr)
    (hn : symargs.mapM treeStr = .ok names) (hw : MatWF m) (hus : BinExpandsAll m.elements us) :
    toLlvmMatrix symargs m =
      ((graphAtoms (.node (listH :: us)) ++ elementNodes us).mapM (check symargs) >>= fun _ =>
        .ok (matrixFn symargs m us)) := by
  obtain ⟨d, hd1, hd2, _⟩ := argnames_ok symargs names hn
  have hsplit := graphNodes_list us
  have harg : ∀ c ∈ us, _ := fun c hc => arg_mem_nodes hc
  unfold toLlvmMatrix matrixFn
  rw [hw.graph, binExpand_list hus]
  have hid : ∀ n, elementId symargs us n =
      ((us[n]?).map (identOf symargs (graphNodes (.node (listH :: us))))).getD "" := fun _ => rfl
  generalize hgen : elementId symargs us = value at hid ⊢
  generalize hu : (Tree.node (listH :: us) : Expr) = u at hsplit harg hid ⊢
  have hargs : argsOf u = us := by rw [← hu]; rfl
  simp only [forwardGraph_eq, hd1, bind, Except.bind]
  rw [show (topologicalSort false [] u).filter isLeaf = graphAtoms u from rfl,
    show (topologicalSort false [] u).filter (fun t => !isLeaf t) = graphNodes u from rfl]
  rw [atoms_mapM symargs d (graphNodes u) (graphAtoms u) hd2 (fun t ht => graphAtoms_leaf ht),
    List.mapM_append]
  cases (graphAtoms u).mapM (check symargs) with
  | error err => rfl
  | ok us' =>
    simp only [bind, Except.bind]
    rw [mapM_getItem_names symargs symargs d hd2 (fun _ h => h)]
    have hloop := llvmOpsLoop_eq symargs (graphOrder u) (graphAtoms u) (graphNodes u) rfl
      (graphNodes_nodup u) (argsFirst_graphOrder u) (fun t ht => graphNodes_node ht)
      (elementNodes us) [] [u] (by rw [hsplit]; simp)
    simp only [List.append_nil, List.map_nil, List.nil_append] at hloop
    have hdrop : ((graphNodes u).map (opOf (graphOrder u))).dropLast =
        (elementNodes us).map (opOf (graphOrder u)) := by rw [hsplit]; simp
    have hlast : pyLast ((graphNodes u).map (opOf (graphOrder u))) = .ok (opOf (graphOrder u) u) := by
      conv_lhs => rw [hsplit]
      simp [pyLast]
    simp only [← graphOrder_split]
    rw [hdrop, hloop, hlast]
    cases (elementNodes us).mapM (check symargs) with
    | error err => rfl
    | ok us'' =>
      simp only [bind, Except.bind, pure, Except.pure]
      rw [llvmStoreLoop_eq _ _ _ value, List.length_map]
      · rfl
      · intro p hp
        have hb := hw.store.bound p.1 p.2 ((mem_sortedEntries hw p).1 hp)
        rw [binExpandsAll_length hus] at hb
        have hget : us[p.2]? = some us[p.2] := List.getElem?_eq_getElem hb
        have hmem := harg us[p.2] (List.getElem_mem hb)
        rw [hid, hget]
        have h1 : pyGet (opOf (graphOrder u) u).2 p.2 = .ok ((graphOrder u).idxOf us[p.2]) := by
          unfold opOf; rw [hargs]
          simp [pyGet, hget]
        rw [h1]
        simp only [bind, Except.bind]
        have h2 : (graphOrder u).idxOf us[p.2] = (graphAtoms u ++ elementNodes us).idxOf us[p.2] := by
          rw [graphOrder_split, hsplit, ← List.append_assoc, List.idxOf_append]
          simp [hmem]
        rw [h2]
        unfold pyGet
        rw [List.getElem?_map, idxOf_getElem? hmem]
        rfl

/-! ### Running the stores -/

section
variable {F : Type}

theorem run_stores (A : IRArith F) (ncols : Nat) (value : Nat → String) (val : Nat → F) :
    ∀ (entries : List ((Nat × Nat) × Nat)) (c : Nat) (st : IRState F),
    Dict.lookup outName st.regs = some (.ptr 0) →
    (∀ r ∈ st.regs.map Prod.fst, ∀ k, c ≤ k → k < c + entries.length → r ≠ regName k) →
    (∀ p ∈ entries, operandNum A st.regs (value p.2) = some (val p.2)) →
    (∀ p ∈ entries, p.1.1 * ncols + p.1.2 < st.mem.length ∧ p.1.1 * ncols + p.1.2 < 2 ^ 31) →
    ∃ st', (storeCode ncols value c entries).foldlM (stepInstr A) st = some st' ∧
      st'.mem = entries.foldl (fun mem p => mem.set (p.1.1 * ncols + p.1.2) (val p.2)) st.mem := by
  intro entries
  induction entries with
  | nil => intro c st _ _ _ _; exact ⟨st, rfl, rfl⟩
  | cons p rest ih =>
    intro c st hout hfresh hval hin
    obtain ⟨⟨i, j⟩, n⟩ := p
    have hf : regName c ∉ st.regs.map Prod.fst := fun hm =>
      hfresh _ hm c (le_refl _) (by simp) rfl
    obtain ⟨hin1, hin2⟩ := hin ((i, j), n) (by simp)
    simp only at hin1 hin2
    have hv := hval ((i, j), n) (by simp)
    simp only at hv
    have hstep1 : stepInstr A st (.gep (regName c) outName (i * ncols + j)) =
        some { st with regs := (regName c, .ptr (0 + (i * ncols + j))) :: st.regs } := by
      simp only [stepInstr, hout, hin2, if_true, define, hf, if_false]
    have hstep2 : stepInstr A { st with regs := (regName c, .ptr (0 + (i * ncols + j))) :: st.regs }
        (.store (value n) (regName c)) =
        some ⟨(regName c, .ptr (0 + (i * ncols + j))) :: st.regs,
          st.mem.set (i * ncols + j) (val n)⟩ := by
      simp only [stepInstr, operandNum_define hf hv, bind, Option.bind, Dict.lookup, if_true,
        Nat.zero_add, hin1]
    obtain ⟨st', h1, h2⟩ := ih (c + 1) ⟨(regName c, .ptr (0 + (i * ncols + j))) :: st.regs,
          st.mem.set (i * ncols + j) (val n)⟩
      (by
        have hne : regName c ≠ outName := by
          intro he
          apply hf
          rw [he]
          exact lookup_mem_keys hout
        simp only [Dict.lookup, hne, if_false]
        exact hout)
      (by
        intro r hr k hk1 hk2 he
        simp only [List.map_cons, List.mem_cons] at hr
        rcases hr with rfl | hr
        · have := regName_inj he; omega
        · exact hfresh r hr k (by omega) (by simp only [List.length_cons]; omega) he)
      (fun q hq => operandNum_define hf (hval q (by simp [hq])))
      (fun q hq => by
        have := hin q (by simp [hq])
        simpa using this)
    refine ⟨st', ?_, ?_⟩
    · unfold storeCode
      rw [List.foldlM_cons, hstep1]
      simp only [bind, Option.bind]
      rw [List.foldlM_cons, hstep2]
      exact h1
    · rw [h2]; rfl

theorem foldl_set_length {α β : Type} (idx : α → Nat) (val : α → β) : ∀ (l : List α) (mem : List β),
    (l.foldl (fun mem p => mem.set (idx p) (val p)) mem).length = mem.length := by
  intro l
  induction l with
  | nil => intro mem; rfl
  | cons p l ih => intro mem; rw [List.foldl_cons, ih]; simp

theorem foldl_set_get {α β : Type} (idx : α → Nat) (val : α → β) : ∀ (l : List α) (mem : List β),
    (l.map idx).Nodup →
    (∀ p ∈ l, idx p < mem.length →
      (l.foldl (fun mem p => mem.set (idx p) (val p)) mem)[idx p]? = some (val p)) ∧
    (∀ k, k ∉ l.map idx →
      (l.foldl (fun mem p => mem.set (idx p) (val p)) mem)[k]? = mem[k]?) := by
  intro l
  induction l with
  | nil => intro mem _; exact ⟨fun p hp => (by cases hp), fun k _ => rfl⟩
  | cons q l ih =>
    intro mem hnd
    rw [List.map_cons, List.nodup_cons] at hnd
    obtain ⟨h1, h2⟩ := ih (mem.set (idx q) (val q)) hnd.2
    constructor
    · intro p hp hlt
      rw [List.foldl_cons]
      rcases List.mem_cons.1 hp with rfl | hp
      · rw [h2 _ hnd.1]
        simp [hlt]
      · exact h1 p hp (by simpa using hlt)
    · intro k hk
      rw [List.foldl_cons, h2 k (fun h => hk (by simp [h]))]
      have : idx q ≠ k := fun he => hk (by simp [he])
      simp [List.getElem?_set, this]

end

/-! ### Static rules -/

/-- Every use is a constant, known before, or defined earlier in the code. -/
def UsesOK (known : List String) (code : List Instr) : Prop :=
  ∀ pre i post, code = pre ++ i :: post → ∀ u ∈ Instr.uses i,
    IsConst u ∨ u ∈ known ∨ u ∈ pre.filterMap Instr.defs

theorem usesOK_append {known : List String} {c1 c2 : List Instr} (h1 : UsesOK known c1)
    (h2 : UsesOK (known ++ c1.filterMap Instr.defs) c2) : UsesOK known (c1 ++ c2) := by
  intro pre i post hsplit u hu
  rcases List.append_eq_append_iff.1 hsplit with ⟨a, ha, hb⟩ | ⟨a, ha, hb⟩
  · subst ha
    rw [List.filterMap_append]
    rcases h2 a i post hb u hu with h | h | h
    · exact Or.inl h
    · rcases List.mem_append.1 h with h | h
      · exact Or.inr (Or.inl h)
      · exact Or.inr (Or.inr (by simp [h]))
    · exact Or.inr (Or.inr (by simp [h]))
  · cases a with
    | nil =>
      simp only [List.nil_append] at hb
      simp only [List.append_nil] at ha
      subst ha
      rcases h2 [] i post hb.symm u hu with h | h | h
      · exact Or.inl h
      · rcases List.mem_append.1 h with h | h
        · exact Or.inr (Or.inl h)
        · exact Or.inr (Or.inr h)
      · cases h
    | cons b a =>
      simp only [List.cons_append, List.cons.injEq] at hb
      obtain ⟨rfl, _⟩ := hb
      exact h1 pre i a ha u hu

theorem usesOK_one {known : List String} {i : Instr}
    (h : ∀ u ∈ Instr.uses i, IsConst u ∨ u ∈ known) : UsesOK known [i] := by
  intro pre j post hsplit u hu
  cases pre with
  | nil =>
    simp only [List.nil_append, List.cons.injEq] at hsplit
    obtain ⟨rfl, _⟩ := hsplit
    rcases h u hu with h | h
    · exact Or.inl h
    · exact Or.inr (Or.inl h)
  | cons a pre => simp at hsplit

theorem usesOK_mono {known known' : List String} {code : List Instr}
    (hk : ∀ u ∈ known, u ∈ known') (h : UsesOK known code) : UsesOK known' code := by
  intro pre i post hsplit u hu
  rcases h pre i post hsplit u hu with h | h | h
  · exact Or.inl h
  · exact Or.inr (Or.inl (hk u h))
  · exact Or.inr (Or.inr h)

theorem storeCode_defs (ncols : Nat) (value : Nat → String) :
    ∀ (entries : List ((Nat × Nat) × Nat)) (c : Nat),
    (storeCode ncols value c entries).filterMap Instr.defs =
      (List.range' c entries.length).map regName := by
  intro entries
  induction entries with
  | nil => intro c; rfl
  | cons p rest ih =>
    intro c
    obtain ⟨⟨i, j⟩, n⟩ := p
    unfold storeCode
    rw [List.filterMap_cons_some (show Instr.defs (Instr.gep (regName c) outName (i * ncols + j)) =
        some (regName c) from rfl), List.filterMap_cons_none rfl, ih, List.length_cons,
      List.range'_succ, List.map_cons]

theorem storeCode_uses (ncols : Nat) (value : Nat → String) :
    ∀ (entries : List ((Nat × Nat) × Nat)) (c : Nat) (known : List String), outName ∈ known →
    (∀ p ∈ entries, IsConst (value p.2) ∨ value p.2 ∈ known) →
    UsesOK known (storeCode ncols value c entries) := by
  intro entries
  induction entries with
  | nil =>
    intro c known _ _ pre i post h
    cases pre <;> simp [storeCode] at h
  | cons p rest ih =>
    intro c known hout hval
    obtain ⟨⟨i, j⟩, n⟩ := p
    unfold storeCode
    refine usesOK_append (c1 := [_]) (usesOK_one ?_) ?_
    · intro u hu
      simp only [Instr.uses, List.mem_singleton] at hu
      subst hu; exact Or.inr hout
    · refine usesOK_append (c1 := [_]) (usesOK_one ?_) ?_
      · intro u hu
        simp only [Instr.uses, List.mem_cons, List.not_mem_nil, or_false] at hu
        rcases hu with rfl | rfl
        · rcases hval ((i, j), n) (by simp) with h | h
          · exact Or.inl h
          · exact Or.inr (List.mem_append_left _ h)
        · exact Or.inr (List.mem_append_right _ (by simp [Instr.defs]))
      · refine ih (c + 1) _ (by simp [hout]) (fun q hq => ?_)
        rcases hval q (by simp [hq]) with h | h
        · exact Or.inl h
        · exact Or.inr (by simp [h])

theorem storeCode_arity (ncols : Nat) (value : Nat → String) :
    ∀ (entries : List ((Nat × Nat) × Nat)) (c : Nat), ∀ i ∈ storeCode ncols value c entries,
      Instr.ArityOK i ∧ ¬ Instr.IsRet i := by
  intro entries
  induction entries with
  | nil => intro c i hi; cases hi
  | cons p rest ih =>
    intro c i hi
    obtain ⟨⟨a, b⟩, n⟩ := p
    simp only [storeCode, List.mem_cons] at hi
    rcases hi with rfl | rfl | hi
    · exact ⟨trivial, fun h => h⟩
    · exact ⟨trivial, fun h => h⟩
    · exact ih (c + 1) i hi

/-- What successful code generation says. -/
theorem toLlvmMatrix_inv {symargs : List Expr} {m : Mat} {fn : IRFunction} (hw : MatWF m)
    (h : toLlvmMatrix symargs m = .ok fn) :
    ∃ names us, symargs.mapM treeStr = .ok names ∧ BinExpandsAll m.elements us ∧
      (∀ t ∈ graphAtoms (.node (listH :: us)) ++ elementNodes us, check symargs t = .ok ()) ∧
      fn = matrixFn symargs m us := by
  cases hu : binExpand m.elementsGraph with
  | error err => unfold toLlvmMatrix at h; rw [hu] at h; cases h
  | ok u =>
    have hu' := hu
    rw [hw.graph] at hu'
    obtain ⟨us, rfl, hus⟩ := binExpand_list_inv hu'
    cases hn : symargs.mapM treeStr with
    | error err =>
      unfold toLlvmMatrix at h
      simp only [hu, forwardGraph_eq, argnames_error hn, bind, Except.bind] at h; cases h
    | ok names =>
      rw [toLlvmMatrix_eq symargs names m us hn hw hus] at h
      cases hm : (graphAtoms (.node (listH :: us)) ++ elementNodes us).mapM (check symargs) with
      | error err => rw [hm] at h; cases h
      | ok ws =>
        rw [hm] at h
        refine ⟨names, us, rfl, hus, ?_, (Except.ok.inj h).symm⟩
        intro t ht
        obtain ⟨w, hw⟩ := mapM_ok_mem _ _ _ hm t ht
        rw [hw]

theorem matrix_binary {els us : List Expr} (h : BinExpandsAll els us) (t : Expr)
    (ht : t ∈ elementNodes us) : IsAssocHead (headOf t) → (argsOf t).length = 2 := by
  have ht' : t ∈ graphNodes (.node (listH :: us)) := by rw [graphNodes_list]; simp [ht]
  exact binary_sub (binExpand_list h)
    (mem_graphOrder.1 (by rw [graphOrder_split]; exact List.mem_append_right _ ht'))
    (graphNodes_node ht')

theorem matrix_nodes_static {symargs els us : List Expr} (h : BinExpandsAll els us)
    (hck : ∀ t ∈ graphAtoms (.node (listH :: us)) ++ elementNodes us, check symargs t = .ok ()) :
    NodesStatic symargs (elementNodes us).length
      ((elementNodes us).map (instrOf symargs (graphNodes (.node (listH :: us))))) :=
  nodes_static (elementNodes us) [.node (listH :: us)] (graphNodes_list us) hck
    (fun t ht => matrix_binary h t ht)

theorem matrix_defs {symargs : List Expr} {m : Mat} {us : List Expr}
    (hus : BinExpandsAll m.elements us)
    (hck : ∀ t ∈ graphAtoms (.node (listH :: us)) ++ elementNodes us, check symargs t = .ok ()) :
    (matrixFn symargs m us).body.filterMap Instr.defs =
      (List.range ((elementNodes us).length + (sortedEntries m).length)).map regName := by
  have hst := matrix_nodes_static hus hck
  unfold matrixFn
  simp only
  rw [List.filterMap_append, List.filterMap_append, hst.defs, storeCode_defs]
  rw [show [Instr.retVoid].filterMap Instr.defs = [] from rfl, List.append_nil, ← List.map_append]
  congr 1
  rw [List.range_eq_range', List.range_eq_range']
  have := List.range'_append_1 (s := 0) (m := (elementNodes us).length)
    (n := (sortedEntries m).length)
  rw [Nat.zero_add] at this
  exact this

theorem outName_ne_reg (i : Nat) : outName ≠ regName i := by
  intro h
  have h' : quoteName "_out" = quoteName ("." ++ toString i) := h
  have := congrArg String.toList (quoteName_inj h')
  simp [String.toList_append] at this

/-- **C36, static rules.** Whatever matrix code is generated for, the code obeys the rules of
static single assignment exactly when the printed names of the parameters are legal, differ from
each other, from `_out` and from the registers that the code defines. -/
theorem C36_ssa (symargs : List Expr) (m : Mat) (hm : MatHistory m) (fn : IRFunction)
    (h : toLlvmMatrix symargs m = .ok fn) :
    SSA fn ↔ ∃ names, symargs.mapM treeStr = .ok names ∧ names.Nodup ∧
      ∀ s ∈ names, SafeName s ∧ s ≠ "_out" ∧
        ∀ n : Nat, n < (fn.body.filterMap Instr.defs).length → s ≠ "." ++ toString n := by
  have hw := history_wf hm
  obtain ⟨names, us, hn, hus, hck, rfl⟩ := toLlvmMatrix_inv hw h
  obtain ⟨_, _, _, hmap⟩ := argnames_ok symargs names hn
  have hdefs := matrix_defs hus hck
  have hregs : IRFunction.registers (matrixFn symargs m us) = outName :: names.map quoteName := by
    rw [← hmap]; rfl
  have hst := matrix_nodes_static hus hck
  constructor
  · intro hs
    have h1 := hs.once
    have h2 := hs.names
    rw [hregs] at h1 h2
    rw [List.nodup_append] at h1
    have h3 := List.nodup_cons.1 h1.1
    refine ⟨names, hn, List.Nodup.of_map _ h3.2, ?_⟩
    intro s hs'
    have hq : quoteName s ∈ names.map quoteName := List.mem_map.2 ⟨s, hs', rfl⟩
    refine ⟨?_, ?_, ?_⟩
    · obtain ⟨s', hs1, hs2⟩ := h2 (quoteName s) (List.mem_append_left _ (List.mem_cons_of_mem _ hq))
      have : quoteName s = quoteName s' := hs2
      rw [quoteName_inj this]
      exact hs1
    · intro he
      subst he
      exact h3.1 hq
    · intro n hlt he
      refine h1.2.2 _ (List.mem_cons_of_mem _ hq) (regName n) ?_ (by rw [he]; rfl)
      rw [hdefs] at hlt ⊢
      exact List.mem_map.2 ⟨n, List.mem_range.2 (by simpa using hlt), rfl⟩
  · rintro ⟨names', hn', hnd, hg⟩
    rw [hn] at hn'
    obtain rfl := Except.ok.inj hn'
    rw [hdefs] at hg
    simp only [List.length_map, List.length_range] at hg
    refine ⟨?_, ?_, ?_, ?_, ⟨_, _, rfl, trivial, ?_⟩, ?_⟩
    · rw [hregs, hdefs, List.nodup_append]
      refine ⟨List.nodup_cons.2 ⟨?_, List.Nodup.map (fun a b hab => quoteName_inj hab) hnd⟩,
        List.Nodup.map (fun a b hab => regName_inj hab) List.nodup_range, ?_⟩
      · intro hm'
        obtain ⟨s, hs, he⟩ := List.mem_map.1 hm'
        exact (hg s hs).2.1 (quoteName_inj he)
      · intro a ha b hb he
        obtain ⟨i, hi, rfl⟩ := List.mem_map.1 hb
        rcases List.mem_cons.1 ha with rfl | ha
        · exact outName_ne_reg i he
        · obtain ⟨s, hs, rfl⟩ := List.mem_map.1 ha
          exact (hg s hs).2.2 i (List.mem_range.1 hi) (quoteName_inj he)
    · have : UsesOK (IRFunction.registers (matrixFn symargs m us)) (matrixFn symargs m us).body := by
        rw [hregs]
        refine usesOK_append (usesOK_append ?_ ?_) ?_
        · refine usesOK_mono (known := symargs.map nameOf) ?_ hst.uses
          rw [hmap]
          intro u hu; exact List.mem_cons_of_mem _ hu
        · refine storeCode_uses _ _ _ _ _ (by simp) ?_
          intro p hp
          have hb := hw.store.bound p.1 p.2 ((mem_sortedEntries hw p).1 hp)
          rw [binExpandsAll_length hus] at hb
          have hmem := arg_mem_nodes (List.getElem_mem hb)
          have hid : elementId symargs us p.2 =
              identOf symargs (graphNodes (.node (listH :: us))) us[p.2] := by
            unfold elementId; rw [List.getElem?_eq_getElem hb]; rfl
          rw [hid]
          have := operand_static (symargs := symargs) (N := graphNodes (.node (listH :: us)))
            (done := elementNodes us) (t := us[p.2]) (by
              rcases List.mem_append.1 hmem with h | h
              · exact Or.inl (graphAtoms_leaf h)
              · exact Or.inr h) (hck _ hmem)
          rcases this with h | h | h
          · exact Or.inl h
          · rw [hmap] at h
            exact Or.inr (List.mem_append_left _ (List.mem_cons_of_mem _ h))
          · refine Or.inr (List.mem_append_right _ ?_)
            rw [hst.defs, ← ident_range (symargs := symargs) (dn := elementNodes us)
              (more := [.node (listH :: us)]) (by rw [← graphNodes_list]; exact graphNodes_nodup _)
              (fun t ht => graphNodes_node (u := .node (listH :: us))
                (by rw [graphNodes_list]; simp [ht]))]
            rw [← graphNodes_list]
            exact h
        · exact usesOK_one (fun u hu => by cases hu)
      exact this
    · intro r hr
      rw [hregs, hdefs] at hr
      rcases List.mem_append.1 hr with hr | hr
      · rcases List.mem_cons.1 hr with rfl | hr
        · exact ⟨"_out", ⟨by decide, by decide⟩, rfl⟩
        · obtain ⟨s, hs, rfl⟩ := List.mem_map.1 hr
          exact ⟨s, (hg s hs).1, rfl⟩
      · obtain ⟨i, _, rfl⟩ := List.mem_map.1 hr
        exact localName_reg i
    · intro i hi
      rcases List.mem_append.1 hi with hi | hi
      · rcases List.mem_append.1 hi with hi | hi
        · exact (hst.arity i hi).1
        · exact (storeCode_arity _ _ _ _ i hi).1
      · simp only [List.mem_singleton] at hi
        subst hi; trivial
    · intro i hi
      rcases List.mem_append.1 hi with hi | hi
      · exact (hst.arity i hi).2
      · exact (storeCode_arity _ _ _ _ i hi).2
    · intro t ht hr
      rcases List.mem_append.1 ht with ht | ht
      · rcases List.mem_append.1 ht with ht | ht
        · exact absurd hr (hst.arity t ht).2
        · exact absurd hr (storeCode_arity _ _ _ _ t ht).2
      · simp only [List.mem_singleton] at ht
        subst ht
        exact ⟨fun _ => rfl, fun _ => rfl⟩

/-! ### C36 -/

theorem element_stored {m : Mat} (hw : MatWF m) {n : Nat} {e : Expr} (he : m.elements[n]? = some e) :
    ∃ i j, m.entrymap.get? (i, j) = some n ∧ Stores m i j ∧ i < m.nrows ∧ j < m.ncols ∧
      m.getItem (.pair i j) = .ok e := by
  have hlt : n < m.elements.length := by
    rcases Nat.lt_or_ge n m.elements.length with h | h
    · exact h
    · rw [List.getElem?_eq_none h] at he; cases he
  obtain ⟨⟨i, j⟩, hk⟩ := hw.store.surj n hlt
  have hs : Stores m i j := by unfold Stores; rw [hk]; rfl
  obtain ⟨hi, hj⟩ := hw.inside i j hs
  refine ⟨i, j, hk, hs, hi, hj, ?_⟩
  rw [hw.getItem i j hi hj]
  unfold Mat.entry entry
  rw [hk]
  simp [he]

theorem index_lt {nrows ncols i j : Nat} (hi : i < nrows) (hj : j < ncols) :
    i * ncols + j < nrows * ncols := by
  calc i * ncols + j < i * ncols + ncols := by omega
    _ = (i + 1) * ncols := by ring
    _ ≤ nrows * ncols := Nat.mul_le_mul_right _ hi

theorem index_inj {ncols i j i' j' : Nat} (hj : j < ncols) (hj' : j' < ncols)
    (h : i * ncols + j = i' * ncols + j') : i = i' ∧ j = j' := by
  have hpos : 0 < ncols := by omega
  have h1 : (i * ncols + j) / ncols = i := by
    rw [Nat.mul_comm, Nat.mul_add_div hpos, Nat.div_eq_of_lt hj, Nat.add_zero]
  have h2 : (i' * ncols + j') / ncols = i' := by
    rw [Nat.mul_comm, Nat.mul_add_div hpos, Nat.div_eq_of_lt hj', Nat.add_zero]
  have h3 : i = i' := by rw [← h1, ← h2, h]
  subst h3
  exact ⟨rfl, by omega⟩

theorem sorted_offsets_nodup {m : Mat} (hw : MatWF m) :
    ((sortedEntries m).map (fun p => p.1.1 * m.ncols + p.1.2)).Nodup := by
  have hnd := sortedEntries_nodup hw
  have : (sortedEntries m).map (fun p => p.1.1 * m.ncols + p.1.2) =
      ((sortedEntries m).map Prod.fst).map (fun k => k.1 * m.ncols + k.2) := by
    rw [List.map_map]; rfl
  rw [this]
  refine List.Nodup.map_on ?_ hnd
  intro k hk k' hk' he
  have hin : ∀ k ∈ (sortedEntries m).map Prod.fst, k.2 < m.ncols := by
    intro k hk
    obtain ⟨p, hp, rfl⟩ := List.mem_map.1 hk
    have := (mem_sortedEntries hw p).1 hp
    exact (hw.inside p.1.1 p.1.2 (by unfold Stores; rw [this]; rfl)).2
  obtain ⟨h1, h2⟩ := index_inj (hin k hk) (hin k' hk') he
  exact Prod.ext h1 h2

/-- **C36.** Running the code for a matrix on an array of `nrows * ncols` numbers writes the value
of `M[i, j]` at offset `i * ncols + j` for every stored entry and nothing else.  (The offset is an
`i32` in the code, hence the bound on the size of the matrix.) -/
theorem C36_fills_array (symargs : List Expr) (m : Mat) (hm : MatHistory m) (fn : IRFunction)
    (hs : MatSupported symargs m) (h : toLlvmMatrix symargs m = .ok fn) (hssa : SSA fn)
    (hsize : m.nrows * m.ncols ≤ 2 ^ 31)
    {F : Type} (A : IRArith F) (vs mem : List F) (hlen : symargs.length = vs.length)
    (hmem : mem.length = m.nrows * m.ncols) :
    ∃ mem', IRFunction.run A fn vs mem = some (none, mem') ∧ mem'.length = mem.length ∧
      ∀ i j : Nat, i < m.nrows → j < m.ncols → ∃ e, m.getItem (.pair i j) = .ok e ∧
        (Stores m i j → ∃ v, Evaluates (irMeaning A symargs vs) e v ∧
          mem'[i * m.ncols + j]? = some v) ∧
        (¬ Stores m i j → mem'[i * m.ncols + j]? = mem[i * m.ncols + j]?) := by
  have hw := history_wf hm
  obtain ⟨names, us, hn, hus, hck, rfl⟩ := toLlvmMatrix_inv hw h
  obtain ⟨_, _, _, hmap⟩ := argnames_ok symargs names hn
  have hdefs := matrix_defs hus hck
  have honce := hssa.once
  have hregs : IRFunction.registers (matrixFn symargs m us) = outName :: symargs.map nameOf := rfl
  rw [hdefs, hregs, List.nodup_append] at honce
  obtain ⟨hnd0, _, hdisj⟩ := honce
  obtain ⟨hout, hnd⟩ := List.nodup_cons.1 hnd0
  have hq : ∀ a ∈ symargs, ∃ s, nameOf a = quoteName s := by
    intro a ha
    have : nameOf a ∈ names.map quoteName := by rw [← hmap]; exact List.mem_map.2 ⟨a, ha, rfl⟩
    obtain ⟨s, _, hs⟩ := List.mem_map.1 this
    exact ⟨s, hs.symm⟩
  have hreg : ∀ i, i < (elementNodes us).length + (sortedEntries m).length →
      regName i ∉ outName :: symargs.map nameOf := by
    intro i hi hm'
    exact hdisj _ hm' (regName i) (List.mem_map.2 ⟨i, List.mem_range.2 hi, rfl⟩) rfl
  -- the values of the elements
  have hval : ∀ (n : Nat) (e : Expr), m.elements[n]? = some e → ∃ u v, us[n]? = some u ∧
      evalTree (irMeaning A symargs vs) e = .ok v ∧ evalTree (irMeaning A symargs vs) u = .ok v := by
    intro n e he
    obtain ⟨i, j, _, hst, _, _, hg⟩ := element_stored hw he
    obtain ⟨v, hv⟩ := supported_value A symargs vs hlen e (hs i j e hst hg)
    obtain ⟨u, hu, hbe⟩ := binExpandsAll_get hus he
    refine ⟨u, v, hu, hv, ?_⟩
    exact evaluates_iff.1 (C20_bin_expand_value _ (leftAssoc_ir A symargs vs).1
      (leftAssoc_ir A symargs vs).2 e u ((C20_bin_expand_nests e u).2 hbe) v (evaluates_iff.2 hv))
  have hvalu : ∀ u ∈ us, ∃ v, evalTree (irMeaning A symargs vs) u = .ok v := by
    intro u hu
    obtain ⟨n, hlt, rfl⟩ := List.getElem_of_mem hu
    have hlt' : n < m.elements.length := by rw [binExpandsAll_length hus]; exact hlt
    obtain ⟨u', v, hu', _, hv⟩ := hval n _ (List.getElem?_eq_getElem hlt')
    rw [List.getElem?_eq_getElem hlt] at hu'
    cases hu'
    exact ⟨v, hv⟩
  have hsub : ∀ t ∈ graphAtoms (.node (listH :: us)) ++ elementNodes us,
      ∃ w, evalTree (irMeaning A symargs vs) t = .ok w := by
    intro t ht
    have ht' : t ∈ graphOrder (.node (listH :: us)) := by
      rw [graphOrder_split, graphNodes_list, ← List.append_assoc]
      exact List.mem_append_left _ ht
    have hne : t ≠ .node (listH :: us) := by
      rintro rfl
      have hn' := nodup_graphOrder (.node (listH :: us) : Expr)
      rw [graphOrder_split, graphNodes_list, ← List.append_assoc] at hn'
      exact (List.nodup_append.1 hn').2.2 _ ht _ (by simp) rfl
    rcases argSub_node.1 (mem_graphOrder.1 ht') with h' | ⟨c, hc, h'⟩
    · exact absurd h' hne
    · exact evalTree_ok_sub _ h' (hvalu c hc)
  set st0 : IRState F := ⟨(outName, .ptr 0) :: (symargs.map nameOf).zip (vs.map Cell.num), mem⟩
    with hst0
  have hkeys : st0.regs.map Prod.fst = outName :: symargs.map nameOf := by
    simp only [hst0, List.map_cons]
    rw [List.map_fst_zip (by simp [hlen])]
  obtain ⟨st1, h1, h2, h3, h4⟩ := run_nodes A symargs vs (graphOrder (.node (listH :: us)))
    (graphAtoms (.node (listH :: us))) (graphNodes (.node (listH :: us)))
    (outName :: symargs.map nameOf) rfl (graphNodes_nodup _) (argsFirst_graphOrder _)
    (fun t ht => graphNodes_node ht)
    (elementNodes us) [] [.node (listH :: us)] st0 (by rw [graphNodes_list]; simp)
    (fun i hi => hreg i (by simp only [List.nil_append] at hi; omega))
    (fun t ht hh => matrix_binary hus t ht hh)
    (by simpa using hsub)
    ⟨by
      intro r hr
      left
      rw [hkeys] at hr
      exact hr,
     by
      intro t ht w hw'
      have ht' : t ∈ graphAtoms (.node (listH :: us)) := by simpa using ht
      refine leaf_operand A symargs vs _ [(outName, .ptr 0)] ?_ hnd hq hlen t
        (graphAtoms_leaf ht') w hw'
      intro p hp
      simp only [List.mem_singleton] at hp
      subst hp
      exact hout⟩
  simp only [List.nil_append] at h3
  -- the values as a function of the element number
  have hch : ∀ n : Nat, ∃ v : Option F, ∀ u, us[n]? = some u → ∃ w, v = some w ∧
      evalTree (irMeaning A symargs vs) u = .ok w := by
    intro n
    cases hn' : us[n]? with
    | none => exact ⟨none, fun u hu => by cases hu⟩
    | some u =>
      obtain ⟨v, hv⟩ := hvalu u (List.mem_of_getElem? hn')
      exact ⟨some v, fun u' hu' => by cases hu'; exact ⟨v, rfl, hv⟩⟩
  choose oval hoval using hch
  rcases isEmpty_or_nonempty F with hF | ⟨⟨default⟩⟩
  · -- no numbers: no entries and an empty array
    have hus0 : us = [] := by
      rcases us with _ | ⟨u, us⟩
      · rfl
      · obtain ⟨v, _⟩ := hvalu u (by simp)
        exact (hF.false v).elim
    have hel : m.elements = [] := by
      apply List.eq_nil_of_length_eq_zero
      rw [binExpandsAll_length hus, hus0]; rfl
    have hmem0 : mem = [] := by
      rcases mem with _ | ⟨v, mem⟩
      · rfl
      · exact (hF.false v).elim
    have hse : sortedEntries m = [] := by
      rcases hse : sortedEntries m with _ | ⟨p, l⟩
      · rfl
      · have := hw.store.bound p.1 p.2 ((mem_sortedEntries hw p).1 (by rw [hse]; simp))
        rw [hel] at this; cases this
    have hz : m.nrows * m.ncols = 0 := by rw [← hmem, hmem0]; rfl
    refine ⟨mem, ?_, rfl, ?_⟩
    · unfold IRFunction.run
      rw [if_pos ⟨by simp [matrixFn, hlen], by rw [hregs]; exact hnd0⟩]
      unfold matrixFn
      simp only [if_true, hse, storeCode, List.append_nil]
      rw [execBody_append _ _ _ (by simp)]
      show (List.foldlM (stepInstr A) st0 _).bind _ = _
      rw [h1]
      simp [execBody, h2, hst0]
    · intro i j hi hj
      have := index_lt hi hj
      omega
  let val : Nat → F := fun n => (oval n).getD default
  have hvalspec : ∀ (n : Nat) u, us[n]? = some u → evalTree (irMeaning A symargs vs) u = .ok (val n) := by
    intro n u hu
    obtain ⟨w, hw1, hw2⟩ := hoval n u hu
    simp only [val, hw1, Option.getD_some]
    exact hw2
  have hentry : ∀ p ∈ sortedEntries m, p.1.1 < m.nrows ∧ p.1.2 < m.ncols ∧
      ∃ u, us[p.2]? = some u := by
    intro p hp
    have hg := (mem_sortedEntries hw p).1 hp
    have hb := hw.store.bound p.1 p.2 hg
    rw [binExpandsAll_length hus] at hb
    obtain ⟨a, b⟩ := hw.inside p.1.1 p.1.2 (by unfold Stores; rw [hg]; rfl)
    exact ⟨a, b, _, List.getElem?_eq_getElem hb⟩
  obtain ⟨st2, g1, g2⟩ := run_stores A m.ncols (elementId symargs us) val (sortedEntries m)
    (elementNodes us).length st1
    (h4 _ _ (by simp [hst0, Dict.lookup]))
    (by
      intro r hr k hk1 hk2 he
      rcases h3.keys r hr with h' | ⟨i, hi, he'⟩
      · exact hreg k (by omega) (he ▸ h')
      · have := regName_inj (he'.symm.trans he); omega)
    (by
      intro p hp
      obtain ⟨_, _, u, hu⟩ := hentry p hp
      have hid : elementId symargs us p.2 =
          identOf symargs (graphNodes (.node (listH :: us))) u := by
        unfold elementId; rw [hu]; rfl
      rw [hid]
      exact h3.vals u (arg_mem_nodes (List.mem_of_getElem? hu)) _ (hvalspec p.2 u hu))
    (by
      intro p hp
      obtain ⟨a, b, _⟩ := hentry p hp
      have := index_lt a b
      rw [h2]
      simp only [hst0, hmem]
      omega)
  refine ⟨st2.mem, ?_, ?_, ?_⟩
  · unfold IRFunction.run
    rw [if_pos ⟨by simp [matrixFn, hlen], by rw [hregs]; exact hnd0⟩]
    unfold matrixFn
    simp only [if_true, List.append_assoc]
    rw [execBody_append _ _ _ (by simp)]
    show (List.foldlM (stepInstr A) st0 _).bind _ = _
    rw [h1]
    simp only [Option.bind_some]
    rw [execBody_append _ _ _ (by simp), g1]
    rfl
  · rw [g2, foldl_set_length (fun p : (Nat × Nat) × Nat => p.1.1 * m.ncols + p.1.2)
      (fun p => val p.2), h2]
  · intro i j hi hj
    obtain ⟨f1, f2⟩ := foldl_set_get (fun p : (Nat × Nat) × Nat => p.1.1 * m.ncols + p.1.2)
      (fun p => val p.2) (sortedEntries m) st1.mem (sorted_offsets_nodup hw)
    refine ⟨_, hw.getItem i j hi hj, ?_, ?_⟩
    · intro hst
      unfold Stores at hst
      obtain ⟨n, hn'⟩ := Option.isSome_iff_exists.1 hst
      obtain ⟨e, he1, he2⟩ := entry_of_get hw.store hn'
      have hent : (m.entry i j).getD zero = e := by
        unfold Mat.entry; rw [he2]; rfl
      rw [hent]
      obtain ⟨u, v, hu, hv, hvu⟩ := hval n e he1
      have hvn := hvalspec n u hu
      rw [hvu] at hvn
      have hv' : v = val n := Except.ok.inj hvn
      refine ⟨v, evaluates_iff.2 hv, ?_⟩
      rw [g2, hv']
      have := f1 ((i, j), n) ((mem_sortedEntries hw _).2 hn') (by
        rw [h2]; simp only [hst0, hmem]; exact index_lt hi hj)
      exact this
    · intro hst
      rw [g2, f2 _ ?_, h2]
      intro hm'
      obtain ⟨p, hp, he⟩ := List.mem_map.1 hm'
      obtain ⟨a, b, _⟩ := hentry p hp
      obtain ⟨e1, e2⟩ := index_inj b hj he
      apply hst
      have := (mem_sortedEntries hw p).1 hp
      unfold Stores
      rw [← e1, ← e2, this]
      rfl

theorem nodes_no_memory {symargs N : List Expr} {t : Expr} : (∀ d b k, instrOf symargs N t ≠ .gep d b k) ∧
    (∀ v p, instrOf symargs N t ≠ .store v p) := by
  unfold instrOf lineOf
  refine ⟨?_, ?_⟩ <;> intros <;> (repeat' split) <;> simp

/-- **C36, each offset once.** The offsets the code computes are distinct and are those of the
stored entries, and it stores once through each of the pointers it computes. -/
theorem C36_writes_once (symargs : List Expr) (m : Mat) (hm : MatHistory m) (fn : IRFunction)
    (h : toLlvmMatrix symargs m = .ok fn) :
    (offsets fn).Nodup ∧
    (∀ k, k ∈ offsets fn ↔ ∃ i j, Stores m i j ∧ k = i * m.ncols + j) ∧
    storedThrough fn = pointers fn := by
  have hw := history_wf hm
  obtain ⟨names, us, hn, hus, hck, rfl⟩ := toLlvmMatrix_inv hw h
  have hnone : ∀ {β : Type} (g : Instr → Option β) (l : List Expr),
      (∀ t ∈ l, g (instrOf symargs (graphNodes (.node (listH :: us))) t) = none) →
      (l.map (instrOf symargs (graphNodes (.node (listH :: us))))).filterMap g = [] := by
    intro β g l hl
    rw [List.filterMap_eq_nil_iff]
    intro i hi
    obtain ⟨t, ht, rfl⟩ := List.mem_map.1 hi
    exact hl t ht
  have hoff : offsets (matrixFn symargs m us) =
      (sortedEntries m).map (fun p => p.1.1 * m.ncols + p.1.2) := by
    unfold offsets matrixFn
    simp only [List.filterMap_append]
    rw [hnone _ _ (fun t _ => by
      have := (nodes_no_memory (symargs := symargs)
        (N := graphNodes (.node (listH :: us))) (t := t)).1
      split
      · rename_i d b k he; exact absurd he (this d b k)
      · rfl)]
    have : ∀ (es : List ((Nat × Nat) × Nat)) (c : Nat),
        (storeCode m.ncols (elementId symargs us) c es).filterMap
          (fun i => match i with | .gep _ _ k => some k | _ => none) =
        es.map (fun p => p.1.1 * m.ncols + p.1.2) := by
      intro es
      induction es with
      | nil => intro c; rfl
      | cons p es ih =>
        intro c
        obtain ⟨⟨i, j⟩, n⟩ := p
        simp only [storeCode, List.filterMap_cons, List.map_cons, ih]
    erw [this]
    simp
  refine ⟨?_, ?_, ?_⟩
  · rw [hoff]; exact sorted_offsets_nodup hw
  · intro k
    rw [hoff, List.mem_map]
    constructor
    · rintro ⟨p, hp, rfl⟩
      refine ⟨p.1.1, p.1.2, ?_, rfl⟩
      have := (mem_sortedEntries hw p).1 hp
      unfold Stores
      rw [this]; rfl
    · rintro ⟨i, j, hst, rfl⟩
      obtain ⟨n, hn'⟩ := Option.isSome_iff_exists.1 hst
      exact ⟨((i, j), n), (mem_sortedEntries hw _).2 hn', rfl⟩
  · unfold storedThrough pointers matrixFn
    simp only [List.filterMap_append]
    rw [hnone _ _ (fun t _ => by
      have := (nodes_no_memory (symargs := symargs)
        (N := graphNodes (.node (listH :: us))) (t := t)).2
      split
      · rename_i v p he; exact absurd he (this v p)
      · rfl),
      hnone _ _ (fun t _ => by
      have := (nodes_no_memory (symargs := symargs)
        (N := graphNodes (.node (listH :: us))) (t := t)).1
      split
      · rename_i d b k he; exact absurd he (this d b k)
      · rfl)]
    have : ∀ (es : List ((Nat × Nat) × Nat)) (c : Nat),
        (storeCode m.ncols (elementId symargs us) c es).filterMap
          (fun i => match i with | .store _ p => some p | _ => none) =
        (storeCode m.ncols (elementId symargs us) c es).filterMap
          (fun i => match i with | .gep d _ _ => some d | _ => none) := by
      intro es
      induction es with
      | nil => intro c; rfl
      | cons p es ih =>
        intro c
        obtain ⟨⟨i, j⟩, n⟩ := p
        simp only [storeCode, List.filterMap_cons, ih]
    simp only [List.nil_append]
    exact congrArg₂ (· ++ ·) (this _ _) rfl

/-- **C36, generation.** With good parameter names other than `_out` and supported entries, code
is generated and obeys the rules of C34. -/
theorem C36_generated (symargs : List Expr) (m : Mat) (hm : MatHistory m)
    (hg : GoodParams symargs ["_out"]) (hs : MatSupported symargs m) :
    ∃ fn, toLlvmMatrix symargs m = .ok fn ∧ SSA fn := by
  have hw := history_wf hm
  obtain ⟨names, hn, _⟩ := goodParams_facts hg
  have hsup : ∀ e ∈ m.elements, Supported symargs e := by
    intro e he
    obtain ⟨n, hlt, rfl⟩ := List.getElem_of_mem he
    obtain ⟨i, j, _, hst, _, _, hget⟩ := element_stored hw (List.getElem?_eq_getElem hlt)
    exact hs i j _ hst hget
  have hall : ∀ els : List Expr, (∀ e ∈ els, Supported symargs e) → ∃ us, BinExpandsAll els us := by
    intro els
    induction els with
    | nil => intro _; exact ⟨[], .nil⟩
    | cons e els ih =>
      intro hs'
      obtain ⟨u, hu⟩ := binExpand_of_supported (nodeg_of_good hg) (hs' e (by simp))
      obtain ⟨us, hus⟩ := ih (fun e' he' => hs' e' (by simp [he']))
      exact ⟨u :: us, .cons ((C20_bin_expand_nests e u).1 hu) hus⟩
  obtain ⟨us, hus⟩ := hall m.elements hsup
  have hgen := toLlvmMatrix_eq symargs names m us hn hw hus
  have hck : ∀ t ∈ graphAtoms (.node (listH :: us)) ++ elementNodes us,
      check symargs t = .ok () := by
    intro t ht
    have ht' : t ∈ graphOrder (.node (listH :: us)) := by
      rw [graphOrder_split, graphNodes_list, ← List.append_assoc]
      exact List.mem_append_left _ ht
    have hne : t ≠ .node (listH :: us) := by
      rintro rfl
      have hn' := nodup_graphOrder (.node (listH :: us) : Expr)
      rw [graphOrder_split, graphNodes_list, ← List.append_assoc] at hn'
      exact (List.nodup_append.1 hn').2.2 _ ht _ (by simp) rfl
    rcases argSub_node.1 (mem_graphOrder.1 ht') with h' | ⟨c, hc, h'⟩
    · exact absurd h' hne
    · refine check_of_value unitArith symargs (List.replicate symargs.length ()) t
        (binary_sub (binExpand_list hus) (mem_graphOrder.1 ht')) ?_
      refine evalTree_ok_sub _ h' ?_
      obtain ⟨n, hlt, rfl⟩ := List.getElem_of_mem hc
      have hlt' : n < m.elements.length := by rw [binExpandsAll_length hus]; exact hlt
      obtain ⟨u, hu, hbe⟩ := binExpandsAll_get hus (List.getElem?_eq_getElem hlt')
      rw [List.getElem?_eq_getElem hlt] at hu
      cases hu
      obtain ⟨v, hv⟩ := supported_value unitArith symargs (List.replicate symargs.length ())
        (by simp) _ (hsup _ (List.getElem_mem hlt'))
      exact ⟨v, evaluates_iff.1 (C20_bin_expand_value _ (leftAssoc_ir _ _ _).1
        (leftAssoc_ir _ _ _).2 _ _ ((C20_bin_expand_nests _ _).2 hbe) v (evaluates_iff.2 hv))⟩
  obtain ⟨ws, hws⟩ := mapM_ok_of_forall (check symargs)
    (graphAtoms (.node (listH :: us)) ++ elementNodes us) (fun t ht => ⟨(), hck t ht⟩)
  rw [hws] at hgen
  have hgen' : toLlvmMatrix symargs m = .ok (matrixFn symargs m us) := hgen
  refine ⟨_, hgen', (C36_ssa symargs m hm _ hgen').2 ?_⟩
  obtain ⟨names', g1, g2, g3⟩ := hg
  exact ⟨names', g1, g2, fun s hs' => ⟨(g3 s hs').1, by simpa using (g3 s hs').2.2,
    fun n _ => (g3 s hs').2.1 n⟩⟩

/-- **C36, calling the function.** The array that the compiled function is handed is full of
zeros; unless `Integer(0)` is itself a parameter, afterwards every entry is the value of
`M[i, j]`. -/
theorem C36_call (symargs : List Expr) (m : Mat) (hm : MatHistory m) (fn : IRFunction)
    (hs : MatSupported symargs m) (h : toLlvmMatrix symargs m = .ok fn) (hssa : SSA fn)
    (hsize : m.nrows * m.ncols ≤ 2 ^ 31) (hz : zero ∉ symargs)
    {F : Type} (A : IRArith F) (vs : List F) (hlen : symargs.length = vs.length) :
    ∃ mem', IRFunction.run A fn vs (List.replicate (m.nrows * m.ncols) (A.const 0)) =
        some (none, mem') ∧ mem'.length = m.nrows * m.ncols ∧
      ∀ i j : Nat, i < m.nrows → j < m.ncols → ∃ e v, m.getItem (.pair i j) = .ok e ∧
        Evaluates (irMeaning A symargs vs) e v ∧ mem'[i * m.ncols + j]? = some v := by
  obtain ⟨mem', h1, h2, h3⟩ := C36_fills_array symargs m hm fn hs h hssa hsize A vs
    (List.replicate (m.nrows * m.ncols) (A.const 0)) hlen (by simp)
  refine ⟨mem', h1, by simpa using h2, ?_⟩
  intro i j hi hj
  obtain ⟨e, he, hst, hns⟩ := h3 i j hi hj
  by_cases hs' : Stores m i j
  · obtain ⟨v, hv, hm'⟩ := hst hs'
    exact ⟨e, v, he, hv, hm'⟩
  · have hw := history_wf hm
    have he0 : e = zero := by
      rw [hw.getItem i j hi hj] at he
      have hnone : m.entry i j = none := by
        cases hme : m.entry i j with
        | none => rfl
        | some w => exact absurd ((hw.stores_iff i j).2 (by rw [hme]; rfl)) hs'
      rw [hnone] at he
      exact (Except.ok.inj he).symm
    subst he0
    refine ⟨zero, A.const 0, he, ?_, ?_⟩
    · rw [evaluates_iff]
      rw [evalTree_leaf _ (by rfl)]
      unfold irMeaning
      simp only [lastAssoc_not_mem _ symargs vs hz]
      rfl
    · rw [hns hs']
      simp [index_lt hi hj]

/-- A decidable sufficient condition for `Supported`. -/
theorem supported_of_check {symargs : List Expr} {e : Expr}
    (h : ∀ t ∈ topologicalSort false [] e,
      (t.children = [] ∧ (t ∈ symargs ∨ ∃ n ∈ List.range 10, t = integer n)) ∨
      (t.children ≠ [] ∧ (((headOf t = addH ∨ headOf t = mulH) ∧ 1 ≤ (argsOf t).length) ∨
        (headOf t = powH ∧ (argsOf t).length = 2) ∨
        ((headOf t = sinH ∨ headOf t = cosH) ∧ (argsOf t).length = 1)))) : Supported symargs e := by
  constructor
  · intro t ht hc
    rcases h t (reach_topo.2 ht) with ⟨_, h' | ⟨n, hn, rfl⟩⟩ | ⟨h', _⟩
    · exact Or.inl h'
    · refine Or.inr ⟨n, rfl, ?_⟩
      have := List.mem_range.1 hn
      have h2 : ((10 : ℕ) : ℤ) < 2 ^ 1024 - 2 ^ 970 := by norm_num
      rw [abs_of_nonneg (by positivity)]
      have h3 : (n : ℤ) < (10 : ℕ) := by exact_mod_cast this
      exact lt_trans h3 h2
    · exact absurd hc h'
  · intro hd args ht
    rcases h _ (reach_topo.2 ht) with ⟨h', _⟩ | ⟨_, h'⟩
    · cases h'
    · exact h'

/-- `Matrix([[x, 0], [2, x*y + 1]])` -/
def sampleMat : Mat :=
  Mat.mk' 2 2 [x, integer 2, add (mul x y) (integer 1)] ⟨[((0, 0), 0), ((1, 0), 1), ((1, 1), 2)]⟩

/-- The hypotheses of C36 hold of `lambdify([x, y], Matrix([[x, 0], [2, x*y + 1]]))`; the code is
as shown. -/
theorem sampleMat_compiles : MatHistory sampleMat ∧ MatSupported [x, y] sampleMat ∧
    GoodParams [x, y] ["_out"] ∧ zero ∉ [x, y] ∧ sampleMat.nrows * sampleMat.ncols ≤ 2 ^ 31 ∧
    ∃ fn, toLlvmMatrix [x, y] sampleMat = .ok fn ∧ SSA fn ∧ fn = ⟨true, ["%\"x\"", "%\"y\""],
      [.arith "%\".0\"" "fmul" ["%\"x\"", "%\"y\""],
       .arith "%\".1\"" "fadd" ["%\".0\"", "0x3ff0000000000000"],
       .gep "%\".2\"" "%\"_out\"" 0, .store "%\"x\"" "%\".2\"",
       .gep "%\".3\"" "%\"_out\"" 2, .store "0x4000000000000000" "%\".3\"",
       .gep "%\".4\"" "%\"_out\"" 3, .store "%\".1\"" "%\".4\"",
       .retVoid]⟩ := by
  have hm : MatHistory sampleMat := .new
    (entries := .list [.list [.expr x, .int 0], .list [.int 2, .expr (add (mul x y) (integer 1))]])
    (by decide)
  have hs : MatSupported [x, y] sampleMat := by
    intro i j e hst he
    have hi : (i = 0 ∧ j = 0 ∧ e = x) ∨ (i = 1 ∧ j = 0 ∧ e = integer 2) ∨
        (i = 1 ∧ j = 1 ∧ e = add (mul x y) (integer 1)) := by
      obtain ⟨hi, hj⟩ := (history_wf hm).inside i j hst
      have hi' : i < 2 := hi
      have hj' : j < 2 := hj
      interval_cases i <;> interval_cases j
      · exact Or.inl ⟨rfl, rfl, (Except.ok.inj (show Except.ok x = _ from he)).symm⟩
      · exact absurd hst (by unfold Stores; decide)
      · exact Or.inr (Or.inl ⟨rfl, rfl, (Except.ok.inj (show Except.ok (integer 2) = _ from he)).symm⟩)
      · exact Or.inr (Or.inr ⟨rfl, rfl, (Except.ok.inj
          (show Except.ok (add (mul x y) (integer 1)) = _ from he)).symm⟩)
    rcases hi with ⟨_, _, rfl⟩ | ⟨_, _, rfl⟩ | ⟨_, _, rfl⟩
    · exact supported_of_check (by decide +kernel)
    · exact supported_of_check (by decide +kernel)
    · exact supported_of_check (by decide +kernel)
  have hg : GoodParams [x, y] ["_out"] := by
    refine ⟨["x", "y"], rfl, by decide, ?_⟩
    intro s hs
    have key : ∀ t : String, t.toList.head? ≠ some '.' → ∀ n : Nat, t ≠ "." ++ toString n := by
      intro t ht n he
      rw [he] at ht
      simp [String.toList_append] at ht
    simp only [List.mem_cons, List.not_mem_nil, or_false] at hs
    rcases hs with rfl | rfl
    · exact ⟨⟨by decide, by decide⟩, key _ (by decide), by decide⟩
    · exact ⟨⟨by decide, by decide⟩, key _ (by decide), by decide⟩
  refine ⟨hm, hs, hg, by decide, by decide, ?_⟩
  obtain ⟨fn, h1, h2⟩ := C36_generated [x, y] sampleMat hm hg hs
  refine ⟨fn, h1, h2, ?_⟩
  apply Except.ok.inj (ε := PyErr)
  rw [← h1]
  have hsort : sampleMat.entrymap.items.mergeSort entryLe = sampleMat.entrymap.items :=
    List.mergeSort_of_pairwise (by decide)
  unfold toLlvmMatrix
  rw [hsort]
  decide +kernel

/-- **C36, exceptions.** A parameter called `_out` clashes with the array; and if `Integer(0)` is a
parameter, entries that are `Integer(0)` stay 0 whatever the parameter's value. -/
theorem C36_exceptions_false :
    (∃ m fn, Mat.new (.list [.list [.expr (symbol "_out")]]) = .ok m ∧
      toLlvmMatrix [symbol "_out"] m = .ok fn ∧ ¬ SSA fn) ∧
    (∃ m fn, Mat.new (.list [.list [.int 0]]) = .ok m ∧ toLlvmMatrix [integer 0] m = .ok fn ∧
      m.getItem (.pair 0 0) = .ok (integer 0) ∧
      ∀ {F : Type} (A : IRArith F) (v : F),
        Evaluates (irMeaning A [integer 0] [v]) (integer 0) v ∧
        IRFunction.run A fn [v] [A.const 0] = some (none, [A.const 0])) := by
  refine ⟨⟨Mat.mk' 1 1 [symbol "_out"] ⟨[((0, 0), 0)]⟩, ⟨true, ["%\"_out\""],
      [.gep "%\".0\"" "%\"_out\"" 0, .store "%\"_out\"" "%\".0\"", .retVoid]⟩,
      by decide, by decide +kernel, fun h => absurd h.once (by decide)⟩,
    ⟨Mat.mk' 1 1 [] ⟨[]⟩, ⟨true, ["%\"0\""], [.retVoid]⟩, by decide, by decide +kernel,
      by decide, ?_⟩⟩
  intro F A v
  exact ⟨Evaluates.leaf rfl rfl, rfl⟩

end Verif.Props
