import Verif.Lemmas.Double
import Verif.Lemmas.Eval
import Verif.Spec.LLVM
import Verif.Props.Arith

/-!
# LLVM code generation: closed form and execution
-/

set_option linter.unusedSectionVars false
set_option linter.unusedSimpArgs false

namespace Verif
open Spec

/-! ### Names -/

theorem quoteName_inj {a b : String} (h : quoteName a = quoteName b) : a = b := by
  unfold quoteName at h
  have h' := congrArg String.toList h
  simp only [String.toList_append, List.append_assoc] at h'
  have h2 := List.append_cancel_left h'
  have h3 := List.append_cancel_right h2
  exact String.toList_inj.1 h3

theorem toString_nat_inj {a b : Nat} (h : toString a = toString b) : a = b := by
  have h' := congrArg String.toList h
  have e : ∀ n : Nat, (toString n).toList = Nat.toDigits 10 n := fun n => by
    rw [Nat.toString_eq_ofList_toDigits, String.toList_ofList]
  rw [e, e] at h'
  have := congrArg (fun l => Nat.ofDigitChars 10 l 0) h'
  simpa [Nat.ofDigitChars_ten_toDigits] using this

theorem dot_inj {a b : Nat} (h : "." ++ toString a = "." ++ toString b) : a = b := by
  have h' := congrArg String.toList h
  simp only [String.toList_append] at h'
  exact toString_nat_inj (String.toList_inj.1 (List.append_cancel_left h'))

theorem regName_inj {a b : Nat} (h : regName a = regName b) : a = b := dot_inj (quoteName_inj h)

theorem hexValue_quoteName (s : String) : hexValue (quoteName s) = none := by
  unfold hexValue quoteName
  simp only [String.toList_append, List.append_assoc]
  rfl

theorem safeName_reg (n : Nat) : SafeName ("." ++ toString n) := by
  have e : (toString n).toList = Nat.toDigits 10 n := by
    rw [Nat.toString_eq_ofList_toDigits, String.toList_ofList]
  refine ⟨fun h => ?_, ?_⟩
  · have h' := congrArg String.toList h
    simp [String.toList_append] at h'
  · intro c hc
    rw [String.toList_append, e] at hc
    rcases List.mem_append.1 hc with hc | hc
    · have : c = '.' := by simpa using hc
      subst this; decide
    · have hd := Nat.isDigit_of_mem_toDigits (by omega) (by omega) hc
      refine ⟨?_, ?_, ?_⟩
      · intro h; subst h; simp [Char.isDigit] at hd
      · intro h; subst h; simp [Char.isDigit] at hd
      · intro h
        have : c = Char.ofNat 0 := by
          rw [← h]; exact (Char.ofNat_toNat c).symm
        subst this
        simp [Char.isDigit] at hd

theorem localName_reg (n : Nat) : LocalName (regName n) := ⟨_, safeName_reg n, rfl⟩

/-! ### Code generation in closed form -/

/-- The text of a parameter. -/
def nameOf (t : Expr) : String :=
  match treeStr t with
  | .ok s => quoteName s
  | .error _ => ""

/-- What the code generator checks about an atom. -/
def checkLeaf (symargs : List Expr) (a : Expr) : PyM Unit :=
  if a ∈ symargs then .ok ()
  else
    match a with
    | .atom at' =>
      if at'.atomType = Ty.integer then
        match doubleToHex at'.value with
        | .ok _ => .ok ()
        | .error err => .error err
      else .error .llvmNotImplemented
    | .node _ => .error .attributeError

/-- What the code generator checks about a head applied to `n` arguments. -/
def checkLine (h : Expr) (n : Nat) : PyM Unit :=
  if h = Expr.addH then .ok ()
  else if h = Expr.mulH then .ok ()
  else if h = Expr.powH then if 2 ≤ n then .ok () else .error .indexError
  else if h = Expr.sinH then if 1 ≤ n then .ok () else .error .indexError
  else if h = Expr.cosH then if 1 ≤ n then .ok () else .error .indexError
  else .error .llvmNotImplemented

/-- What the code generator checks about a subexpression. -/
def check (symargs : List Expr) (t : Expr) : PyM Unit :=
  if isLeaf t then checkLeaf symargs t else checkLine (headOf t) (argsOf t).length

/-- The operand for an atom. -/
def leafId (symargs : List Expr) (a : Expr) : String :=
  if a ∈ symargs then nameOf a
  else
    match a with
    | .atom at' =>
      match doubleToHex at'.value with
      | .ok s => s
      | .error _ => ""
    | .node _ => ""

/-- The instruction for a head. -/
def lineOf (id : String) (h : Expr) (args : List String) : Instr :=
  if h = Expr.addH then .arith id "fadd" args
  else if h = Expr.mulH then .arith id "fmul" args
  else if h = Expr.powH then .call id "pow" (args.take 2)
  else if h = Expr.sinH then .call id "sin" (args.take 1)
  else .call id "cos" (args.take 1)

/-- The operand for a subexpression, `N` being the compound subexpressions in order. -/
def identOf (symargs N : List Expr) (t : Expr) : String :=
  if isLeaf t then leafId symargs t else regName (N.idxOf t)

/-- The instruction for a compound subexpression. -/
def instrOf (symargs N : List Expr) (t : Expr) : Instr :=
  lineOf (identOf symargs N t) (headOf t) ((argsOf t).map (identOf symargs N))

theorem llvmAtom_eq (symargs : List Expr) (d : Dict Expr String)
    (hd : ∀ a ∈ symargs, d.getItem a = .ok (nameOf a)) (a : Expr) :
    llvmAtom symargs d a = checkLeaf symargs a >>= fun _ => .ok (leafId symargs a) := by
  unfold llvmAtom checkLeaf leafId
  by_cases ha : a ∈ symargs
  · simp only [ha, if_true, hd a ha]; rfl
  · simp only [ha, if_false]
    cases a with
    | node cs => rfl
    | atom at' =>
      by_cases ht : at'.atomType = Ty.integer
      · simp only [ht, if_true]
        cases doubleToHex at'.value <;> rfl
      · simp only [ht, if_false]; rfl

theorem llvmLine_eq (id : String) (h : Expr) (args : List String) :
    llvmLine id h args = checkLine h args.length >>= fun _ => .ok (lineOf id h args) := by
  unfold llvmLine checkLine lineOf
  by_cases h1 : h = Expr.addH
  · simp only [h1, if_true]; rfl
  by_cases h2 : h = Expr.mulH
  · simp only [h1, h2, if_true, if_false]; rfl
  by_cases h3 : h = Expr.powH
  · simp only [h1, h2, h3, if_true, if_false]
    rcases args with _ | ⟨a, _ | ⟨b, rest⟩⟩ <;> rfl
  by_cases h4 : h = Expr.sinH
  · simp only [h1, h2, h3, h4, if_true, if_false]
    rcases args with _ | ⟨a, rest⟩ <;> rfl
  by_cases h5 : h = Expr.cosH
  · simp only [h1, h2, h3, h4, h5, if_true, if_false]
    rcases args with _ | ⟨a, rest⟩ <;> rfl
  · simp only [h1, h2, h3, h4, h5, if_false]; rfl

theorem argnames_ok (symargs : List Expr) (names : List String)
    (h : symargs.mapM treeStr = .ok names) :
    ∃ d, llvmArgnames symargs = .ok d ∧ (∀ a ∈ symargs, d.getItem a = .ok (nameOf a)) ∧
      symargs.map nameOf = names.map quoteName := by
  have hpairs : ∀ (l : List Expr) (ns : List String), l.mapM treeStr = .ok ns →
      l.mapM (fun s => do return (s, quoteName (← treeStr s))) =
        (.ok (l.map (fun s => (s, nameOf s))) : PyM (List (Expr × String))) ∧
      l.map nameOf = ns.map quoteName := by
    intro l
    induction l with
    | nil => intro ns hns; cases hns; exact ⟨rfl, rfl⟩
    | cons a l ih =>
      intro ns hns
      rw [List.mapM_cons] at hns
      cases ha : treeStr a with
      | error err => rw [ha] at hns; cases hns
      | ok s =>
        rw [ha] at hns
        cases hl : l.mapM treeStr with
        | error err => rw [hl] at hns; cases hns
        | ok ss =>
          rw [hl] at hns
          cases hns
          obtain ⟨h1, h2⟩ := ih ss hl
          constructor
          · rw [List.mapM_cons, ha, h1]
            simp [nameOf, ha, bind, Except.bind, pure, Except.pure]
          · simp [nameOf, ha] at h2 ⊢
            exact h2
  obtain ⟨h1, h2⟩ := hpairs symargs names h
  refine ⟨Dict.ofPairs (symargs.map (fun s => (s, nameOf s))), ?_, ?_, h2⟩
  · unfold llvmArgnames; rw [h1]; rfl
  · intro a ha
    apply Dict.getItem_eq_ok
    rw [Dict.get?_ofPairs]
    cases hl : lastAssoc a (symargs.map (fun s => (s, nameOf s))) with
    | none =>
      rw [lastAssoc_eq_none_iff] at hl
      exact absurd (List.mem_map.2 ⟨_, List.mem_map.2 ⟨a, ha, rfl⟩, rfl⟩) hl
    | some w =>
      have := lastAssoc_mem hl
      obtain ⟨b, _, hb⟩ := List.mem_map.1 this
      cases hb; rfl

theorem mapM_check_then {α β : Type} (l : List α) (c : α → PyM Unit) (f : α → β) :
    l.mapM (fun a => c a >>= fun _ => .ok (f a)) =
      (l.mapM c >>= fun _ => (.ok (l.map f) : PyM (List β))) := by
  induction l with
  | nil => rfl
  | cons a l ih =>
    rw [List.mapM_cons, List.mapM_cons, ih]
    cases c a with
    | error err => rfl
    | ok _ => cases l.mapM c <;> rfl

theorem mapM_pyGet_longer {T : Type} (L pre post : List Expr) (t : Expr) (f : Expr → T)
    (extra : List T) (hL : L = pre ++ t :: post) (hargs : ArgsFirst L) :
    (opOf L t).2.mapM (fun i => pyGet (pre.map f ++ extra) i) = .ok ((argsOf t).map f) := by
  have hmem : ∀ c ∈ argsOf t, c ∈ pre := fun c hc => hargs pre t post hL c hc
  unfold opOf
  simp only
  generalize argsOf t = args at hmem
  induction args with
  | nil => rfl
  | cons c cs ih =>
    have hcp := hmem c (by simp)
    have h1 : L.idxOf c = pre.idxOf c := by rw [hL, List.idxOf_append]; simp [hcp]
    rw [List.map_cons, List.mapM_cons, ih (fun x hx => hmem x (by simp [hx]))]
    have : pyGet (pre.map f ++ extra) (L.idxOf c) = .ok (f c) := by
      have hlt : pre.idxOf c < (pre.map f).length := by
        rw [List.length_map]; exact List.idxOf_lt_length_of_mem hcp
      rw [h1]; simp only [pyGet, List.getElem?_append_left hlt]
      simp [idxOf_getElem? hcp]
    rw [this]; rfl

theorem llvmOpsLoop_eq (symargs L atoms N : List Expr) (hL : L = atoms ++ N) (hnd : N.Nodup)
    (hargs : ArgsFirst L) (hN : ∀ t ∈ N, isLeaf t = false) :
    ∀ (rest dn more : List Expr), N = dn ++ rest ++ more →
    llvmOpsLoop ((atoms ++ dn).map (identOf symargs N)) (dn.map (instrOf symargs N))
        (rest.map (opOf L)) =
      (rest.mapM (check symargs) >>= fun _ =>
        .ok ((atoms ++ dn ++ rest).map (identOf symargs N), (dn ++ rest).map (instrOf symargs N))) := by
  intro rest
  induction rest with
  | nil => intro dn more _; simp [llvmOpsLoop]
  | cons t rest ih =>
    intro dn more hsplit
    have htN : t ∈ N := by rw [hsplit]; simp
    have htl := hN t htN
    have hidx : N.idxOf t = dn.length := by
      have : t ∉ dn := by
        intro hm
        rw [hsplit] at hnd
        have := (List.nodup_append.1 (List.nodup_append.1 hnd).1).2.2
        exact this t hm t (by simp) rfl
      rw [hsplit, List.append_assoc, List.idxOf_append]
      simp [this]
    have hid : regName (dn.map (instrOf symargs N)).length = identOf symargs N t := by
      unfold identOf; rw [htl, hidx, List.length_map]; rfl
    rw [List.map_cons, show opOf L t = (headOf t, (opOf L t).2) from rfl]
    unfold llvmOpsLoop
    simp only
    rw [hid, mapM_pyGet_longer L (atoms ++ dn) (rest ++ more) t (identOf symargs N) [identOf symargs N t]
      (by rw [hL, hsplit]; simp) hargs]
    simp only [bind, Except.bind]
    rw [llvmLine_eq, List.length_map, List.mapM_cons]
    have hck : check symargs t = checkLine (headOf t) (argsOf t).length := by
      unfold check; rw [htl]; rfl
    rw [hck]
    cases hc : checkLine (headOf t) (argsOf t).length with
    | error err => rfl
    | ok u =>
      have := ih (dn ++ [t]) more (by rw [hsplit]; simp)
      simp only [bind, Except.bind] at this ⊢
      have e1 : (atoms ++ dn).map (identOf symargs N) ++ [identOf symargs N t] =
          (atoms ++ (dn ++ [t])).map (identOf symargs N) := by simp
      have e2 : dn.map (instrOf symargs N) ++
            [lineOf (identOf symargs N t) (headOf t) ((argsOf t).map (identOf symargs N))] =
          (dn ++ [t]).map (instrOf symargs N) := by simp [instrOf]
      rw [e1, e2, this]
      cases rest.mapM (check symargs) with
      | error err => rfl
      | ok us => simp [pure, Except.pure]

/-- The compound subexpressions in graph order. -/
def graphNodes (u : Expr) : List Expr := (topologicalSort false [] u).filter (fun t => !isLeaf t)

/-- The atoms in graph order. -/
def graphAtoms (u : Expr) : List Expr := (topologicalSort false [] u).filter isLeaf

theorem graphOrder_split (u : Expr) : graphOrder u = graphAtoms u ++ graphNodes u := rfl

theorem graphAtoms_leaf {u t : Expr} (h : t ∈ graphAtoms u) : isLeaf t = true :=
  (List.mem_filter.1 h).2

theorem graphNodes_node {u t : Expr} (h : t ∈ graphNodes u) : isLeaf t = false := by
  have := (List.mem_filter.1 h).2
  simpa using this

theorem graphNodes_nodup (u : Expr) : (graphNodes u).Nodup :=
  (nodup_topologicalSort false [] u).filter _

theorem atoms_mapM (symargs : List Expr) (d : Dict Expr String) (N atoms : List Expr)
    (hd : ∀ a ∈ symargs, d.getItem a = .ok (nameOf a)) (hl : ∀ t ∈ atoms, isLeaf t = true) :
    atoms.mapM (llvmAtom symargs d) =
      (atoms.mapM (check symargs) >>= fun _ => .ok (atoms.map (identOf symargs N))) := by
  rw [← mapM_check_then]
  induction atoms with
  | nil => rfl
  | cons a as ih =>
    rw [List.mapM_cons, List.mapM_cons, ih (fun t ht => hl t (by simp [ht])),
      llvmAtom_eq symargs d hd]
    have h1 : check symargs a = checkLeaf symargs a := by unfold check; rw [hl a (by simp)]; rfl
    have h2 : identOf symargs N a = leafId symargs a := by unfold identOf; rw [hl a (by simp)]; rfl
    rw [h1, h2]

theorem mapM_getItem_names (symargs l : List Expr) (d : Dict Expr String)
    (hd : ∀ a ∈ symargs, d.getItem a = .ok (nameOf a)) (hl : ∀ a ∈ l, a ∈ symargs) :
    l.mapM d.getItem = .ok (l.map nameOf) := by
  induction l with
  | nil => rfl
  | cons a l ih =>
    rw [List.mapM_cons, hd a (hl a (by simp)), ih (fun x hx => hl x (by simp [hx]))]
    rfl

theorem mapM_append_check {α : Type} (c : α → PyM Unit) (l₁ l₂ : List α) {β : Type}
    (k : PyM β) :
    (l₁.mapM c >>= fun _ => l₂.mapM c >>= fun _ => k) = ((l₁ ++ l₂).mapM c >>= fun _ => k) := by
  rw [List.mapM_append]
  cases l₁.mapM c with
  | error err => rfl
  | ok us => cases l₂.mapM c <;> rfl

/-- Code generation in closed form. -/
theorem toLlvm_eq (symargs : List Expr) (names : List String) (e u : Expr)
    (hn : symargs.mapM treeStr = .ok names) (hu : binExpand e = .ok u) :
    toLlvm symargs e =
      ((graphOrder u).mapM (check symargs) >>= fun _ =>
        .ok ⟨false, symargs.map nameOf, (graphNodes u).map (instrOf symargs (graphNodes u)) ++
          [.ret (identOf symargs (graphNodes u) u)]⟩) := by
  obtain ⟨d, hd1, hd2, _⟩ := argnames_ok symargs names hn
  unfold toLlvm
  simp only [hu, forwardGraph_eq, hd1, bind, Except.bind]
  rw [show (topologicalSort false [] u).filter isLeaf = graphAtoms u from rfl,
    show (topologicalSort false [] u).filter (fun t => !isLeaf t) = graphNodes u from rfl]
  rw [atoms_mapM symargs d (graphNodes u) (graphAtoms u) hd2 (fun t ht => graphAtoms_leaf ht),
    graphOrder_split, List.mapM_append]
  cases (graphAtoms u).mapM (check symargs) with
  | error err => rfl
  | ok us =>
    simp only [bind, Except.bind]
    rw [mapM_getItem_names symargs symargs d hd2 (fun _ h => h)]
    have hloop := llvmOpsLoop_eq symargs (graphOrder u) (graphAtoms u) (graphNodes u) rfl
      (graphNodes_nodup u) (argsFirst_graphOrder u) (fun t ht => graphNodes_node ht)
      (graphNodes u) [] [] (by simp)
    simp only [List.append_nil, List.map_nil, List.nil_append] at hloop
    rw [← graphOrder_split]
    simp only
    rw [hloop]
    cases (graphNodes u).mapM (check symargs) with
    | error err => rfl
    | ok us' =>
      simp only [bind, Except.bind, pure, Except.pure]
      obtain ⟨l, hl⟩ := graphOrder_last u
      rw [← graphOrder_split, hl]
      simp [pyLast]

/-! ### Execution -/

section
variable {F : Type}

theorem execBody_append (A : IRArith F) (l rest : List Instr) (hr : rest ≠ []) :
    ∀ st, execBody A st (l ++ rest) =
      (l.foldlM (stepInstr A) st).bind (fun st' => execBody A st' rest) := by
  induction l with
  | nil => intro st; rfl
  | cons i l ih =>
    intro st
    have hne : l ++ rest ≠ [] := by simp [hr]
    have h1 : execBody A st (i :: (l ++ rest)) =
        (stepInstr A st i).bind (fun st' => execBody A st' (l ++ rest)) := by
      cases hlr : l ++ rest with
      | nil => exact absurd hlr hne
      | cons a as => cases i <;> rfl
    rw [List.cons_append, h1, List.foldlM_cons]
    cases stepInstr A st i with
    | none => rfl
    | some st' => exact ih st'

theorem lookup_zip {K : Type} [DecidableEq K] (f : K → String) (g : F → Cell F) (a : K) (v : F) :
    ∀ (ks : List K) (vs : List F), (ks.map f).Nodup → lastAssoc a (ks.zip vs) = some v →
      Dict.lookup (f a) ((ks.map f).zip (vs.map g)) = some (g v) := by
  intro ks
  induction ks with
  | nil => intro vs _ h; cases h
  | cons k ks ih =>
    intro vs hnd h
    cases vs with
    | nil => cases h
    | cons w ws =>
      rw [List.map_cons, List.nodup_cons] at hnd
      simp only [List.zip_cons_cons, lastAssoc] at h
      simp only [List.map_cons, List.zip_cons_cons, Dict.lookup]
      cases hl : lastAssoc a (ks.zip ws) with
      | some w' =>
        rw [hl] at h
        cases h
        have ha : a ∈ ks := by
          have := lastAssoc_mem hl
          exact (List.of_mem_zip this).1
        have hne : f k ≠ f a := by
          intro he
          exact hnd.1 (he ▸ List.mem_map.2 ⟨a, ha, rfl⟩)
        rw [if_neg hne]
        exact ih ws hnd.2 hl
      | none =>
        rw [hl] at h
        simp only at h
        split at h
        · rename_i hk
          cases h
          rw [hk, if_pos rfl]
        · cases h

theorem lastAssoc_of_mem {K W : Type} [DecidableEq K] (a : K) (ks : List K) (ws : List W)
    (hlen : ks.length = ws.length) (ha : a ∈ ks) : ∃ v, lastAssoc a (ks.zip ws) = some v := by
  cases h : lastAssoc a (ks.zip ws) with
  | some v => exact ⟨v, rfl⟩
  | none =>
    rw [lastAssoc_eq_none_iff, List.map_fst_zip (by omega)] at h
    exact absurd ha h

theorem lastAssoc_not_mem {K W : Type} [DecidableEq K] (a : K) (ks : List K) (ws : List W)
    (ha : a ∉ ks) : lastAssoc a (ks.zip ws) = none := by
  rw [lastAssoc_eq_none_iff]
  intro h
  obtain ⟨⟨k, w⟩, hm, rfl⟩ := List.mem_map.1 h
  exact ha (List.of_mem_zip hm).1

theorem lookup_mem_keys {K W : Type} [DecidableEq K] {k : K} {w : W} {l : List (K × W)}
    (h : Dict.lookup k l = some w) : k ∈ l.map Prod.fst := by
  induction l with
  | nil => cases h
  | cons p l ih =>
    obtain ⟨k', w'⟩ := p
    unfold Dict.lookup at h
    split at h
    · rename_i hk; simp [hk]
    · simp [ih h]

/-- the operand of a register that is not the newly defined one -/
theorem operandNum_define {A : IRArith F} {regs : List (String × Cell F)} {s dst : String}
    {c : Cell F} {v : F} (hf : dst ∉ regs.map Prod.fst) (h : operandNum A regs s = some v) :
    operandNum A ((dst, c) :: regs) s = some v := by
  unfold operandNum at h ⊢
  cases hh : hexValue s with
  | some b => rw [hh] at h; exact h
  | none =>
    rw [hh] at h
    have hne : dst ≠ s := by
      intro he; subst he
      have : Dict.lookup dst regs = none := by
        cases hl : Dict.lookup dst regs with
        | none => rfl
        | some w =>
          exfalso
          apply hf
          clear h hf
          induction regs with
          | nil => cases hl
          | cons p regs ih =>
            obtain ⟨k, w'⟩ := p
            unfold Dict.lookup at hl
            split at hl
            · rename_i hk; simp [hk]
            · simp [ih hl]
      rw [this] at h; cases h
    simp only [Dict.lookup, hne, if_false]
    exact h

theorem operandNum_new {A : IRArith F} {regs : List (String × Cell F)} {s : String} {v : F} :
    operandNum A ((quoteName s, .num v) :: regs) (quoteName s) = some v := by
  unfold operandNum
  rw [hexValue_quoteName]
  simp [Dict.lookup]

/-- What holds while the instructions are executed. -/
structure Running (A : IRArith F) (M : Meaning Val F) (id : Expr → String) (init : List String)
    (k : Nat) (done : List Expr) (st : IRState F) : Prop where
  keys : ∀ r ∈ st.regs.map Prod.fst, r ∈ init ∨ ∃ i, i < k ∧ r = regName i
  vals : ∀ t ∈ done, ∀ v, evalTree M t = .ok v → operandNum A st.regs (id t) = some v

theorem irMeaning_op {A : IRArith F} {symargs : List Expr} {vs ws : List F} {h : Expr} {v : F}
    (h2 : h = Expr.addH ∨ h = Expr.mulH → ws.length = 2)
    (ho : (irMeaning A symargs vs).op h ws = .ok v) :
    (h = Expr.addH ∧ ∃ a b, ws = [a, b] ∧ v = A.fadd a b) ∨
    (h = Expr.mulH ∧ ∃ a b, ws = [a, b] ∧ v = A.fmul a b) ∨
    (h = Expr.powH ∧ ∃ a b, ws = [a, b] ∧ v = A.pow a b) ∨
    (h = Expr.sinH ∧ ∃ a, ws = [a] ∧ v = A.sin a) ∨
    (h = Expr.cosH ∧ ∃ a, ws = [a] ∧ v = A.cos a) := by
  unfold irMeaning at ho
  simp only at ho
  by_cases e1 : h = Expr.addH
  · left
    obtain ⟨a, b, rfl⟩ := List.length_eq_two.1 (h2 (Or.inl e1))
    rw [if_pos e1] at ho
    exact ⟨e1, a, b, rfl, (Except.ok.inj ho).symm⟩
  rw [if_neg e1] at ho
  by_cases e2 : h = Expr.mulH
  · right; left
    obtain ⟨a, b, rfl⟩ := List.length_eq_two.1 (h2 (Or.inr e2))
    rw [if_pos e2] at ho
    exact ⟨e2, a, b, rfl, (Except.ok.inj ho).symm⟩
  rw [if_neg e2] at ho
  right; right
  rcases ws with _ | ⟨a, _ | ⟨b, _ | ⟨c, rest⟩⟩⟩
  · cases ho
  · right
    simp only at ho
    by_cases e4 : h = Expr.sinH
    · rw [if_pos e4] at ho
      exact Or.inl ⟨e4, a, rfl, (Except.ok.inj ho).symm⟩
    · rw [if_neg e4] at ho
      by_cases e5 : h = Expr.cosH
      · rw [if_pos e5] at ho
        exact Or.inr ⟨e5, a, rfl, (Except.ok.inj ho).symm⟩
      · rw [if_neg e5] at ho; cases ho
  · left
    simp only at ho
    by_cases e3 : h = Expr.powH
    · rw [if_pos e3] at ho
      exact ⟨e3, a, b, rfl, (Except.ok.inj ho).symm⟩
    · rw [if_neg e3] at ho; cases ho
  · cases ho

theorem heads_distinct : Expr.addH ≠ Expr.mulH ∧ Expr.powH ≠ Expr.addH ∧ Expr.powH ≠ Expr.mulH ∧
    Expr.sinH ≠ Expr.addH ∧ Expr.sinH ≠ Expr.mulH ∧ Expr.sinH ≠ Expr.powH ∧
    Expr.cosH ≠ Expr.addH ∧ Expr.cosH ≠ Expr.mulH ∧ Expr.cosH ≠ Expr.powH ∧
    Expr.cosH ≠ Expr.sinH ∧ Expr.listH ≠ Expr.addH ∧ Expr.listH ≠ Expr.mulH := by
  decide

theorem run_nodes (A : IRArith F) (symargs : List Expr) (vs : List F) (L atoms N : List Expr)
    (init : List String) (hL : L = atoms ++ N) (hnd : N.Nodup) (hargs : ArgsFirst L)
    (hN : ∀ t ∈ N, isLeaf t = false) :
    ∀ (rest dn more : List Expr) (st : IRState F), N = dn ++ rest ++ more →
    (∀ i, i < (dn ++ rest).length → regName i ∉ init) →
    (∀ t ∈ rest, IsAssocHead (headOf t) → (argsOf t).length = 2) →
    (∀ t ∈ atoms ++ dn ++ rest, ∃ v, evalTree (irMeaning A symargs vs) t = .ok v) →
    Running A (irMeaning A symargs vs) (identOf symargs N) init dn.length (atoms ++ dn) st →
    ∃ st', (rest.map (instrOf symargs N)).foldlM (stepInstr A) st = some st' ∧
      st'.mem = st.mem ∧
      Running A (irMeaning A symargs vs) (identOf symargs N) init (dn ++ rest).length
        (atoms ++ (dn ++ rest)) st' ∧
      (∀ r c, Dict.lookup r st.regs = some c → Dict.lookup r st'.regs = some c) := by
  intro rest
  induction rest with
  | nil =>
    intro dn more st _ _ _ _ hrun
    exact ⟨st, rfl, rfl, by simpa using hrun, fun _ _ h => h⟩
  | cons t rest ih =>
    intro dn more st hsplit hinit hbin hval hrun
    have htN : t ∈ N := by rw [hsplit]; simp
    have htl := hN t htN
    have hidx : N.idxOf t = dn.length := by
      have : t ∉ dn := by
        intro hm
        rw [hsplit] at hnd
        have := (List.nodup_append.1 (List.nodup_append.1 hnd).1).2.2
        exact this t hm t (by simp) rfl
      rw [hsplit, List.append_assoc, List.idxOf_append]
      simp [this]
    have hid : identOf symargs N t = regName dn.length := by
      unfold identOf; rw [htl, hidx]; rfl
    have hfresh : regName dn.length ∉ st.regs.map Prod.fst := by
      intro hm
      rcases hrun.keys _ hm with h | ⟨i, hi, he⟩
      · exact hinit _ (by simp) h
      · have := regName_inj he; omega
    -- values of the arguments
    obtain ⟨v, hv⟩ := hval t (by simp)
    have hv' := hv
    rw [evalTree_node _ htl] at hv'
    cases hm : (argsOf t).mapM (evalTree (irMeaning A symargs vs)) with
    | error err => rw [hm] at hv'; cases hv'
    | ok ws =>
    rw [hm] at hv'
    have hop : (irMeaning A symargs vs).op (headOf t) ws = .ok v := hv'
    have hlen := mapM_length _ _ _ hm
    have hargids : ∀ (cs : List Expr) (us : List F),
        cs.mapM (evalTree (irMeaning A symargs vs)) = .ok us → (∀ c ∈ cs, c ∈ atoms ++ dn) →
        List.Forall₂ (fun s w => operandNum A st.regs s = some w) (cs.map (identOf symargs N)) us := by
      intro cs
      induction cs with
      | nil => intro us h _; cases h; exact .nil
      | cons c cs ihc =>
        intro us h hcs
        rw [List.mapM_cons] at h
        cases h1 : evalTree (irMeaning A symargs vs) c with
        | error err => rw [h1] at h; cases h
        | ok w =>
          rw [h1] at h
          cases h2 : cs.mapM (evalTree (irMeaning A symargs vs)) with
          | error err => rw [h2] at h; cases h
          | ok ws' =>
            rw [h2] at h
            cases h
            exact .cons (hrun.vals c (hcs c (by simp)) w h1) (ihc ws' h2 (fun x hx => hcs x (by simp [hx])))
    have hids := hargids (argsOf t) ws hm
      (fun c hc => hargs (atoms ++ dn) t (rest ++ more) (by rw [hL, hsplit]; simp) c hc)
    -- the step
    have hstep : stepInstr A st (instrOf symargs N t) =
        some { st with regs := (regName dn.length, .num v) :: st.regs } := by
      have hdef : ∀ w, define st (regName dn.length) (.num w) =
          some { st with regs := (regName dn.length, .num w) :: st.regs } := by
        intro w; unfold define; rw [if_neg hfresh]
      have hbt : headOf t = Expr.addH ∨ headOf t = Expr.mulH → ws.length = 2 := by
        intro hh
        rw [← hlen]; exact hbin t (by simp) hh
      obtain ⟨d1, d2, d3, d4, d5, d6, d7, d8, d9, d10, _, _⟩ := heads_distinct
      unfold instrOf
      rw [hid]
      generalize (argsOf t).map (identOf symargs N) = argids at hids
      rcases irMeaning_op hbt hop with ⟨e1, a, b, hw, rfl⟩ | ⟨e1, a, b, hw, rfl⟩ |
          ⟨e1, a, b, hw, rfl⟩ | ⟨e1, a, hw, rfl⟩ | ⟨e1, a, hw, rfl⟩ <;> rw [hw] at hids
      · cases hids with | @cons s1 _ l1 _ ha hids' => cases hids' with | @cons s2 _ l2 _ hb hids'' =>
        cases hids''
        simp only [e1, lineOf, if_true, stepInstr, ha, hb, bind, Option.bind, hdef]
      · cases hids with | @cons s1 _ l1 _ ha hids' => cases hids' with | @cons s2 _ l2 _ hb hids'' =>
        cases hids''
        simp only [e1, lineOf, if_true, d1.symm, if_false, stepInstr, ha, hb, bind, Option.bind, hdef]
      · cases hids with | @cons s1 _ l1 _ ha hids' => cases hids' with | @cons s2 _ l2 _ hb hids'' =>
        cases hids''
        simp only [e1, lineOf, if_true, d2, d3, if_false, List.take, stepInstr, ha, hb, bind,
          Option.bind, hdef]
      · cases hids with | @cons s1 _ l1 _ ha hids' =>
        cases hids'
        simp only [e1, lineOf, if_true, d4, d5, d6, if_false, List.take, stepInstr, ha, bind,
          Option.bind, hdef]
      · cases hids with | @cons s1 _ l1 _ ha hids' =>
        cases hids'
        simp only [e1, lineOf, if_true, d7, d8, d9, d10, if_false, List.take, stepInstr, ha, bind,
          Option.bind, hdef]
    have hrun' : Running A (irMeaning A symargs vs) (identOf symargs N) init (dn ++ [t]).length
        (atoms ++ (dn ++ [t])) { st with regs := (regName dn.length, .num v) :: st.regs } := by
      constructor
      · intro r hr
        simp only [List.map_cons, List.mem_cons] at hr
        rcases hr with rfl | hr
        · exact Or.inr ⟨dn.length, by simp, rfl⟩
        · rcases hrun.keys r hr with h | ⟨i, hi, he⟩
          · exact Or.inl h
          · exact Or.inr ⟨i, by simp; omega, he⟩
      · intro c hc w hw
        rw [← List.append_assoc] at hc
        rcases List.mem_append.1 hc with hc | hc
        · exact operandNum_define hfresh (hrun.vals c hc w hw)
        · simp only [List.mem_singleton] at hc
          subst hc
          rw [hv] at hw
          cases hw
          rw [hid]
          exact operandNum_new
    obtain ⟨st', h1, h2, h3, h4⟩ := ih (dn ++ [t]) more _ (by rw [hsplit]; simp)
      (fun i hi => hinit i (by simpa using hi))
      (fun u hu => hbin u (by simp [hu])) (fun u hu => hval u (by simpa using hu)) hrun'
    refine ⟨st', ?_, h2, by simpa using h3, ?_⟩
    · rw [List.map_cons, List.foldlM_cons, hstep]
      exact h1
    · intro r c hl
      apply h4
      have hne : regName dn.length ≠ r := by
        intro he; subst he
        apply hfresh
        clear h1 h2 h3 h4 hrun' hstep hids hargids hrun
        obtain ⟨regs, mem⟩ := st
        simp only at hl ⊢
        clear hfresh
        induction regs with
        | nil => cases hl
        | cons p regs ih' =>
          obtain ⟨k, w'⟩ := p
          unfold Dict.lookup at hl
          split at hl
          · rename_i hk; simp [hk]
          · simp [ih' hl]
      simp only [Dict.lookup, hne, if_false]
      exact hl

end

end Verif
