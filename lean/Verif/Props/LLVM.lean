import Verif.Lemmas.LLVM
import Verif.Props.Double

/-!
# C34, C35, C37, C38: LLVM code for expressions
-/

set_option linter.unusedSectionVars false
set_option linter.unusedSimpArgs false
set_option exponentiation.threshold 2000

namespace Verif.Props
open Spec Expr

section
variable {F : Type}

theorem doubleBits_some (n : Int) (h : |n| < 2 ^ 1024 - 2 ^ 970) : ∃ b, doubleBits n = some b := by
  cases hb : doubleBits n with
  | some b => exact ⟨b, rfl⟩
  | none =>
    exfalso
    have h1 : ∃ err, doubleToHex (.int n) = .error err := ⟨.structError, by simp [doubleToHex, hb]⟩
    have h2 := (C45_too_large n).2.1 h1
    exact absurd h2 (not_le.2 h)

theorem doubleBits_lt (n : Int) (b : Nat) (h : doubleBits n = some b) : b < 2 ^ 64 := by
  unfold doubleBits at h
  split at h
  · cases hm : magnitudeBits n.natAbs with
    | none => rw [hm] at h; cases h
    | some c =>
      rw [hm] at h
      have := (magnitude_nearest _ _ hm).1
      cases h
      show 2 ^ 63 + c < _
      omega
  · have := (magnitude_nearest _ _ h).1; omega

theorem irMeaning_leaf_supported (A : IRArith F) (symargs : List Expr) (vs : List F)
    (hlen : symargs.length = vs.length) (t : Expr) (ht : AtomSupported symargs t) :
    ∃ v, (irMeaning A symargs vs).leaf t = .ok v := by
  unfold irMeaning
  simp only
  by_cases hm : t ∈ symargs
  · obtain ⟨v, hv⟩ := lastAssoc_of_mem t symargs vs hlen hm
    exact ⟨v, by rw [hv]⟩
  · rw [lastAssoc_not_mem t symargs vs hm]
    rcases ht with ht | ⟨n, rfl, hn⟩
    · exact absurd ht hm
    · obtain ⟨b, hb⟩ := doubleBits_some n hn
      exact ⟨A.const b, by simp [integer, hb]⟩

theorem irMeaning_op_supported (A : IRArith F) (symargs : List Expr) (vs ws : List F) (h : Expr)
    (hh : HeadSupported h ws.length) : ∃ v, (irMeaning A symargs vs).op h ws = .ok v := by
  obtain ⟨d1, d2, d3, d4, d5, d6, d7, d8, d9, d10, _, _⟩ := heads_distinct
  rcases hh with ⟨rfl | rfl, hn⟩ | ⟨rfl, hn⟩ | ⟨rfl | rfl, hn⟩
  · rcases ws with _ | ⟨a, ws⟩
    · simp at hn
    · exact ⟨_, by simp only [irMeaning, if_true, leftFold]; rfl⟩
  · rcases ws with _ | ⟨a, ws⟩
    · simp at hn
    · exact ⟨_, by simp only [irMeaning, if_true, d1.symm, if_false, leftFold]; rfl⟩
  · obtain ⟨a, b, rfl⟩ := List.length_eq_two.1 hn
    exact ⟨_, by simp only [irMeaning, if_true, d2, d3, if_false]; rfl⟩
  · obtain ⟨a, rfl⟩ := List.length_eq_one_iff.1 hn
    exact ⟨_, by simp only [irMeaning, if_true, d4, d5, d6, if_false]; rfl⟩
  · obtain ⟨a, rfl⟩ := List.length_eq_one_iff.1 hn
    exact ⟨_, by simp only [irMeaning, if_true, d7, d8, d9, d10, if_false]; rfl⟩

theorem supported_value (A : IRArith F) (symargs : List Expr) (vs : List F)
    (hlen : symargs.length = vs.length) (e : Expr) : Supported symargs e →
    ∃ v, evalTree (irMeaning A symargs vs) e = .ok v := by
  induction e using Tree.induction with
  | _ e ih =>
  intro hs
  cases hl : isLeaf e with
  | true =>
    rw [evalTree_leaf _ hl]
    refine irMeaning_leaf_supported A symargs vs hlen e (hs.atoms e (Reach.refl (by simp)) ?_)
    simpa [isLeaf] using hl
  | false =>
    rw [evalTree_node _ hl]
    cases e with
    | atom a => cases hl
    | node cs =>
      cases cs with
      | nil => cases hl
      | cons hd args =>
        show ∃ u, (args.mapM (evalTree _) >>= _) = _
        obtain ⟨ws, hws⟩ := mapM_ok_of_forall (evalTree (irMeaning A symargs vs)) args
          (fun c hc => by
            refine ih c (by simp [Tree.children, hc]) ⟨fun t ht htc => ?_, fun h as ht => ?_⟩
            · exact hs.atoms t (Reach.down (by simp) (by simpa [kids] using hc) ht) htc
            · exact hs.heads h as (Reach.down (by simp) (by simpa [kids] using hc) ht))
        rw [hws]
        refine irMeaning_op_supported A symargs vs ws hd ?_
        have := hs.heads hd args (Reach.refl (by simp))
        rwa [mapM_length _ _ _ hws] at this

theorem leftAssoc_leftFold (f : F → F → F) : LeftAssoc (leftFold f) := by
  refine ⟨fun v => rfl, fun v vs w => ?_⟩
  show leftFold f (v :: (vs ++ [w])) = _
  simp only [leftFold, List.foldl_append, List.foldl_cons, List.foldl_nil]
  rfl

theorem leftAssoc_ir (A : IRArith F) (symargs : List Expr) (vs : List F) :
    LeftAssoc ((irMeaning A symargs vs).op addH) ∧ LeftAssoc ((irMeaning A symargs vs).op mulH) := by
  have h1 : (irMeaning A symargs vs).op addH = leftFold A.fadd := by
    funext ws; simp [irMeaning]
  have h2 : (irMeaning A symargs vs).op mulH = leftFold A.fmul := by
    funext ws; simp [irMeaning, heads_distinct.1.symm]
  rw [h1, h2]
  exact ⟨leftAssoc_leftFold _, leftAssoc_leftFold _⟩

/-- No `Tree()` in a supported expression that a parameter does not stand for. -/
theorem check_of_value (A : IRArith F) (symargs : List Expr) (vs : List F)
    (t : Expr)
    (hbin : isLeaf t = false → IsAssocHead (headOf t) → (argsOf t).length = 2)
    (h : ∃ v, evalTree (irMeaning A symargs vs) t = .ok v) : check symargs t = .ok () := by
  obtain ⟨v, hv⟩ := h
  unfold check
  cases hl : isLeaf t with
  | true =>
    rw [evalTree_leaf _ hl] at hv
    simp only [if_true]
    unfold checkLeaf
    by_cases hm : t ∈ symargs
    · simp [hm]
    · simp only [hm, if_false]
      unfold irMeaning at hv
      simp only [lastAssoc_not_mem t symargs vs hm] at hv
      cases t with
      | node cs => cases hv
      | atom a =>
        obtain ⟨ty, val⟩ := a
        cases val with
        | str s => cases hv
        | int n =>
          simp only at hv ⊢
          by_cases hty : ty = Ty.integer
          · simp only [hty, if_true] at hv ⊢
            simp only [doubleToHex]
            cases hb : doubleBits n with
            | none => rw [hb] at hv; cases hv
            | some b => rfl
          · simp only [hty, if_false] at hv; cases hv
  | false =>
    rw [evalTree_node _ hl] at hv
    cases hm : (argsOf t).mapM (evalTree (irMeaning A symargs vs)) with
    | error err => rw [hm] at hv; cases hv
    | ok ws =>
      rw [hm] at hv
      have hlen' := mapM_length _ _ _ hm
      obtain ⟨d1, d2, d3, d4, d5, d6, d7, d8, d9, d10, _, _⟩ := heads_distinct
      have hop : (irMeaning A symargs vs).op (headOf t) ws = .ok v := hv
      rcases irMeaning_op (fun hh => by rw [← hlen']; exact hbin hl hh) hop with
        ⟨e1, a, b, rfl, _⟩ | ⟨e1, a, b, rfl, _⟩ | ⟨e1, a, b, rfl, _⟩ | ⟨e1, a, rfl, _⟩ |
        ⟨e1, a, rfl, _⟩ <;>
        simp [checkLine, e1, hlen', d1, d1.symm, d2, d3, d4, d5, d6, d7, d8, d9, d10]

theorem leaf_operand (A : IRArith F) (symargs : List Expr) (vs : List F) (N : List Expr)
    (pre : List (String × Cell F)) (hpre : ∀ p ∈ pre, p.1 ∉ symargs.map nameOf)
    (hnd : (symargs.map nameOf).Nodup) (hq : ∀ a ∈ symargs, ∃ s, nameOf a = quoteName s)
    (hlen : symargs.length = vs.length) (t : Expr)
    (hl : isLeaf t = true) (v : F) (hv : evalTree (irMeaning A symargs vs) t = .ok v) :
    operandNum A (pre ++ (symargs.map nameOf).zip (vs.map Cell.num)) (identOf symargs N t) =
      some v := by
  rw [evalTree_leaf _ hl] at hv
  have hid : identOf symargs N t = leafId symargs t := by unfold identOf; rw [hl]; rfl
  rw [hid]
  unfold leafId
  by_cases hm : t ∈ symargs
  · simp only [hm, if_true]
    obtain ⟨w, hw⟩ := lastAssoc_of_mem t symargs vs hlen hm
    unfold irMeaning at hv
    simp only [hw] at hv
    cases hv
    obtain ⟨s, hs⟩ := hq t hm
    unfold operandNum
    have hx : hexValue (nameOf t) = none := by rw [hs]; exact hexValue_quoteName s
    rw [hx]
    have hlook : Dict.lookup (nameOf t) (pre ++ (symargs.map nameOf).zip (vs.map Cell.num)) =
        some (Cell.num v) := by
      have hz := lookup_zip nameOf Cell.num t v symargs vs hnd hw
      clear hx
      induction pre with
      | nil => exact hz
      | cons p pre ih =>
        obtain ⟨k, c⟩ := p
        have hne : k ≠ nameOf t := by
          intro he
          exact hpre (k, c) (by simp) (by rw [he]; exact List.mem_map.2 ⟨t, hm, rfl⟩)
        simp only [List.cons_append, Dict.lookup, hne, if_false]
        exact ih (fun q hq' => hpre q (by simp [hq']))
    rw [hlook]
  · simp only [hm, if_false]
    unfold irMeaning at hv
    simp only [lastAssoc_not_mem t symargs vs hm] at hv
    cases t with
    | node cs => cases hv
    | atom a =>
      obtain ⟨ty, val⟩ := a
      cases val with
      | str s => cases hv
      | int n =>
        simp only at hv ⊢
        by_cases hty : ty = Ty.integer
        · simp only [hty, if_true] at hv
          simp only [doubleToHex]
          cases hb : doubleBits n with
          | none => rw [hb] at hv; cases hv
          | some b =>
            rw [hb] at hv
            cases hv
            simp only [operandNum, hexValue_pyHex]
        · simp only [hty, if_false] at hv; cases hv

end

/-- Facts about good parameter lists. -/
theorem goodParams_facts {symargs : List Expr} {reserved : List String}
    (h : GoodParams symargs reserved) :
    ∃ names, symargs.mapM treeStr = .ok names ∧ symargs.map nameOf = names.map quoteName ∧
      (symargs.map nameOf).Nodup ∧ (∀ a ∈ symargs, ∃ s, nameOf a = quoteName s) ∧
      (∀ i, regName i ∉ symargs.map nameOf) ∧ (∀ s ∈ reserved, quoteName s ∉ symargs.map nameOf) ∧
      (∀ r ∈ symargs.map nameOf, LocalName r) := by
  obtain ⟨names, h1, h2, h3⟩ := h
  obtain ⟨_, _, _, h4⟩ := argnames_ok symargs names h1
  refine ⟨names, h1, h4, ?_, ?_, ?_, ?_, ?_⟩
  · rw [h4]
    exact List.Nodup.map (fun a b hab => quoteName_inj hab) h2
  · intro a ha
    have : nameOf a ∈ names.map quoteName := by rw [← h4]; exact List.mem_map.2 ⟨a, ha, rfl⟩
    obtain ⟨s, _, hs⟩ := List.mem_map.1 this
    exact ⟨s, hs.symm⟩
  · intro i hm
    rw [h4] at hm
    obtain ⟨s, hs, he⟩ := List.mem_map.1 hm
    exact (h3 s hs).2.1 i (quoteName_inj he)
  · intro r hr hm
    rw [h4] at hm
    obtain ⟨s, hs, he⟩ := List.mem_map.1 hm
    rw [quoteName_inj he] at hs
    exact (h3 r hs).2.2 hr
  · intro r hr
    rw [h4] at hr
    obtain ⟨s, hs, rfl⟩ := List.mem_map.1 hr
    exact ⟨s, (h3 s hs).1, rfl⟩

/-- A trivial arithmetic, to talk about definedness only. -/
def unitArith : IRArith Unit := ⟨fun _ => (), fun _ _ => (), fun _ _ => (), fun _ _ => (), fun _ => (), fun _ => ()⟩

theorem binExpand_of_supported {symargs : List Expr} {e : Expr} (hd : (.node [] : Expr) ∉ symargs)
    (hs : Supported symargs e) : ∃ u, binExpand e = .ok u := by
  have hdeg : ¬ ArgSub e (.node []) := by
    intro h
    rcases hs.atoms _ h rfl with h' | ⟨n, h', _⟩
    · exact hd h'
    · cases h'
  refine (C20_bin_expand_raises e hdeg).1.2 (fun h hsub hh => ?_)
  obtain ⟨d1, d2, d3, d4, d5, d6, d7, d8, d9, d10, _, _⟩ := heads_distinct
  rcases hs.heads h [] hsub with ⟨_, hn⟩ | ⟨_, hn⟩ | ⟨_, hn⟩ <;> simp at hn

theorem nodeg_of_good {symargs : List Expr} {reserved : List String}
    (h : GoodParams symargs reserved) : (.node [] : Expr) ∉ symargs := by
  intro hm
  obtain ⟨names, h1, _⟩ := h
  obtain ⟨v, hv⟩ := mapM_ok_mem _ _ _ h1 _ hm
  cases hv

theorem binary_sub {e u t : Expr} (hu : binExpand e = .ok u) (ht : ArgSub u t) :
    isLeaf t = false → IsAssocHead (headOf t) → (argsOf t).length = 2 := by
  intro hl hh
  cases t with
  | atom a => cases hl
  | node cs =>
    cases cs with
    | nil => cases hl
    | cons h args => exact C20_bin_expand_binary e u hu h args ht hh

/-- What is generated for a supported expression. -/
theorem toLlvm_supported {symargs : List Expr} {reserved : List String} {e : Expr}
    (hg : GoodParams symargs reserved) (hs : Supported symargs e) :
    ∃ u, binExpand e = .ok u ∧
      (∀ {F : Type} (A : IRArith F) (vs : List F), symargs.length = vs.length →
        ∃ v, evalTree (irMeaning A symargs vs) e = .ok v ∧
          evalTree (irMeaning A symargs vs) u = .ok v) ∧
      toLlvm symargs e = .ok ⟨false, symargs.map nameOf,
        (graphNodes u).map (instrOf symargs (graphNodes u)) ++
          [.ret (identOf symargs (graphNodes u) u)]⟩ := by
  obtain ⟨names, hn, _⟩ := goodParams_facts hg
  obtain ⟨u, hu⟩ := binExpand_of_supported (nodeg_of_good hg) hs
  have hval : ∀ {F : Type} (A : IRArith F) (vs : List F), symargs.length = vs.length →
        ∃ v, evalTree (irMeaning A symargs vs) e = .ok v ∧
          evalTree (irMeaning A symargs vs) u = .ok v := by
    intro F A vs hlen
    obtain ⟨v, hv⟩ := supported_value A symargs vs hlen e hs
    refine ⟨v, hv, ?_⟩
    have := C20_bin_expand_value _ (leftAssoc_ir A symargs vs).1 (leftAssoc_ir A symargs vs).2 e u hu v
      (evaluates_iff.2 hv)
    exact evaluates_iff.1 this
  refine ⟨u, hu, hval, ?_⟩
  rw [toLlvm_eq symargs names e u hn hu]
  obtain ⟨v, _, hv⟩ := hval unitArith (List.replicate symargs.length ()) (by simp)
  obtain ⟨us, hus⟩ := mapM_ok_of_forall (check symargs) (graphOrder u) (fun t ht => ⟨(),
    check_of_value unitArith symargs (List.replicate symargs.length ()) t
      (binary_sub hu (mem_graphOrder.1 ht))
      (evalTree_ok_sub _ (mem_graphOrder.1 ht) ⟨v, hv⟩)⟩)
  rw [hus]
  rfl

/-! ### C34 -/

/-- What successful code generation says. -/
theorem toLlvm_inv {symargs : List Expr} {names : List String} {e : Expr} {fn : IRFunction}
    (hn : symargs.mapM treeStr = .ok names) (h : toLlvm symargs e = .ok fn) :
    ∃ u, binExpand e = .ok u ∧ (∀ t, ArgSub u t → check symargs t = .ok ()) ∧
      fn = ⟨false, symargs.map nameOf, (graphNodes u).map (instrOf symargs (graphNodes u)) ++
          [.ret (identOf symargs (graphNodes u) u)]⟩ := by
  cases hu : binExpand e with
  | error err =>
    unfold toLlvm at h
    rw [hu] at h; cases h
  | ok u =>
    rw [toLlvm_eq symargs names e u hn hu] at h
    cases hm : (graphOrder u).mapM (check symargs) with
    | error err => rw [hm] at h; cases h
    | ok us =>
      rw [hm] at h
      refine ⟨u, rfl, ?_, (Except.ok.inj h).symm⟩
      intro t ht
      obtain ⟨w, hw⟩ := mapM_ok_mem _ _ _ hm t (mem_graphOrder.2 ht)
      rw [hw]

theorem argnames_error {symargs : List Expr} {err : PyErr}
    (h : symargs.mapM treeStr = .error err) : llvmArgnames symargs = .error err := by
  have hbad : ∀ l : List Expr, l.mapM treeStr = .error err →
      l.mapM (fun s => do return (s, quoteName (← treeStr s))) =
        (.error err : PyM (List (Expr × String))) := by
    intro l
    induction l with
    | nil => intro h; cases h
    | cons a l ih =>
      intro h
      rw [List.mapM_cons] at h ⊢
      cases ha : treeStr a with
      | error err' => rw [ha] at h; cases h; rfl
      | ok s =>
        rw [ha] at h
        cases hl : l.mapM treeStr with
        | ok ss => rw [hl] at h; cases h
        | error err' =>
          rw [hl] at h
          cases h
          rw [ih hl]; rfl
  unfold llvmArgnames; rw [hbad _ h]; rfl

/-- Code is generated only if the parameters can be printed. -/
theorem names_of_ok {symargs : List Expr} {e : Expr} {fn : IRFunction}
    (h : toLlvm symargs e = .ok fn) : ∃ names, symargs.mapM treeStr = .ok names := by
  cases hn : symargs.mapM treeStr with
  | ok names => exact ⟨names, rfl⟩
  | error err =>
    exfalso
    unfold toLlvm at h
    cases hb : binExpand e with
    | error err' => rw [hb] at h; cases h
    | ok u => simp only [hb, forwardGraph_eq, argnames_error hn, bind, Except.bind] at h; cases h

theorem operand_static {symargs N done : List Expr} {t : Expr} (ht : isLeaf t = true ∨ t ∈ done) (hck : check symargs t = .ok ()) :
    IsConst (identOf symargs N t) ∨ identOf symargs N t ∈ symargs.map nameOf ∨
      identOf symargs N t ∈ done.map (identOf symargs N) := by
  rcases ht with hl | hd
  · have hid : identOf symargs N t = leafId symargs t := by unfold identOf; rw [hl]; rfl
    rw [hid]
    unfold check at hck
    rw [hl] at hck
    simp only [if_true] at hck
    unfold checkLeaf at hck
    unfold leafId
    by_cases hm : t ∈ symargs
    · right; left
      simp only [hm, if_true]
      exact List.mem_map.2 ⟨t, hm, rfl⟩
    · left
      simp only [hm, if_false] at hck ⊢
      cases t with
      | node cs => cases hck
      | atom a =>
        obtain ⟨ty, val⟩ := a
        simp only at hck ⊢
        by_cases hty : ty = Ty.integer
        · simp only [hty, if_true] at hck
          cases val with
          | str s => cases hck
          | int n =>
            simp only [doubleToHex] at hck ⊢
            cases hb : doubleBits n with
            | none => rw [hb] at hck; cases hck
            | some b => exact ⟨b, hexValue_pyHex b, doubleBits_lt n b hb⟩
        · simp only [hty, if_false] at hck; cases hck
  · exact Or.inr (Or.inr (List.mem_map.2 ⟨t, hd, rfl⟩))

theorem checkLine_ok {h : Expr} {n : Nat} (hc : checkLine h n = .ok ()) :
    h = addH ∨ h = mulH ∨ (h = powH ∧ 2 ≤ n) ∨ (h = sinH ∧ 1 ≤ n) ∨ (h = cosH ∧ 1 ≤ n) := by
  unfold checkLine at hc
  split at hc
  · exact Or.inl (by assumption)
  split at hc
  · exact Or.inr (Or.inl (by assumption))
  split at hc
  · split at hc
    · exact Or.inr (Or.inr (Or.inl ⟨by assumption, by assumption⟩))
    · cases hc
  split at hc
  · split at hc
    · exact Or.inr (Or.inr (Or.inr (Or.inl ⟨by assumption, by assumption⟩)))
    · cases hc
  split at hc
  · split at hc
    · exact Or.inr (Or.inr (Or.inr (Or.inr ⟨by assumption, by assumption⟩)))
    · cases hc
  cases hc

theorem instrOf_facts {symargs N : List Expr} {t : Expr} (hl : isLeaf t = false)
    (hbin : IsAssocHead (headOf t) → (argsOf t).length = 2) (hck : check symargs t = .ok ()) :
    Instr.defs (instrOf symargs N t) = some (identOf symargs N t) ∧
    (∀ u ∈ Instr.uses (instrOf symargs N t), ∃ c ∈ argsOf t, u = identOf symargs N c) ∧
    Instr.ArityOK (instrOf symargs N t) ∧ ¬ Instr.IsRet (instrOf symargs N t) := by
  unfold check at hck
  rw [hl] at hck
  have hck' : checkLine (headOf t) (argsOf t).length = .ok () := hck
  have hmap : ∀ u ∈ (argsOf t).map (identOf symargs N), ∃ c ∈ argsOf t, u = identOf symargs N c := by
    intro u hu
    obtain ⟨c, hc, rfl⟩ := List.mem_map.1 hu
    exact ⟨c, hc, rfl⟩
  obtain ⟨d1, d2, d3, d4, d5, d6, d7, d8, d9, d10, _, _⟩ := heads_distinct
  rcases checkLine_ok hck' with e1 | e1 | ⟨e1, hn⟩ | ⟨e1, hn⟩ | ⟨e1, hn⟩
  · have := hbin (Or.inl e1)
    refine ⟨by simp [instrOf, lineOf, e1, Instr.defs], ?_, ?_, ?_⟩
    · simpa [instrOf, lineOf, e1, Instr.uses] using hmap
    · simp [instrOf, lineOf, e1, Instr.ArityOK, this]
    · simp [instrOf, lineOf, e1, Instr.IsRet]
  · have := hbin (Or.inr e1)
    refine ⟨by simp [instrOf, lineOf, e1, d1.symm, Instr.defs], ?_, ?_, ?_⟩
    · simpa [instrOf, lineOf, e1, d1.symm, Instr.uses] using hmap
    · simp [instrOf, lineOf, e1, d1.symm, Instr.ArityOK, this]
    · simp [instrOf, lineOf, e1, d1.symm, Instr.IsRet]
  · refine ⟨by simp [instrOf, lineOf, e1, d2, d3, Instr.defs], ?_, ?_, ?_⟩
    · intro u hu
      simp only [instrOf, lineOf, e1, d2, d3, Instr.uses, if_true, if_false] at hu
      exact hmap u (List.mem_of_mem_take hu)
    · simp [instrOf, lineOf, e1, d2, d3, Instr.ArityOK, hn]
    · simp [instrOf, lineOf, e1, d2, d3, Instr.IsRet]
  · refine ⟨by simp [instrOf, lineOf, e1, d4, d5, d6, Instr.defs], ?_, ?_, ?_⟩
    · intro u hu
      simp only [instrOf, lineOf, e1, d4, d5, d6, Instr.uses, if_true, if_false] at hu
      exact hmap u (List.mem_of_mem_take hu)
    · simp [instrOf, lineOf, e1, d4, d5, d6, Instr.ArityOK, hn]
    · simp [instrOf, lineOf, e1, d4, d5, d6, Instr.IsRet]
  · refine ⟨by simp [instrOf, lineOf, e1, d7, d8, d9, d10, Instr.defs], ?_, ?_, ?_⟩
    · intro u hu
      simp only [instrOf, lineOf, e1, d7, d8, d9, d10, Instr.uses, if_true, if_false] at hu
      exact hmap u (List.mem_of_mem_take hu)
    · simp [instrOf, lineOf, e1, d7, d8, d9, d10, Instr.ArityOK, hn]
    · simp [instrOf, lineOf, e1, d7, d8, d9, d10, Instr.IsRet]

/-- The static facts about the instructions for (a prefix of) the compound subexpressions. -/
structure NodesStatic (symargs : List Expr) (k : Nat) (code : List Instr) : Prop where
  defs : code.filterMap Instr.defs = (List.range k).map regName
  uses : ∀ pre i post, code = pre ++ i :: post → ∀ u ∈ Instr.uses i,
    IsConst u ∨ u ∈ symargs.map nameOf ∨ u ∈ pre.filterMap Instr.defs
  arity : ∀ i ∈ code, Instr.ArityOK i ∧ ¬ Instr.IsRet i

theorem filterMap_defs {symargs N dn : List Expr}
    (h : ∀ t ∈ dn, Instr.defs (instrOf symargs N t) = some (identOf symargs N t)) :
    (dn.map (instrOf symargs N)).filterMap Instr.defs = dn.map (identOf symargs N) := by
  induction dn with
  | nil => rfl
  | cons t dn ih =>
    rw [List.map_cons, List.map_cons, List.filterMap_cons_some (h t (by simp)),
      ih (fun u hu => h u (by simp [hu]))]

theorem ident_range {symargs dn more : List Expr} (hnd : (dn ++ more).Nodup)
    (hl : ∀ t ∈ dn, isLeaf t = false) :
    dn.map (identOf symargs (dn ++ more)) = (List.range dn.length).map regName := by
  apply List.ext_getElem
  · simp
  · intro i h1 h2
    simp only [List.length_map] at h1
    rw [List.getElem_map, List.getElem_map, List.getElem_range]
    unfold identOf
    rw [hl _ (List.getElem_mem h1)]
    simp only [Bool.false_eq_true, if_false]
    congr 1
    have := List.Nodup.idxOf_getElem hnd i (by simp; omega)
    rw [List.getElem_append_left h1] at this
    exact this

theorem nodes_static {symargs : List Expr} {u : Expr} (dn more : List Expr)
    (hN : graphNodes u = dn ++ more)
    (hck : ∀ t ∈ graphAtoms u ++ dn, check symargs t = .ok ())
    (hbin : ∀ t ∈ dn, IsAssocHead (headOf t) → (argsOf t).length = 2) :
    NodesStatic symargs dn.length (dn.map (instrOf symargs (graphNodes u))) := by
  have hleaf : ∀ t ∈ dn, isLeaf t = false := fun t ht => graphNodes_node (u := u) (by rw [hN]; simp [ht])
  have hfacts : ∀ t ∈ dn, _ := fun t ht =>
    instrOf_facts (N := graphNodes u) (hleaf t ht) (hbin t ht) (hck t (by simp [ht]))
  have hnd : (dn ++ more).Nodup := by rw [← hN]; exact graphNodes_nodup u
  refine ⟨?_, ?_, ?_⟩
  · rw [filterMap_defs (fun t ht => (hfacts t ht).1), hN]
    exact ident_range hnd hleaf
  · intro pre i post hsplit w hw
    obtain ⟨d1, d2, hd, hpre, hi⟩ := List.map_eq_append_iff.1 hsplit
    obtain ⟨t, d3, hd2, hit, _⟩ := List.map_eq_cons_iff.1 hi
    subst hpre; subst hit
    rw [hd2] at hd
    have htdn : t ∈ dn := by rw [hd]; simp
    obtain ⟨c, hc, rfl⟩ := (hfacts t htdn).2.1 w hw
    have hcm : c ∈ graphAtoms u ++ d1 :=
      argsFirst_graphOrder u (graphAtoms u ++ d1) t (d3 ++ more)
        (by rw [graphOrder_split, hN, hd]; simp) c hc
    rw [filterMap_defs (fun t ht => (hfacts t (by rw [hd]; simp [ht])).1)]
    refine operand_static (done := d1) ?_ (hck c ?_)
    · rcases List.mem_append.1 hcm with h | h
      · exact Or.inl (graphAtoms_leaf h)
      · exact Or.inr h
    · rcases List.mem_append.1 hcm with h | h
      · simp [h]
      · rw [hd]; simp [h]
  · intro i hi
    obtain ⟨t, ht, rfl⟩ := List.mem_map.1 hi
    exact (hfacts t ht).2.2

/-- The code for an expression obeys the rules when the parameter names do. -/
theorem ssa_of_names {symargs : List Expr} {e u : Expr} (hu : binExpand e = .ok u)
    (hck : ∀ t, ArgSub u t → check symargs t = .ok ()) (hnd : (symargs.map nameOf).Nodup)
    (hloc : ∀ r ∈ symargs.map nameOf, LocalName r)
    (hreg : ∀ i, i < (graphNodes u).length → regName i ∉ symargs.map nameOf) :
    SSA ⟨false, symargs.map nameOf, (graphNodes u).map (instrOf symargs (graphNodes u)) ++
          [.ret (identOf symargs (graphNodes u) u)]⟩ := by
  have hst := nodes_static (symargs := symargs) (u := u) (graphNodes u) [] (by simp)
    (fun t ht => hck t (mem_graphOrder.1 ht))
    (fun t ht hh => binary_sub hu (mem_graphOrder.1 (by rw [graphOrder_split]; simp [ht]))
      (graphNodes_node ht) hh)
  have hdefs : ((graphNodes u).map (instrOf symargs (graphNodes u)) ++
      [Instr.ret (identOf symargs (graphNodes u) u)]).filterMap Instr.defs =
      (List.range (graphNodes u).length).map regName := by
    rw [List.filterMap_append, hst.defs]
    simp [Instr.defs]
  have huuse : IsConst (identOf symargs (graphNodes u) u) ∨
      identOf symargs (graphNodes u) u ∈ symargs.map nameOf ∨
      identOf symargs (graphNodes u) u ∈
        ((graphNodes u).map (instrOf symargs (graphNodes u))).filterMap Instr.defs := by
    rw [hst.defs, ← ident_range (symargs := symargs) (dn := graphNodes u) (more := [])
      (by simpa using graphNodes_nodup u) (fun t ht => graphNodes_node ht)]
    simp only [List.append_nil]
    refine operand_static ?_ (hck u (Reach.refl (by simp)))
    obtain ⟨l, hl⟩ := graphOrder_last u
    have : u ∈ graphAtoms u ++ graphNodes u := by rw [← graphOrder_split, hl]; simp
    rcases List.mem_append.1 this with h' | h'
    · exact Or.inl (graphAtoms_leaf h')
    · exact Or.inr h'
  refine ⟨?_, ?_, ?_, ?_, ⟨_, _, rfl, trivial, fun i hi => (hst.arity i hi).2⟩, ?_⟩
  · rw [hdefs]
    simp only [IRFunction.registers, Bool.false_eq_true, if_false, List.nil_append]
    rw [List.nodup_append]
    refine ⟨hnd, List.Nodup.map (fun a b hab => regName_inj hab) List.nodup_range, ?_⟩
    intro a ha b hb he
    obtain ⟨i, hi, rfl⟩ := List.mem_map.1 hb
    exact hreg i (List.mem_range.1 hi) (he ▸ ha)
  · intro pre i post hsplit w hw
    simp only [IRFunction.registers, Bool.false_eq_true, if_false, List.nil_append]
    rcases List.append_eq_append_iff.1 hsplit with ⟨a, ha, hb⟩ | ⟨a, ha, hb⟩
    · cases a with
      | nil =>
        simp only [List.nil_append, List.cons.injEq] at hb
        obtain ⟨rfl, _⟩ := hb
        simp only [List.append_nil] at ha
        subst ha
        simp only [Instr.uses, List.mem_singleton] at hw
        subst hw
        exact huuse
      | cons b a =>
        simp at hb
    · cases a with
      | nil =>
        simp only [List.nil_append, List.cons.injEq] at hb
        obtain ⟨rfl, _⟩ := hb
        simp only [List.append_nil] at ha
        subst ha
        simp only [Instr.uses, List.mem_singleton] at hw
        subst hw
        exact huuse
      | cons b a =>
        simp only [List.cons_append, List.cons.injEq] at hb
        obtain ⟨rfl, _⟩ := hb
        exact hst.uses pre i a ha w hw
  · intro r hr
    rw [hdefs] at hr
    simp only [IRFunction.registers, Bool.false_eq_true, if_false, List.nil_append] at hr
    rcases List.mem_append.1 hr with hr | hr
    · exact hloc r hr
    · obtain ⟨i, _, rfl⟩ := List.mem_map.1 hr
      exact localName_reg i
  · intro i hi
    rcases List.mem_append.1 hi with hi | hi
    · exact (hst.arity i hi).1
    · simp only [List.mem_singleton] at hi
      subst hi; trivial
  · intro t ht hr
    rcases List.mem_append.1 ht with ht | ht
    · exact absurd hr (hst.arity t ht).2
    · simp only [List.mem_singleton] at ht
      subst ht; simp

/-- **C34.** Whatever expression code is generated for, the code obeys the rules of static single
assignment exactly when the printed names of the parameters are legal, differ from each other
and from the registers `.0`, `.1`, … that the code defines. -/
theorem C34_ssa (symargs : List Expr) (e : Expr) (fn : IRFunction)
    (h : toLlvm symargs e = .ok fn) :
    SSA fn ↔ ∃ names, symargs.mapM treeStr = .ok names ∧ names.Nodup ∧
      ∀ s ∈ names, SafeName s ∧ ∀ n : Nat, n + 1 < fn.body.length → s ≠ "." ++ toString n := by
  obtain ⟨names, hn⟩ := names_of_ok h
  obtain ⟨u, hu, hck, rfl⟩ := toLlvm_inv hn h
  obtain ⟨_, _, _, hmap⟩ := argnames_ok symargs names hn
  have hlen : ((graphNodes u).map (instrOf symargs (graphNodes u)) ++
      [Instr.ret (identOf symargs (graphNodes u) u)]).length = (graphNodes u).length + 1 := by simp
  constructor
  · intro hs
    have h1 := hs.once
    have h2 := hs.names
    simp only [IRFunction.registers, Bool.false_eq_true, if_false, List.nil_append, hmap] at h1 h2
    rw [List.nodup_append] at h1
    refine ⟨names, hn, List.Nodup.of_map _ h1.1, ?_⟩
    intro s hs'
    have hq : quoteName s ∈ names.map quoteName := List.mem_map.2 ⟨s, hs', rfl⟩
    constructor
    · obtain ⟨s', hs1, hs2⟩ := h2 (quoteName s) (List.mem_append_left _ hq)
      have : quoteName s = quoteName s' := hs2
      rw [quoteName_inj this]
      exact hs1
    · intro n hlt he
      rw [hlen] at hlt
      have hst := nodes_static (symargs := symargs) (u := u) (graphNodes u) [] (by simp)
        (fun t ht => hck t (mem_graphOrder.1 ht))
        (fun t ht hh => binary_sub hu (mem_graphOrder.1 (by rw [graphOrder_split]; simp [ht]))
          (graphNodes_node ht) hh)
      refine h1.2.2 _ hq (regName n) ?_ (by rw [he]; rfl)
      rw [List.filterMap_append, hst.defs]
      exact List.mem_append_left _ (List.mem_map.2 ⟨n, List.mem_range.2 (by omega), rfl⟩)
  · rintro ⟨names', hn', hnd, hg⟩
    rw [hn] at hn'
    obtain rfl := Except.ok.inj hn'
    refine ssa_of_names hu hck ?_ ?_ ?_
    · rw [hmap]
      exact List.Nodup.map (fun a b hab => quoteName_inj hab) hnd
    · rw [hmap]
      intro r hr
      obtain ⟨s, hs, rfl⟩ := List.mem_map.1 hr
      exact ⟨s, (hg s hs).1, rfl⟩
    · rw [hmap]
      intro i hi hm
      obtain ⟨s, hs, he⟩ := List.mem_map.1 hm
      exact (hg s hs).2 i (by rw [hlen]; omega) (quoteName_inj he)

/-! ### C35 -/

/-- **C35.** If code is generated for a supported expression and obeys the rules of C34, then
calling it with any parameter values on any machine returns the value of the expression. -/
theorem C35_computes_expression (symargs : List Expr) (e : Expr) (fn : IRFunction)
    (hs : Supported symargs e) (h : toLlvm symargs e = .ok fn) (hssa : SSA fn)
    {F : Type} (A : IRArith F) (vs mem : List F) (hlen : symargs.length = vs.length) :
    ∃ v, Evaluates (irMeaning A symargs vs) e v ∧
      IRFunction.run A fn vs mem = some (some v, mem) := by
  obtain ⟨names, hn⟩ := names_of_ok h
  obtain ⟨_, _, _, hq1⟩ := argnames_ok symargs names hn
  obtain ⟨u, hu, hck, rfl⟩ := toLlvm_inv hn h
  have honce := hssa.once
  simp only [IRFunction.registers, Bool.false_eq_true, if_false, List.nil_append] at honce
  rw [List.nodup_append] at honce
  have hnd := honce.1
  have hq : ∀ a ∈ symargs, ∃ s, nameOf a = quoteName s := by
    intro a ha
    have : nameOf a ∈ names.map quoteName := by rw [← hq1]; exact List.mem_map.2 ⟨a, ha, rfl⟩
    obtain ⟨s, _, hs⟩ := List.mem_map.1 this
    exact ⟨s, hs.symm⟩
  have hreg : ∀ i, i < (graphNodes u).length → regName i ∉ symargs.map nameOf := by
    intro i hi hm
    refine honce.2.2 _ hm (regName i) ?_ rfl
    have hst := nodes_static (symargs := symargs) (u := u) (graphNodes u) [] (by simp)
      (fun t ht => hck t (mem_graphOrder.1 ht))
      (fun t ht hh => binary_sub hu (mem_graphOrder.1 (by rw [graphOrder_split]; simp [ht]))
        (graphNodes_node ht) hh)
    rw [List.filterMap_append, hst.defs]
    exact List.mem_append_left _ (List.mem_map.2 ⟨i, List.mem_range.2 hi, rfl⟩)
  obtain ⟨v, hv⟩ := supported_value A symargs vs hlen e hs
  have hvu := evaluates_iff.1 (C20_bin_expand_value _ (leftAssoc_ir A symargs vs).1
    (leftAssoc_ir A symargs vs).2 e u hu v (evaluates_iff.2 hv))
  refine ⟨v, evaluates_iff.2 hv, ?_⟩
  unfold IRFunction.run
  simp only [IRFunction.registers, if_false, List.nil_append, List.length_map, Bool.false_eq_true]
  rw [if_pos ⟨hlen, hnd⟩, execBody_append _ _ _ (by simp)]
  have hsub : ∀ t ∈ graphAtoms u ++ graphNodes u, ∃ w,
      evalTree (irMeaning A symargs vs) t = .ok w := by
    intro t ht
    rw [← graphOrder_split] at ht
    exact evalTree_ok_sub _ (mem_graphOrder.1 ht) ⟨v, hvu⟩
  obtain ⟨st', h1, h2, h3, _⟩ := run_nodes A symargs vs (graphOrder u) (graphAtoms u) (graphNodes u)
    (symargs.map nameOf) rfl (graphNodes_nodup u) (argsFirst_graphOrder u)
    (fun t ht => graphNodes_node ht) (graphNodes u) [] []
    ⟨(symargs.map nameOf).zip (vs.map Cell.num), mem⟩ (by simp) (by simpa using hreg)
    (fun t ht hh => binary_sub hu (mem_graphOrder.1 (by rw [graphOrder_split]; simp [ht]))
      (graphNodes_node ht) hh)
    (by simpa using hsub)
    ⟨by
      intro r hr
      left
      simp only at hr
      rw [List.map_fst_zip (by simp [hlen])] at hr
      exact hr,
     by
      intro t ht w hw
      have ht' : t ∈ graphAtoms u := by simpa using ht
      exact leaf_operand A symargs vs (graphNodes u) [] (by simp) hnd hq hlen t
        (graphAtoms_leaf ht') w hw⟩
  rw [h1]
  have hlast : u ∈ graphAtoms u ++ ([] ++ graphNodes u) := by
    obtain ⟨l, hl⟩ := graphOrder_last u
    show u ∈ graphOrder u
    rw [hl]; simp
  have := h3.vals u hlast v hvu
  simp only [Option.bind_some, execBody, this, Option.map_some, h2]

/-- **C35.** With good parameter names and a supported expression code is generated and obeys
the rules of C34. -/
theorem C35_generated (symargs : List Expr) (e : Expr) (hg : GoodParams symargs)
    (hs : Supported symargs e) : ∃ fn, toLlvm symargs e = .ok fn ∧ SSA fn := by
  obtain ⟨u, hu, hval, hgen⟩ := toLlvm_supported hg hs
  refine ⟨_, hgen, (C34_ssa symargs e _ hgen).2 ?_⟩
  obtain ⟨names, h1, h2, h3⟩ := hg
  exact ⟨names, h1, h2, fun s hs => ⟨(h3 s hs).1, fun n _ => (h3 s hs).2.1 n⟩⟩

/-- The hypotheses of C35 hold of `lambdify([x, y], sin(x + y + 2) * y**x)`, whose code computes
`fmul (sin (fadd (fadd x y) 2)) (pow y x)`. -/
example : GoodParams [x, y] ∧
    Supported [x, y] (mul (sin (addH.call [x, y, integer 2])) (pow y x)) := by
  constructor
  · refine ⟨["x", "y"], rfl, by decide, ?_⟩
    intro s hs
    have key : ∀ t : String, t.toList.head? ≠ some '.' → ∀ n : Nat, t ≠ "." ++ toString n := by
      intro t ht n he
      rw [he] at ht
      simp [String.toList_append] at ht
    simp only [List.mem_cons, List.not_mem_nil, or_false] at hs
    rcases hs with rfl | rfl
    · exact ⟨⟨by decide, by decide⟩, key _ (by decide), by simp⟩
    · exact ⟨⟨by decide, by decide⟩, key _ (by decide), by simp⟩
  · constructor
    · intro t ht hc
      rw [← reach_topo] at ht
      have : ∀ t ∈ topologicalSort false [] (mul (sin (addH.call [x, y, integer 2])) (pow y x)),
          t.children = [] → t = x ∨ t = y ∨ t = integer 2 := by decide +kernel
      rcases this t ht hc with rfl | rfl | rfl
      · exact Or.inl (by decide)
      · exact Or.inl (by decide)
      · exact Or.inr ⟨2, rfl, by norm_num⟩
    · intro h args ht
      rw [← reach_topo] at ht
      have : ∀ t ∈ topologicalSort false [] (mul (sin (addH.call [x, y, integer 2])) (pow y x)),
          t.children = [] ∨ ((headOf t = addH ∨ headOf t = mulH) ∧ 1 ≤ (argsOf t).length) ∨
          (headOf t = powH ∧ (argsOf t).length = 2) ∨
          ((headOf t = sinH ∨ headOf t = cosH) ∧ (argsOf t).length = 1) := by decide +kernel
      rcases this _ ht with h' | h'
      · cases h'
      · exact h'

/-- The code for `lambdify([x, y], sin(x + y + 2) * y**x)`. -/
example : toLlvm [x, y] (mul (sin (addH.call [x, y, integer 2])) (pow y x)) =
    .ok ⟨false, ["%\"x\"", "%\"y\""],
      [.arith "%\".0\"" "fadd" ["%\"x\"", "%\"y\""],
       .arith "%\".1\"" "fadd" ["%\".0\"", "0x4000000000000000"],
       .call "%\".2\"" "sin" ["%\".1\""],
       .call "%\".3\"" "pow" ["%\"y\"", "%\"x\""],
       .arith "%\".4\"" "fmul" ["%\".2\"", "%\".3\""],
       .ret "%\".4\""]⟩ := by decide +kernel

/-- **C34, bad names.** Symbols named like a register, a parameter given twice, a `Symbol` and a
`Function` of the same name, or a name with a quote in it: code is generated but it is not in
static single assignment form. -/
theorem C34_bad_names_false :
    (∃ fn, toLlvm [symbol ".0"] (sin (symbol ".0")) = .ok fn ∧ ¬ SSA fn) ∧
    (∃ fn, toLlvm [x, x] x = .ok fn ∧ ¬ SSA fn) ∧
    (∃ fn, toLlvm [x, function "x"] x = .ok fn ∧ ¬ SSA fn) ∧
    (∃ fn, toLlvm [symbol "a\"b"] x = .error .llvmNotImplemented ∧
      toLlvm [symbol "a\"b"] (symbol "a\"b") = .ok fn ∧ ¬ SSA fn) := by
  refine ⟨⟨⟨false, ["%\".0\""], [.call "%\".0\"" "sin" ["%\".0\""], .ret "%\".0\""]⟩,
      by decide +kernel, fun h => absurd h.once (by decide)⟩,
    ⟨⟨false, ["%\"x\"", "%\"x\""], [.ret "%\"x\""]⟩,
      by decide +kernel, fun h => absurd h.once (by decide)⟩,
    ⟨⟨false, ["%\"x\"", "%\"x\""], [.ret "%\"x\""]⟩,
      by decide +kernel, fun h => absurd h.once (by decide)⟩, ?_⟩
  have hgen : toLlvm [symbol "a\"b"] (symbol "a\"b") =
      .ok ⟨false, ["%\"a\"b\""], [.ret "%\"a\"b\""]⟩ := by decide +kernel
  refine ⟨⟨false, ["%\"a\"b\""], [.ret "%\"a\"b\""]⟩, by decide +kernel, hgen, fun h => ?_⟩
  obtain ⟨names, h1, _, h3⟩ := (C34_ssa _ _ _ hgen).1 h
  have : names = ["a\"b"] := (Except.ok.inj h1).symm
  subst this
  have := (h3 "a\"b" (by simp)).1.2 '"' (by decide)
  exact this.1 rfl

end Verif.Props
