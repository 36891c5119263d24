import Verif.Lemmas.FramesPrint

/-!
# Lemmas for C70: the evaluators of simplecas, code generation, conversion from SymPy
-/

namespace Verif.Props
open Spec Framed

variable (c : FrameUse)

/-! ### Evaluators -/

/-- An evaluator made by `framedRules` needs what its rules and its fallback rules need. -/
theorem rulesNeed_framed {T : Type} {k j : Nat} {ev : Evaluator PyM Val T}
    {gO : Expr → List T → Framed T} {gA : Expr → Framed T} {e : Expr} (hk : j ≤ k)
    (hO : ∀ head args vals, ArgSub e (.node (head :: args)) → ev.operations.get? head = none →
      Within k (gO head vals) (ev.genericOperationFunc head vals))
    (hA : ∀ a, ArgSub e (.atom a) → Within k (gA (.atom a)) (ev.genericAtomFunc (.atom a))) :
    RulesNeed k e (framedRules j ev gO gA) ev where
  atom a ha _ := by
    cases a with
    | node cs => exact within_throw _
    | atom a =>
      unfold Evaluator.evalAtom
      simp only [Tree.value]
      have : (framedRules j ev gO gA).atoms.get? a.atomType =
          (ev.atoms.get? a.atomType).map (fun f v => frames j (here (f v))) :=
        lookup_map (fun (_ : AtomType) (f : Val → PyM T) (v : Val) => frames j (here (f v))) _ _
      rw [this]
      cases ev.atoms.get? a.atomType with
      | none => exact hA a ha
      | some f => exact Within.push' (within_here (k := 0) _) (by omega)
  operation head args vals ha := by
    unfold Evaluator.evalOperation
    have : (framedRules j ev gO gA).operations.get? head =
        (ev.operations.get? head).map (framedOp j) :=
      lookup_map (fun (_ : Expr) (f : OpFunc PyM T) => framedOp j f) _ _
    rw [this]
    cases h : ev.operations.get? head with
    | none => exact hO head args vals ha h
    | some f =>
      cases f with
      | star f => exact Within.push' (within_here (k := 0) _) (by omega)
      | seq f => exact Within.push' (within_here (k := 0) _) (by omega)

theorem within_symEval {T : Type} [HasNone T] {k : Nat} {ev' : Evaluator Framed Val T}
    {ev : Evaluator PyM Val T} {e : Expr} (h : RulesNeed k e ev' ev) (values : Option (Dict Expr T)) :
    Within (max (9 + c.comp) (6 + k + c.comp)) (framedSymEval c ev' e values)
      (symEvalCall ev e values) := by
  refine Within.push' (k := max (8 + c.comp) (5 + k + c.comp)) ?_ (by omega)
  refine Within.push' (k := max (7 + c.comp) (4 + k + c.comp)) ?_ (by omega)
  cases values with
  | none => exact Within.bind_ok (within_ret _) (within_evaluate c h _)
  | some values =>
    exact Within.bind_ok (Within.push' (within_ret (k := 0) _) (by omega)) (within_evaluate c h _)

/-- `repr` of a head in which `Tree()` does not occur. -/
theorem within_repr_proper (printable : Char → Bool) {t : Expr} (hp : Proper t) :
    ∃ s, Within (reprBound c (depth t)) (framedRepr c printable t) (.ok s) := by
  rcases treeRepr_cases printable t with ⟨_, s, hs⟩ | ⟨h, _⟩
  · exact ⟨s, (exactly_repr c printable t s hs).within⟩
  · exact absurd hp h

theorem proper_atom (a : Atom Val) : Proper (.atom a) := by
  intro hr
  cases hr with
  | down _ hc _ => cases hc

theorem proper_head {e hd : Expr} {args : List Expr} (hp : Proper e)
    (h : ArgSub e (.node (hd :: args))) : Proper hd := fun hr =>
  hp (Reach.trans (argSub_reach h) (.down (by simp) (by simp [kids]) hr))

theorem proper_sub {e t : Expr} (hp : Proper e) (h : ArgSub e t) : Proper t := fun hr =>
  hp (Reach.trans (argSub_reach h) hr)

theorem within_operationError {T : Type} (printable : Char → Bool) {h : Nat} {head : Expr}
    (hp : Proper head) (hd : depth head ≤ h) (vals : List T) :
    Within (1 + reprBound c h) (framedOperationError c printable head vals)
      (.error .noEvaluationRule) := by
  obtain ⟨s, hs⟩ := within_repr_proper c printable hp
  exact Within.push' ((hs.mono (linear_mono hd)).bind_ok (within_throw _)) (Nat.le_refl _)

theorem within_atomError {T : Type} (printable : Char → Bool) (h : Nat) (a : Atom Val) :
    Within (1 + reprBound c h) (framedAtomError c printable (.atom a) : Framed T)
      (.error .noEvaluationRule) := by
  have hp := proper_atom a
  obtain ⟨s, hs⟩ := within_repr_proper c printable hp
  exact Within.push' ((hs.mono (linear_mono (Nat.zero_le h))).bind_ok (within_throw _))
    (Nat.le_refl _)

theorem within_reprCall {h : Nat} {head : Expr} (hd : depth head ≤ h) (args : List String) :
    Within (1 + strBound c h) (framedReprCall c head args) (reprCall head args) :=
  Within.push' (((within_str c head).mono (linear_mono hd)).bind (fun _ _ => within_pure _))
    (Nat.le_refl _)

theorem within_evalF64 {F : Type} [HasNone F] (printable : Char → Bool) (A : FloatOps F) (e : Expr)
    (values : Option (Dict Expr F)) {h : Nat} (hp : Proper e) (hd : HeadDepth h e) :
    Within (7 + reprBound c h + c.comp) (framedEvalF64 c printable A e values)
      (Expr.evalF64 A e values) := by
  refine (within_symEval c (k := 1 + reprBound c h) (rulesNeed_framed (by omega) ?_ ?_) values).mono
    (by unfold reprBound linear; omega)
  · intro head args vals ha _
    exact within_operationError c printable (proper_head hp ha) (hd head args ha) vals
  · intro a _
    exact within_atomError c printable h a

theorem within_evalRepr (e : Expr) {h : Nat} (hd : HeadDepth h e) :
    Within (9 + strBound c h + c.comp) (framedEvalRepr c e) (Expr.repr e) := by
  refine (within_symEval c (k := 1 + strBound c h) (rulesNeed_framed (by omega) ?_ ?_) none).mono
    (by unfold strBound linear; omega)
  · intro head args vals ha _
    exact within_reprCall c (hd head args ha) vals
  · intro a _
    exact (within_str c (.atom a)).mono
      (Nat.le_trans (linear_mono (Nat.zero_le h)) (Nat.le_add_left _ _))

theorem within_exprRepr (e : Expr) {h : Nat} (hd : HeadDepth h e) :
    Within (10 + strBound c h + c.comp + c.slot) (framedExprRepr c e) (Expr.repr e) := by
  refine Within.push' (k := 10 + strBound c h + c.comp) ?_ (by omega)
  exact Within.push' (within_evalRepr c e hd) (by omega)

theorem within_exprLatex (printable : Char → Bool) (e : Expr) {h : Nat} (hd : HeadDepth h e) :
    Within (9 + reprBound c h + c.comp) (framedExprLatex c printable e) (Expr.latex e) := by
  refine (within_symEval c (k := 1 + reprBound c h) (rulesNeed_framed (by omega) ?_ ?_) none).mono
    (by unfold reprBound linear; omega)
  · intro head args vals ha _
    exact (within_reprCall c (hd head args ha) vals).mono
      (by unfold strBound reprBound linear; omega)
  · intro a _
    exact within_atomError c printable h a

theorem within_countOpsTree (e : Expr) :
    Within (9 + c.comp) (framedCountOpsTree c e) (countOpsTree e) := by
  refine (within_symEval c (k := 1) (rulesNeed_framed (by omega) ?_ ?_) none).mono (by omega)
  · intro head args vals _ _
    exact Within.push' (within_ret (k := 0) _) (by omega)
  · intro a _
    exact Within.push' (within_ret (k := 0) _) (by omega)

/-! ### Code generation -/

theorem within_llvmArgnames {h : Nat} (l : List Expr) (hl : ∀ s ∈ l, depth s ≤ h) :
    Within (strBound c h) (framedLlvmArgnames c l)
      (l.mapM (fun s => do return (s, quoteName (← treeStr s)))) := by
  induction l with
  | nil => exact within_pure _
  | cons s l ih =>
    rw [List.mapM_cons]
    unfold framedLlvmArgnames
    have h1 := (within_str c s).mono (k := strBound c h) (linear_mono (hl s (by simp)))
    have h2 := ih (fun t ht => hl t (by simp [ht]))
    have h3 := h1.bind (f := fun name => do
        let pairs ← framedLlvmArgnames c l
        return (s, quoteName name) :: pairs)
      (q := fun name => do
        let pairs ← l.mapM (fun s => (do return (s, quoteName (← treeStr s)) : PyM _))
        return (s, quoteName name) :: pairs)
      (fun name _ => h2.bind (fun pairs _ => within_pure _))
    cases hs : treeStr s <;> rw [hs] at h3 <;> exact h3

theorem within_llvmAtom (printable : Char → Bool) (symargs : List Expr) (names : Dict Expr String)
    (a : Expr) :
    Within (reprBound c 0) (framedLlvmAtom c printable symargs names a)
      (llvmAtom symargs names a) := by
  unfold framedLlvmAtom llvmAtom
  split
  · exact within_here _
  · cases a with
    | node cs => exact within_throw _
    | atom a =>
      simp only
      split
      · exact Within.push' (within_here (k := 0) _) (by unfold reprBound linear; omega)
      · have hp := proper_atom a
        obtain ⟨s, hs⟩ := within_repr_proper c printable hp
        exact hs.bind_ok (within_throw _)

theorem within_llvmAtoms (printable : Char → Bool) (symargs : List Expr) (names : Dict Expr String)
    (l : List Expr) :
    Within (reprBound c 0) (framedLlvmAtoms c printable symargs names l)
      (l.mapM (llvmAtom symargs names)) := by
  induction l with
  | nil => exact within_pure _
  | cons a l ih =>
    rw [List.mapM_cons]
    exact (within_llvmAtom c printable symargs names a).bind (fun i _ => ih.bind
      (fun is _ => within_pure _))

theorem within_llvmLine (printable : Char → Bool) {h : Nat} (identifier : String) (func : Expr)
    (argids : List String) (hp : Proper func) (hd : depth func ≤ h) :
    Within (reprBound c h) (framedLlvmLine c printable identifier func argids)
      (llvmLine identifier func argids) := by
  unfold framedLlvmLine
  split
  · exact within_here _
  · rename_i hn
    simp only [List.mem_cons, List.not_mem_nil, or_false, not_or] at hn
    obtain ⟨h1, h2, h3, h4, h5⟩ := hn
    unfold llvmLine
    rw [if_neg h1, if_neg h2, if_neg h3, if_neg h4, if_neg h5]
    obtain ⟨s, hs⟩ := within_repr_proper c printable hp
    exact (hs.mono (linear_mono hd)).bind_ok (within_throw _)

theorem within_llvmOps (printable : Char → Bool) {h : Nat} (l : List (Expr × List Nat)) :
    ∀ (identifiers : List String) (instructions : List Instr),
    (∀ p ∈ l, Proper p.1 ∧ depth p.1 ≤ h) →
    Within (reprBound c h + c.comp) (framedLlvmOps c printable identifiers instructions l)
      (llvmOpsLoop identifiers instructions l) := by
  induction l with
  | nil => intro _ _ _; exact within_pure _
  | cons p l ih =>
    intro identifiers instructions hl
    obtain ⟨func, is⟩ := p
    unfold framedLlvmOps llvmOpsLoop
    dsimp only
    refine Within.bind (Within.push' (within_here (k := 0) _) (by omega)) (fun argids _ => ?_)
    have hp := hl (func, is) (by simp)
    refine Within.bind ((within_llvmLine c printable _ func argids hp.1 hp.2).mono (by omega))
      (fun line _ => ?_)
    exact ih _ _ (fun q hq => hl q (by simp [hq]))

/-- The heads after `bin_expand` are those from before, `Add` and `Mul`. -/
theorem binExpand_heads {e u hd : Expr} {args : List Expr} (hu : binExpand e = .ok u)
    (h : ArgSub u (.node (hd :: args))) :
    IsAssocHead hd ∨ ∃ args', ArgSub e (.node (hd :: args')) := by
  by_cases ha : IsAssocHead hd
  · exact .inl ha
  · have ho : Occurs u (hd, args.length + 1) := ⟨_, h, rfl, .inr ha⟩
    obtain ⟨t, ht, hk, _⟩ := (binExpands_occurs _ ((C20_bin_expand_nests e u).1 hu)).1 ho
    cases t with
    | atom a => cases hk
    | node cs => cases cs with
      | nil => cases hk
      | cons hd' args' =>
        have : hd' = hd := congrArg Prod.fst hk
        exact .inr ⟨args', this ▸ ht⟩

theorem within_llvmCode (printable : Char → Bool) (symargs : List Expr) (e : Expr) {h : Nat}
    (hp : Proper e) (hd : HeadDepth h e) (hs : ∀ s ∈ symargs, depth s ≤ h) :
    Within (9 + c.weak + reprBound c h + c.comp) (framedLlvmCode c printable symargs e)
      (toLlvm symargs e) := by
  refine Within.push' (k := 8 + c.weak + reprBound c h + c.comp) ?_ (by omega)
  have hsr : strBound c h ≤ reprBound c h := by unfold strBound reprBound linear; omega
  have hr0 : reprBound c 0 ≤ reprBound c h := linear_mono (Nat.zero_le h)
  unfold toLlvm
  refine ((within_binExpandTree c e).mono (by omega)).bind (fun u hu => ?_)
  refine ((within_graph c u).mono (by omega)).bind (fun g hg => ?_)
  obtain ⟨hA, hO⟩ := graph_parts hg
  have hnames : Within (8 + c.weak + reprBound c h + c.comp) (do
      let pairs ← frames c.comp (framedLlvmArgnames c symargs)
      return Dict.ofPairs pairs) (llvmArgnames symargs) :=
    (Within.push' (within_llvmArgnames c symargs hs) (by omega)).bind (fun _ _ => within_pure _)
  have e1 := hnames.bind (f := fun argnames => do
    let identifiers ← framedLlvmAtoms c printable symargs argnames g.atoms
    let params ← frames 1 (here (symargs.mapM argnames.getItem))
    let (identifiers, instructions) ← framedLlvmOps c printable identifiers [] g.operations
    let last ← here (pyLast identifiers)
    return (⟨false, params, instructions ++ [.ret last]⟩ : IRFunction)) (q := fun argnames => do
    let identifiers ← g.atoms.mapM (llvmAtom symargs argnames)
    let params ← symargs.mapM argnames.getItem
    let (identifiers, instructions) ← llvmOpsLoop identifiers [] g.operations
    let last ← pyLast identifiers
    return (⟨false, params, instructions ++ [.ret last]⟩ : IRFunction)) (fun names _ => by
    refine ((within_llvmAtoms c printable symargs names _).mono (by omega)).bind (fun ids _ => ?_)
    refine (Within.push' (within_here (k := 0) _) (by omega)).bind (fun params _ => ?_)
    refine Within.bind ((within_llvmOps c printable (h := h) _ _ _ ?_).mono (by omega))
      (fun r _ => ?_)
    · intro p hp'
      obtain ⟨args, ha⟩ := hO p hp'
      rcases binExpand_heads hu ha with h' | ⟨args', ha'⟩
      · rcases h' with h' | h' <;> rw [h'] <;> exact ⟨proper_atom _, Nat.zero_le h⟩
      · exact ⟨proper_head hp ha', hd p.1 args' ha'⟩
    · exact (within_here _).bind (fun last _ => within_pure _))
  refine Eq.mp ?_ e1
  congr 1
  funext n
  show Framed.andThen (Framed.andThen _ _) _ n = Framed.andThen _ _ n
  unfold Framed.andThen
  cases frames c.comp (framedLlvmArgnames c symargs) n with
  | none => rfl
  | some r => cases r <;> rfl

theorem within_toLlvm (printable : Char → Bool) (symargs : List Expr) (e : Expr) {h : Nat}
    (hp : Proper e) (hd : HeadDepth h e) (hs : ∀ s ∈ symargs, depth s ≤ h) :
    Within (10 + c.weak + reprBound c h + c.comp) (framedToLlvm c printable symargs e)
      (toLlvm symargs e) := by
  refine Within.push' (k := 9 + c.weak + reprBound c h + c.comp) ?_ (by omega)
  exact (within_outside (by omega)).bind_ok (within_llvmCode c printable symargs e hp hd hs)

/-! ### Conversion from SymPy -/

theorem pyCall_exprs (hd : Expr) (args : List Expr) :
    Expr.pyCall hd (args.map .expr) = .ok (hd.call args) := by
  unfold Expr.pyCall
  have : (args.map PyObj.expr).mapM expressify = .ok args := by
    induction args with
    | nil => rfl
    | cons a l ih => rw [List.map_cons, List.mapM_cons, ih]; rfl
  rw [this]; rfl

theorem within_fromSympyBuild (k : SKind) (args : List Expr) :
    Within (5 + c.weak + c.comp) (framedFromSympyBuild c k args) (fromSympyBuild k args) := by
  have h := fun hd => pyCall_exprs hd args ▸ within_exprCall c hd (args.map .expr)
  cases k with
  | undef name =>
    exact ((within_atomExpr c Ty.function (.str name)).mono (by omega)).bind_ok (h _)
  | other _ => exact within_throw _
  | _ => exact h _

/-- The frames that `from_sympy` needs for an object of depth `d`. -/
def sympyBound (c : FrameUse) (d : Nat) : Nat := linear (2 + c.comp) (5 + c.weak) d

theorem within_withCache {k : Nat} (cache : Dict SExpr Expr) (s : SExpr)
    {x : Framed (Expr × Dict SExpr Expr)} {r : PyM (Expr × Dict SExpr Expr)} (h : Within k x r) :
    Within k (framedWithCache cache s x) (withCache cache s r) := by
  unfold framedWithCache withCache
  cases cache.get? s with
  | some e => exact within_pure _
  | none => exact h.bind (fun p _ => within_pure _)

mutual
theorem within_fromSympyCache (s : SExpr) (cache : Dict SExpr Expr) :
    Within (sympyBound c (sympyDepth s)) (framedFromSympyCache c s cache) (fromSympyCache s cache) := by
  match s with
  | .int n =>
    unfold framedFromSympyCache fromSympyCache
    refine Within.push' (k := 3 + c.weak) ?_ (by unfold sympyBound linear; omega)
    exact within_withCache _ _ ((within_atomExpr c _ _).bind_ok (within_pure _))
  | .sym name a =>
    unfold framedFromSympyCache fromSympyCache
    refine Within.push' (k := 3 + c.weak) ?_ (by unfold sympyBound linear; omega)
    exact within_withCache _ _ ((within_atomExpr c _ _).bind_ok (within_pure _))
  | .cls name =>
    unfold framedFromSympyCache fromSympyCache
    refine Within.push' (k := 1) ?_ (by unfold sympyBound linear; omega)
    exact within_withCache _ _ (Within.push' (within_throw (k := 0) _) (by omega))
  | .leaf id =>
    unfold framedFromSympyCache fromSympyCache
    refine Within.push' (k := 0) ?_ (by unfold sympyBound linear; omega)
    exact within_withCache _ _ (within_throw _)
  | .app k as =>
    unfold framedFromSympyCache fromSympyCache
    rw [sympyDepth, sympyBound, linear_succ]
    change Within (2 + c.comp + sympyBound c (sympyDepthList as)) _ _
    refine Within.push' (k := 1 + c.comp + sympyBound c (sympyDepthList as)) ?_ (by omega)
    refine within_withCache _ _ ?_
    split
    · exact within_throw _
    · refine Within.push' (k := c.comp + sympyBound c (sympyDepthList as)) ?_ (by omega)
      refine Within.bind (Within.push' (within_fromSympyCacheList as cache) (Nat.le_refl _))
        (fun p _ => ?_)
      refine Within.bind ((within_fromSympyBuild c k p.1).mono
        (by unfold sympyBound linear; omega)) (fun r _ => within_pure _)
theorem within_fromSympyCacheList (ss : List SExpr) (cache : Dict SExpr Expr) :
    Within (sympyBound c (sympyDepthList ss)) (framedFromSympyCacheList c ss cache)
      (fromSympyCacheList ss cache) := by
  match ss with
  | [] => unfold framedFromSympyCacheList fromSympyCacheList; exact within_pure _
  | s :: ss =>
    unfold framedFromSympyCacheList fromSympyCacheList
    rw [sympyDepthList, sympyBound, linear_max]
    change Within (max (sympyBound c (sympyDepth s)) (sympyBound c (sympyDepthList ss))) _ _
    refine ((within_fromSympyCache s cache).mono (Nat.le_max_left _ _)).bind (fun p _ => ?_)
    refine ((within_fromSympyCacheList ss p.2).mono (Nat.le_max_right _ _)).bind
      (fun q _ => within_pure _)
end

theorem within_fromSympy (s : SExpr) :
    Within (2 + sympyBound c (sympyDepth s)) (framedFromSympy c s) (fromSympy s) := by
  refine Within.push' (k := 1 + sympyBound c (sympyDepth s)) ?_ (by omega)
  refine Within.push' (k := sympyBound c (sympyDepth s)) ?_ (by omega)
  exact (within_fromSympyCache c s Dict.empty).bind (fun p _ => within_pure _)

end Verif.Props
