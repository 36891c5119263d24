import Verif.Lemmas.FramesRules
import Verif.Model.FramesMatrix

/-!
# Lemmas for C70: matrices, `lambdify`, SymPy, the assignment of rules
-/

namespace Verif.Props
open Spec Framed

variable (c : FrameUse)

theorem within_syms (l : List Expr) : Within (1 + c.weak) (framedSyms c l) (.ok l) := by
  induction l with
  | nil => exact within_pure _
  | cons t ts ih => exact (within_sym c t).bind_ok (ih.bind_ok (within_pure _))

theorem within_args (e : Expr) : Within (3 + c.weak) (framedArgs c e) (.ok e.args) := by
  refine Within.push' (k := 2 + c.weak) ?_ (by omega)
  exact Within.push' (within_syms c _) (by omega)

theorem within_head (e : Expr) : Within (2 + c.weak) (framedHead c e) e.head := by
  refine Within.push' (k := 1 + c.weak) ?_ (by omega)
  unfold Expr.head
  have h1 := (within_here (k := 1 + c.weak) (pyGet e.children 0)).bind (fun h _ => within_sym c h)
  rw [bind_pure_ok] at h1
  exact h1

/-! ### Matrices -/

theorem within_matMake (nrows ncols : Nat) (elements : List Expr) (entrymap : Dict (Nat × Nat) Nat) :
    Within (6 + c.weak + c.comp) (framedMatMake c nrows ncols elements entrymap)
      (.ok (Mat.mk' nrows ncols elements entrymap)) := by
  refine Within.push' (k := 5 + c.weak + c.comp) ?_ (by omega)
  have h := within_exprCall c Expr.listH (elements.map .expr)
  rw [pyCall_exprs] at h
  exact h.bind_ok (within_pure _)

theorem within_expressifyRows (l : List (List PyObj)) :
    Within (4 + c.weak + c.comp) (framedExpressifyRows c l)
      (l.mapM (fun row => row.mapM expressify)) := by
  induction l with
  | nil => exact within_pure _
  | cons row rows ih =>
    rw [List.mapM_cons]
    exact (Within.push' (within_expressifyAll c row) (by omega)).bind
      (fun e _ => ih.bind (fun es _ => within_pure _))

theorem within_matNew (entries : PyEntries) :
    Within (7 + c.weak + 2 * c.comp) (framedMatNew c entries) (Mat.new entries) := by
  refine Within.push' (k := 6 + c.weak + 2 * c.comp) ?_ (by omega)
  unfold Mat.new
  cases entries with
  | other => exact within_throw _
  | list rows =>
    refine (within_outside (by omega)).bind_ok ?_
    simp only
    cases rows.mapM PyRow.asList with
    | none => exact within_throw _
    | some rows' =>
      simp only
      refine (within_here _).bind (fun row _ => ?_)
      refine (within_outside (by omega)).bind_ok ?_
      split
      · exact within_throw _
      · refine (Within.push' (within_expressifyRows c rows') (by omega)).bind (fun ess _ => ?_)
        exact (within_matMake c _ _ _ _).mono (by omega)

theorem within_matTolist (m : Mat) : Within (1 + c.comp) (framedMatTolist c m) m.tolist := by
  refine Within.push' (k := c.comp) ?_ (by omega)
  exact (within_outside (by omega)).bind_ok (within_here _)

theorem within_binopLoop (otherElements : List Expr) (func : Expr) (l : List ((Nat × Nat) × Nat)) :
    ∀ s, Within (5 + c.weak + c.comp) (framedBinopLoop c otherElements func l s)
      (Mat.binopLoop otherElements func l s) := by
  induction l with
  | nil => intro s; exact within_pure _
  | cons p l ih =>
    intro s
    obtain ⟨ij, nOther⟩ := p
    obtain ⟨els, em⟩ := s
    unfold framedBinopLoop Mat.binopLoop
    cases em.get? ij with
    | some n =>
      simp only
      refine (within_here _).bind (fun a _ => (within_here _).bind (fun b _ => ?_))
      have h := within_exprCall c func [.expr a, .expr b]
      rw [show [PyObj.expr a, PyObj.expr b] = [a, b].map .expr from rfl, pyCall_exprs] at h
      exact h.bind_ok ((within_here _).bind (fun els' _ => ih _))
    | none => exact (within_here _).bind (fun e _ => ih _)

theorem within_matBinop (self other : Mat) (func : Expr) :
    Within (7 + c.weak + c.comp) (framedMatBinop c self other func) (self.binop other func) := by
  refine Within.push' (k := 6 + c.weak + c.comp) ?_ (by omega)
  unfold Mat.binop
  simp only
  split
  · exact within_throw _
  · exact ((within_binopLoop c _ _ _ _).mono (by omega)).bind (fun s _ => within_matMake c _ _ _ _)

theorem within_matAdd (self other : Mat) :
    Within (8 + c.weak + c.comp) (framedMatAdd c self other) (self.add other) :=
  Within.push' (within_matBinop c self other Expr.addH) (by omega)

theorem within_matDiff (p : DiffProps Val) (self : Mat) (sym : PyObj) :
    Within (9 + c.weak + c.comp) (framedMatDiff c p self sym) (self.diff sym p) := by
  refine Within.push' (k := 8 + c.weak + c.comp) ?_ (by omega)
  unfold Mat.diff
  cases sym with
  | expr x =>
    refine ((within_exprDiff c p self.elementsGraph x 1).mono (by omega)).bind (fun d _ => ?_)
    exact ((within_args c d).mono (by omega)).bind_ok ((within_matMake c _ _ _ _).mono (by omega))
  | int n => exact within_throw _
  | other k => exact within_throw _

theorem within_reprs {h : Nat} (l : List Expr) (hl : ∀ e ∈ l, HeadDepth h e) :
    Within (10 + strBound c h + c.comp + c.slot) (framedReprs c l) (l.mapM Expr.repr) := by
  induction l with
  | nil => exact within_pure _
  | cons e es ih =>
    rw [List.mapM_cons]
    exact (within_exprRepr c e (hl e (by simp))).bind
      (fun s _ => (ih (fun e he => hl e (by simp [he]))).bind (fun ss _ => within_pure _))

theorem within_reprRows {h : Nat} (l : List (List Expr)) (hl : ∀ row ∈ l, ∀ e ∈ row, HeadDepth h e) :
    Within (10 + strBound c h + c.comp + 2 * c.slot) (framedReprRows c l)
      (l.mapM (fun row => do
        let ss ← row.mapM Expr.repr
        return pyReprList ss)) := by
  induction l with
  | nil => exact within_pure _
  | cons row rows ih =>
    rw [List.mapM_cons, bind_assoc]
    refine (Within.push' (within_reprs c row (hl row (by simp))) (by omega)).bind (fun ss _ => ?_)
    exact (ih (fun r hr => hl r (by simp [hr]))).bind (fun ss _ => within_pure _)

theorem within_matRepr {h : Nat} (m : Mat) (hm : ∀ rows, m.tolist = .ok rows →
    ∀ row ∈ rows, ∀ e ∈ row, HeadDepth h e) :
    Within (11 + strBound c h + c.comp + 4 * c.slot) (framedMatRepr c m) m.repr := by
  refine Within.push' (k := 11 + strBound c h + c.comp + 3 * c.slot) ?_ (by omega)
  refine Within.push' (k := 10 + strBound c h + c.comp + 3 * c.slot) ?_ (by omega)
  unfold Mat.repr
  refine ((within_matTolist c m).mono (by omega)).bind (fun rows hr => ?_)
  exact (Within.push' (within_reprRows c rows (hm rows hr)) (by omega)).bind (fun ss _ => within_pure _)

/-! ### Code generation -/

theorem within_llvmMatrixCode (printable : Char → Bool) (symargs : List Expr) (m : Mat) {h : Nat}
    (hp : Proper m.elementsGraph) (hd : HeadDepth h m.elementsGraph) (hs : ∀ s ∈ symargs, depth s ≤ h) :
    Within (9 + c.weak + reprBound c h + c.comp) (framedLlvmMatrixCode c printable symargs m)
      (toLlvmMatrix symargs m) := by
  refine Within.push' (k := 8 + c.weak + reprBound c h + c.comp) ?_ (by omega)
  have hsr : strBound c h ≤ reprBound c h := by unfold strBound reprBound linear; omega
  have hr0 : reprBound c 0 ≤ reprBound c h := linear_mono (Nat.zero_le h)
  unfold toLlvmMatrix
  refine ((within_binExpandTree c _).mono (by omega)).bind (fun u hu => ?_)
  refine ((within_graph c u).mono (by omega)).bind (fun g hg => ?_)
  obtain ⟨hA, hO⟩ := graph_parts hg
  unfold llvmArgnames
  rw [bind_assoc]
  refine (Within.push' (within_llvmArgnames c symargs hs) (by omega)).bind (fun pairs _ => ?_)
  refine ((within_llvmAtoms c printable symargs _ _).mono (by omega)).bind (fun ids _ => ?_)
  refine (Within.push' (within_here (k := 0) _) (by omega)).bind (fun params _ => ?_)
  refine Within.bind ((within_llvmOps c printable (h := h) _ _ _ ?_).mono (by omega))
    (fun r _ => ?_)
  · intro p hp'
    obtain ⟨args, ha⟩ := hO p (List.mem_of_mem_dropLast hp')
    rcases binExpand_heads hu ha with h' | ⟨args', ha'⟩
    · rcases h' with h' | h' <;> rw [h'] <;> exact ⟨proper_atom _, Nat.zero_le h⟩
    · exact ⟨proper_head hp ha', hd p.1 args' ha'⟩
  · exact (within_here _).bind (fun last _ => (within_here _).bind (fun is _ => within_pure _))

theorem within_matToLlvm (printable : Char → Bool) (symargs : List Expr) (m : Mat) {h : Nat}
    (hp : Proper m.elementsGraph) (hd : HeadDepth h m.elementsGraph) (hs : ∀ s ∈ symargs, depth s ≤ h) :
    Within (10 + c.weak + reprBound c h + c.comp) (framedMatToLlvm c printable symargs m)
      (toLlvmMatrix symargs m) := by
  refine Within.push' (k := 9 + c.weak + reprBound c h + c.comp) ?_ (by omega)
  exact (within_outside (by omega)).bind_ok (within_llvmMatrixCode c printable symargs m hp hd hs)

theorem within_lambdify (printable : Char → Bool) (lib : Nat) (args : List PyObj) (x : LambdifyArg)
    {h : Nat} (hx : Compilable h x) (hs : ∀ s, .expr s ∈ args → depth s ≤ h) :
    Within (11 + c.weak + reprBound c h + c.comp + lib) (framedLambdify c printable lib args x)
      (lambdifyCode args x) := by
  refine Within.push' (k := 10 + c.weak + reprBound c h + c.comp + lib) ?_ (by omega)
  unfold lambdifyCode
  refine (Within.push' (within_here (k := 0) _) (by omega)).bind (fun as ha => ?_)
  have hs' : ∀ s ∈ as, depth s ≤ h := by
    intro s hm
    refine hs s ?_
    clear hs hx
    induction args generalizing as with
    | nil => cases ha; cases hm
    | cons a args ih =>
      rw [List.mapM_cons] at ha
      obtain ⟨e, he, ha⟩ := bind_ok_inv ha
      obtain ⟨es, hes, ha⟩ := bind_ok_inv ha
      cases ha
      cases a with
      | expr e' =>
        cases he
        rcases List.mem_cons.1 hm with rfl | hm
        · simp
        · simp [ih es hes hm]
      | int n => cases he
      | other k => cases he
  have tail : ∀ code : IRFunction, Within (9 + c.weak + reprBound c h + c.comp + lib) (do
      frame (outside lib)
      outside lib
      return code) (.ok code) := fun code =>
    Within.bind_ok (Within.push' (within_outside (k := lib) (by omega)) (by omega))
      (Within.bind_ok (within_outside (by omega)) (within_pure _))
  cases x with
  | expr e =>
    refine Within.push' (k := 9 + c.weak + reprBound c h + c.comp + lib) ?_ (by omega)
    simp only
    rw [← bind_pure_ok (toLlvm as e)]
    exact ((within_llvmCode c printable as e hx.1 hx.2 hs').mono (by omega)).bind
      (fun code _ => tail code)
  | matrix m =>
    refine Within.push' (k := 9 + c.weak + reprBound c h + c.comp + lib) ?_ (by omega)
    simp only
    rw [← bind_pure_ok (toLlvmMatrix as m)]
    exact ((within_llvmMatrixCode c printable as m hx.1 hx.2 hs').mono (by omega)).bind
      (fun code _ => tail code)
  | other => exact within_throw _

/-! ### SymPy -/

theorem within_toSympyFunction (printable : Char → Bool) (lib : Nat) (L : SymPyLib) (e : Expr) {h : Nat}
    (hd : HeadDepth h e) :
    Within (9 + c.comp + reprBound c h + lib) (framedToSympyFunction c printable lib L e)
      (toSympy L e) := by
  refine (within_symEval c (k := 1 + reprBound c h + lib) (rulesNeed_framed (by omega) ?_ ?_) none).mono
    (by unfold reprBound linear; omega)
  · intro head args vals ha _
    have h1 : strBound c (depth head) ≤ reprBound c h := by
      refine Nat.le_trans (linear_mono (hd head args ha)) ?_
      unfold reprBound linear; omega
    refine Within.push' (k := reprBound c h + lib) ?_ (by omega)
    exact ((within_str c head).mono (by omega)).bind
      (fun name _ => Within.push' (within_here (k := 0) _) (by omega))
  · intro a _
    exact (within_atomError c printable h a).mono (by omega)

theorem within_toSympy (printable : Char → Bool) (lib : Nat) (L : SymPyLib) (e : Expr) {h : Nat}
    (hd : HeadDepth h e) :
    Within (10 + c.comp + reprBound c h + lib) (framedToSympy c printable lib L e) (toSympy L e) :=
  Within.push' (within_toSympyFunction c printable lib L e hd) (by omega)

theorem within_toSympyMatrixLoop (lib : Nat) (elements : List SExpr) (l : List ((Nat × Nat) × Nat)) :
    ∀ m, Within lib (framedToSympyMatrixLoop lib elements l m) (toSympyMatrixLoop elements l m) := by
  induction l with
  | nil => intro m; exact within_pure _
  | cons p l ih =>
    intro m
    obtain ⟨ij, n⟩ := p
    exact (within_here _).bind (fun v _ =>
      (Within.push' (within_here (k := 0) _) (by omega)).bind (fun m' _ => ih m'))

theorem within_matToSympy (printable : Char → Bool) (lib : Nat) (L : SymPyLib) (m : Mat) {h : Nat}
    (hd : HeadDepth h m.elementsGraph) :
    Within (11 + c.comp + reprBound c h + lib) (framedMatToSympy c printable lib L m)
      (toSympyMatrix L m) := by
  refine Within.push' (k := 10 + c.comp + reprBound c h + lib) ?_ (by omega)
  refine Within.push' (k := 9 + c.comp + reprBound c h + lib) ?_ (by omega)
  refine (within_toSympyFunction c printable lib L _ hd).bind (fun g _ => ?_)
  refine (within_outside (by omega)).bind_ok ?_
  exact (within_toSympyMatrixLoop lib _ _ _).mono (by omega)

theorem within_matFromSympy (lib : Nat) (L : SymPyLib) (rows cols d : Nat)
    (dok : List ((Nat × Nat) × SExpr))
    (hd : ∀ t, L.tuple (fromSympyMatrixLoop 0 dok (Dict.empty, [])).2 = .ok t → sympyDepth t ≤ d) :
    Within (9 + sympyBound c d + c.comp + lib) (framedMatFromSympy c lib L rows cols dok)
      (fromSympyMatrix L rows cols dok) := by
  refine Within.push' (k := 8 + sympyBound c d + c.comp + lib) ?_ (by omega)
  refine Within.push' (k := 7 + sympyBound c d + c.comp + lib) ?_ (by omega)
  have hw : c.weak ≤ sympyBound c d := by unfold sympyBound linear; omega
  refine (within_outside (by omega)).bind_ok ?_
  unfold fromSympyMatrix
  refine (Within.push' (within_here (k := 0) _) (by omega)).bind (fun t ht => ?_)
  unfold fromSympy
  rw [bind_assoc]
  have h1 : sympyBound c (sympyDepth t) ≤ sympyBound c d := linear_mono (hd t ht)
  refine (Within.push' (within_fromSympyCache c t Dict.empty) (by omega)).bind (fun r _ => ?_)
  exact ((within_args c r.1).mono (by omega)).bind_ok ((within_matMake c _ _ _ _).mono (by omega))

/-! ### Assignment of rules -/

theorem within_setDiffRule (p : DiffProps Val) (expr sym dexpr : Expr) :
    Within (4 + c.comp) (framedSetDiffRule c p expr sym dexpr)
      (SymDifferentiator.setItem p expr sym dexpr) := by
  refine Within.push' (k := 3 + c.comp) ?_ (by omega)
  unfold SymDifferentiator.setItem
  refine (within_here _).bind (fun head _ => ?_)
  simp only
  split
  · exact within_throw _
  · refine ((within_subsNew c dexpr _).mono (by omega)).bind (fun f _ => ?_)
    exact Within.push' (within_ret (k := 0) _) (by omega)

theorem within_addDistributive (p : DiffProps Val) (head : Expr) :
    Within 2 (framedAddDistributive p head) (.ok (p.addDistributive head)) :=
  Within.push' (k := 1) (Within.push' (within_ret (k := 0) _) (by omega)) (by omega)

section Assign
variable {T : Type}

theorem within_patternArgs (p : Pattern) :
    Within (3 + c.weak) (framedPatternArgs c p) (.ok p.args) := by
  cases p with
  | sym e => exact within_args c e
  | atomValue ty w => exact within_ret _
  | atomRule w => exact within_ret _
  | headRule h as => exact within_ret _

theorem within_star (w : Expr) : Within (4 + c.weak) (framedStar c w) (.ok (star w)) := by
  refine Within.push' (k := 3 + c.weak) ?_ (by omega)
  exact ((within_call c _ _).mono (by omega)).bind_ok ((within_sym c _).mono (by omega))

theorem within_ite {α : Type} {k : Nat} {P : Prop} [Decidable P] {x y : Framed α} {p q : PyM α}
    (hx : Within k x p) (hy : Within k y q) :
    Within k (if P then x else y) (if P then p else q) := by
  split
  · exact hx
  · exact hy

theorem within_check (pattern : Pattern) (call : WildCall T) :
    Within (4 + c.weak) (framedCheck c pattern call) (checkSignature pattern call) := by
  obtain ⟨op, cargs⟩ := call
  have h1 := (within_patternArgs c pattern).mono (k := 4 + c.weak) (by omega)
  have h2 : Within (4 + c.weak) (do
      let args ← framedPatternArgs c pattern
      if args ≠ cargs then throw .badRule else return ())
      (if pattern.args ≠ cargs then .error .badRule else .ok ()) :=
    h1.bind_ok (within_ite (within_throw _) (within_pure _))
  cases op with
  | opN f =>
    unfold framedCheck checkSignature
    simp only
    match cargs with
    | [] => exact within_throw _
    | _ :: _ :: _ => exact within_throw _
    | [callarg] =>
      exact h1.bind_ok ((within_star c _).bind_ok (within_ite (within_throw _) (within_pure _)))
  | op1 f => exact h2
  | op2 f => exact h2
  | func1 f => exact h2
  | atomFunc f => exact h2
  | headOp f => exact h2

theorem within_addOp (ev : Evaluator PyM Val T) (head : Expr) (op : PyFn T) :
    Within 2 (framedAddOp ev head op) (afterwards (addOp head op) ev) := by
  refine Within.push' (k := 1) ?_ (by omega)
  cases op with
  | op1 f => exact Within.push' (within_ret (k := 0) _) (by omega)
  | op2 f => exact Within.push' (within_ret (k := 0) _) (by omega)
  | opN f => exact Within.push' (within_ret (k := 0) _) (by omega)
  | func1 f => exact within_throw _
  | atomFunc f => exact within_throw _
  | headOp f => exact within_throw _

theorem afterwards_lift {α : Type} (r : PyM α) (m : α → EvM T Unit) (ev : Evaluator PyM Val T) :
    afterwards (EvM.lift r >>= m) ev = r >>= fun a => afterwards (m a) ev := by
  cases r <;> rfl

theorem within_assign (ev : Evaluator PyM Val T) (pattern : Pattern) (call : Option (WildCall T)) :
    Within (5 + c.weak) (framedAssign c ev pattern call) (afterwards (setItem pattern call) ev) := by
  refine Within.push' (k := 4 + c.weak) ?_ (by omega)
  cases call with
  | none => exact within_throw _
  | some call =>
    unfold setItem
    rw [afterwards_lift]
    refine (within_check c pattern call).bind (fun _ _ => ?_)
    obtain ⟨op, cargs⟩ := call
    cases pattern with
    | atomRule w =>
      cases op with
      | atomFunc f => exact Within.push' (within_ret (k := 0) _) (by omega)
      | _ => exact within_throw _
    | headRule h as =>
      cases op with
      | headOp f => exact Within.push' (within_ret (k := 0) _) (by omega)
      | _ => exact within_throw _
    | atomValue ty w =>
      cases op with
      | func1 f => exact Within.push' (within_ret (k := 0) _) (by omega)
      | _ => exact within_throw _
    | sym e =>
      have h : ∀ op : PyFn T, Within (4 + c.weak) (do
          let head ← framedHead c e
          framedAddOp ev head op) (afterwards (do
            let head ← EvM.lift e.head
            addOp head op) ev) := fun op => by
        rw [afterwards_lift]
        exact ((within_head c e).mono (by omega)).bind
          (fun head _ => (within_addOp ev head op).mono (by omega))
      cases op with
      | op1 f => exact h _
      | op2 f => exact h _
      | opN f => exact h _
      | func1 f => exact within_throw _
      | atomFunc f => exact within_throw _
      | headOp f => exact within_throw _

end Assign

end Verif.Props
