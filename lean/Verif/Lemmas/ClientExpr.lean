import Verif.Spec.ClientExpr
import Verif.Lemmas.ClientEval

/-!
# The `Expr` layer on objects
-/

set_option linter.unusedSectionVars false

namespace Verif.Store
open List (Forall₂)

section
variable {V K T A : Type} [DecidableEq K] [PyVal V K] {vals vals' : List (Ex K)}

theorem SymAt.mono {cls h : Nat} {t : Tree K} (ha : SymAt vals cls h t) (hp : vals <+: vals') :
    SymAt vals' cls h t := by
  obtain ⟨l, rfl⟩ := hp
  unfold SymAt at *
  rw [List.getElem?_append_left]
  · exact ha
  · exact (List.getElem?_eq_some_iff.1 ha).1

theorem computes_rep {cls h : Nat} {t : Tree K} (ha : SymAt vals cls h t) :
    Computes vals (Prog.rep h : Prog V K Nat) At (.ok t) := by
  unfold SymAt at ha
  refine Computes.step (p' := .ret vals.length) (vals' := vals ++ [.tree t]) ?_
    (List.prefix_append _ _) (.ret (by simp [At]))
  simp only [valueStep, Prog.rep, ha, Option.map_some, Ex.parts, Ex.view]

theorem computes_wrap (cls : Nat) {h : Nat} {t : Tree K} (ha : At vals h t) :
    Computes vals (Prog.wrap cls h : Prog V K Nat) (fun v n e => SymAt v cls n e) (.ok t) := by
  refine Computes.step (p' := .ret vals.length) (vals' := vals ++ [.sym cls t]) ?_
    (List.prefix_append _ _) (.ret (by simp [SymAt]))
  simp only [Prog.wrap, valueStep, valueOf, treeAt_at ha, Option.map_some]

theorem computes_newAtom (cls : Nat) (ty : AtomType) (v : V) :
    Computes vals (Prog.newAtom cls ty v : Prog V K Nat) (fun v n e => SymAt v cls n e)
      (.ok (.atom ⟨ty, PyVal.key v⟩)) := by
  unfold Prog.newAtom
  refine Computes.step (p' := _) rfl (List.prefix_append _ _) ?_
  refine Computes.step (p' := Prog.wrap cls (vals.length + 1))
    (vals' := vals ++ [.atom ⟨ty, PyVal.key v⟩] ++ [.tree (.atom ⟨ty, PyVal.key v⟩)]) ?_
    (List.prefix_append _ _) (computes_wrap cls ?_)
  · simp [valueStep, valueOf]
  · simp [At]

theorem computes_repKeys {rel : List (Ex K) → T → A → Prop} (mono : Stable rel) {cls : Nat}
    (ps : List (Nat × T)) (qs : List (Tree K × A))
    (h : Forall₂ (fun p q => SymAt vals cls p.1 q.1 ∧ rel vals p.2 q.2) ps qs) :
    Computes vals (Prog.repKeys ps : Prog V K (List (Nat × T)))
      (fun v => Forall₂ (fun p q => At v p.1 q.1 ∧ rel v p.2 q.2)) (.ok qs) := by
  have hq : qs.mapM (fun q => (.ok q : PyM (Tree K × A))) = .ok qs := by
    have := mapM_ok (fun q : Tree K × A => q) qs
    simpa using this
  rw [← hq]
  refine computes_each (vals := vals) (relI := fun v (p : Nat × T) (q : Tree K × A) => SymAt v cls p.1 q.1 ∧ rel v p.2 q.2)
    (relO := fun v (p : Nat × T) (q : Tree K × A) => At v p.1 q.1 ∧ rel v p.2 q.2)
    (fun h hp => ⟨h.1.mono hp, mono _ _ _ _ h.2 hp⟩)
    (fun h hp => ⟨h.1.mono hp, mono _ _ _ _ h.2 hp⟩) ?_ vals ps qs (List.prefix_refl _) h
  intro v p q hp hpq
  refine Computes.bindOk (computes_rep hpq.1) ?_
  intro v' t hp' ht
  exact .pure ⟨ht, mono _ _ _ _ hpq.2 hp'⟩

theorem computes_symEval [HasNone T] [HasNone A] {rel : List (Ex K) → T → A → Prop}
    {ev : Prog.EvalH V K T} {Ev : Evaluator PyM K A} {cls e : Nat} {E : Tree K} (mono : Stable rel)
    (none : SameNone rel) (hE : EvalAt vals rel ev Ev) (he : SymAt vals cls e E) {ps : List (Nat × T)}
    {qs : List (Tree K × A)}
    (hd : Forall₂ (fun p q => SymAt vals cls p.1 q.1 ∧ rel vals p.2 q.2) ps qs) :
    Computes vals (Prog.symEval ev e ps) rel (Ev.evalForward E (Dict.ofPairs qs)) := by
  refine Computes.bindOk (computes_repKeys mono ps qs hd) ?_
  intro v1 rs hp1 hrs
  refine Computes.bindOk (computes_rep (he.mono hp1)) ?_
  intro v2 t hp2 ht
  refine computes_evalCall mono none (hE.mono (hp1.trans hp2)) ?_ ht
  have := MapAt.update (vals := v2) (rel := rel v2) rs qs .empty
    (hrs.imp (fun _ _ h => ⟨h.1.mono hp2, mono _ _ _ _ h.2 hp2⟩))
  simpa [Dict.ofPairs] using this

theorem computes_symDiff {p : Prog.DiffH} {P : DiffProps K} {cls e sym : Nat} {E Sym : Tree K}
    (n : Int) (hP : DiffAt vals p P) (he : SymAt vals cls e E) (hs : SymAt vals cls sym Sym) :
    Computes vals (Prog.symDiff cls p e sym n : Prog V K Nat) (fun v n e => SymAt v cls n e)
      (iterPy (fun d => diffForward d Sym P) n.toNat E) := by
  refine Computes.bindOk (computes_rep he) ?_
  intro v1 t hp1 ht
  refine Computes.bindOk (computes_rep (hs.mono hp1)) ?_
  intro v2 s hp2 hs2
  have h := Computes.bind (F := fun d => .ok d)
    (computes_diffTimes (V := V) n.toNat t E v2 (hP.mono (hp1.trans hp2)) (ht.mono hp2) hs2)
    (f := fun d => Prog.wrap cls d) (rel' := fun v n e => SymAt v cls n e)
    (fun v d D hp hd => computes_wrap cls hd)
  have hb : ∀ x : PyM (Tree K), (x >>= fun d => .ok d) = x := by intro x; cases x <;> rfl
  rw [hb] at h
  exact h

theorem computes_count {h : Nat} {t : Tree K} {hs : List Nat} {ts : List (Tree K)} (h1 : At vals h t)
    (h2 : Ats vals hs ts) :
    Computes vals (Prog.count h hs : Prog V K Nat) (fun _ a b => a = b) (.ok (ts.count t)) := by
  induction hs generalizing vals ts with
  | nil => cases h2; exact .ret rfl
  | cons n hs ih =>
    cases h2 with
    | @cons _ u _ ts h3 h4 =>
      refine Computes.bindOk (computes_eq h3 h1) ?_
      rintro v _ hp rfl
      refine Computes.bindOk (ih (h1.mono hp) (Ats.mono h4 hp)) ?_
      rintro v' _ hp' rfl
      refine .pure ?_
      rw [List.count_cons]
      by_cases hu : u = t <;> simp [hu]

theorem computes_index {h : Nat} {t : Tree K} {hs : List Nat} {ts : List (Tree K)} (h1 : At vals h t)
    (h2 : Ats vals hs ts) :
    Computes vals (Prog.index h hs : Prog V K Nat) (fun _ a b => a = b) (.ok (ts.idxOf t)) := by
  induction hs generalizing vals ts with
  | nil => cases h2; exact .ret rfl
  | cons n hs ih =>
    cases h2 with
    | @cons _ u _ ts h3 h4 =>
      refine Computes.bindOk (computes_eq h3 h1) ?_
      rintro v _ hp rfl
      rw [List.idxOf_cons]
      by_cases hu : u = t
      · simp only [hu, decide_true, if_true, beq_self_eq_true, cond_true]; exact .pure rfl
      · rw [if_neg (by simpa using hu)]
        refine Computes.bindOk (ih (h1.mono hp) (Ats.mono h4 hp)) ?_
        rintro v' _ hp' rfl
        exact .pure (by rw [beq_false_of_ne hu]; rfl)

theorem RulesAt.set {d : List (Nat × Nat × Prog.SubsH)} {D : Dict (Tree K × Nat) (SubsFunc K)}
    (h : RulesAt vals d D) {n m : Nat} {t : Tree K} {f : Prog.SubsH} {F : SubsFunc K}
    (ht : At vals n t) (hf : SubsAt vals f F) : RulesAt vals ((n, m, f) :: d) (D.set (t, m) F) := by
  obtain ⟨l, h1, h2⟩ := h
  refine ⟨((t, m), F) :: l, .cons ⟨ht, rfl, hf⟩ h1, fun u => ?_⟩
  rw [Dict.get?_set]
  simp only [Dict.lookup, h2]

end

variable {V : Type} [PyVal V Val] {vals vals' : List (Ex Val)} {lit : Val → V}

theorem ExprAt.mono {h : Nat} {e : Expr} (ha : ExprAt vals h e) (hp : vals <+: vals') :
    ExprAt vals' h e := SymAt.mono ha hp

theorem ObjAt.mono {o : Prog.ObjH} {O : PyObj} (h : ObjAt vals o O) (hp : vals <+: vals') :
    ObjAt vals' o O := by
  cases o <;> cases O <;> first | exact ExprAt.mono h hp | exact h

theorem computes_differentiator {a m z o : Nat} {A M Z O : Expr} (ha : ExprAt vals a A)
    (hm : ExprAt vals m M) (hz : ExprAt vals z Z) (ho : ExprAt vals o O) :
    Computes vals (Prog.differentiator a m z o : Prog V Val Prog.DiffH) DiffAt
      (.ok (SymDifferentiator.new A M Z O)) := by
  refine Computes.bindOk (computes_rep hz) ?_
  intro v1 z' p1 hz'
  refine Computes.bindOk (computes_rep (ho.mono p1)) ?_
  intro v2 o' p2 ho'
  refine Computes.bindOk (computes_rep (ha.mono (p1.trans p2))) ?_
  intro v3 a' p3 ha'
  refine Computes.bindOk (computes_rep (hm.mono ((p1.trans p2).trans p3))) ?_
  intro v4 m' p4 hm'
  exact .pure ⟨hz'.mono ((p2.trans p3).trans p4), ho'.mono (p3.trans p4), ha'.mono p4, hm', .nil,
    [], .nil, fun _ => rfl⟩

theorem computes_setDiffRule {p : Prog.DiffH} {P : DiffProps Val} {e s d : Nat} {E S D : Expr}
    (hP : DiffAt vals p P) (he : ExprAt vals e E) (hs : ExprAt vals s S) (hd : ExprAt vals d D) :
    Computes vals (Prog.setDiffRule p e s d : Prog V Val Prog.DiffH) DiffAt
      (SymDifferentiator.setItem P E S D) := by
  unfold Prog.setDiffRule SymDifferentiator.setItem
  refine Computes.bindOk (computes_rep he) ?_
  intro v1 e' p1 he'
  refine Computes.bindOk (computes_rep (hd.mono p1)) ?_
  intro v2 d' p2 hd'
  refine Computes.bindOk (computes_rep (hs.mono (p1.trans p2))) ?_
  intro v3 s' p3 hs'
  refine Computes.bindOk (computes_children (he'.mono (p2.trans p3))) ?_
  intro v4 cs p4 hcs
  refine Computes.bind (Computes.ofPy (rel := At) (pyGet_rel hcs 0)) ?_
  intro v5 hd5 Hd p5 hhd
  have hargs : Ats v5 (cs.drop 1) (E.children.drop 1) := Ats.mono (List.forall₂_drop 1 hcs) p5
  refine Computes.bindOk (computes_count (hs'.mono (p4.trans p5)) hargs) ?_
  rintro v6 _ p6 rfl
  show Computes v6 _ DiffAt (if (E.children.drop 1).count S ≠ 1 then Except.error PyErr.typeError
    else SubsFunc.new D (E.children.drop 1) >>= fun rhsfunc =>
      pure (P.addDiffRule Hd ((E.children.drop 1).idxOf S) rhsfunc))
  split
  · exact .raise
  refine Computes.bindOk (computes_index (hs'.mono ((p4.trans p5).trans p6)) (hargs.mono p6)) ?_
  rintro v7 _ p7 rfl
  have q7 := p6.trans p7
  refine Computes.bind (computes_subsNew (hd'.mono (((p3.trans p4).trans p5).trans q7))
    (hargs.mono q7)) ?_
  intro v8 f F p8 hf
  have hP8 := hP.mono ((((p1.trans p2).trans (p3.trans p4)).trans (p5.trans q7)).trans p8)
  exact .pure ⟨hP8.zero, hP8.one, hP8.add, hP8.mul, hP8.distributive,
    hP8.diffRules.set (hhd.mono (q7.trans p8)) hf⟩

theorem computes_addDistributive {p : Prog.DiffH} {P : DiffProps Val} {h : Nat} {H : Expr}
    (hP : DiffAt vals p P) (hh : ExprAt vals h H) :
    Computes vals (Prog.addDistributive p h : Prog V Val Prog.DiffH) DiffAt
      (.ok (P.addDistributive H)) := by
  refine Computes.bindOk (computes_rep hh) ?_
  intro v n hp hn
  have hP' := hP.mono hp
  exact .pure ⟨hP'.zero, hP'.one, hP'.add, hP'.mul, .cons hn hP'.distributive, hP'.diffRules⟩

/-! ### simplecas -/

variable (hl : ∀ v, PyVal.key (lit v) = v)
include hl

theorem computes_newLit (ty : AtomType) (v : Val) :
    Computes vals (Prog.newAtom Prog.exprCls ty (lit v) : Prog V Val Nat) ExprAt
      (.ok (.atom ⟨ty, v⟩)) := by
  have := computes_newAtom (vals := vals) Prog.exprCls ty (lit v)
  rw [hl] at this
  exact this

theorem computes_expressify {o : Prog.ObjH} {O : PyObj} (h : ObjAt vals o O) :
    Computes vals (Prog.expressify lit o) ExprAt (Verif.expressify O) := by
  cases o <;> cases O <;> try exact h.elim
  · exact .ret h
  · cases h
    exact computes_newLit hl Ty.integer _
  · exact .raise

theorem computes_expressRep {o : Prog.ObjH} {O : PyObj} (h : ObjAt vals o O) :
    Computes vals (Prog.expressRep lit o) At (Verif.expressify O) := by
  have := Computes.bind (F := fun e => .ok e) (computes_expressify hl h)
    (f := fun e => (Prog.rep e : Prog V Val Nat)) (rel' := At) (fun v d D hp hd => computes_rep hd)
  have hb : ∀ x : PyM Expr, (x >>= fun d => .ok d) = x := by intro x; cases x <;> rfl
  rw [hb] at this
  exact this

theorem computes_expressReps {os : List Prog.ObjH} {Os : List PyObj} (h : Forall₂ (ObjAt vals) os Os) :
    Computes vals (Prog.each (Prog.expressRep lit) os) Ats (Os.mapM Verif.expressify) :=
  computes_each (vals := vals) (relI := ObjAt) (relO := At) (fun h hp => h.mono hp)
    (fun h hp => h.mono hp) (fun _ _ _ _ h => computes_expressRep hl h) vals os Os
    (List.prefix_refl _) h

theorem computes_exprCall {f : Nat} {F : Expr} {os : List Prog.ObjH} {Os : List PyObj}
    (hf : ExprAt vals f F) (h : Forall₂ (ObjAt vals) os Os) :
    Computes vals (Prog.exprCall lit f os) ExprAt (Expr.pyCall F Os) := by
  unfold Prog.exprCall Expr.pyCall
  refine Computes.bind (computes_each (vals := vals) (relI := ObjAt) (relO := ExprAt)
    (fun h hp => h.mono hp) (fun h hp => h.mono hp) (fun _ _ _ _ h => computes_expressify hl h) vals
    os Os (List.prefix_refl _) h) ?_
  intro v1 es Es p1 hes
  have hr : Computes v1 (Prog.each Prog.rep es : Prog V Val (List Nat)) Ats (.ok Es) := by
    have hq : Es.mapM (fun e => (.ok e : PyM Expr)) = .ok Es := by
      have := mapM_ok (fun q : Expr => q) Es
      simpa using this
    rw [← hq]
    exact computes_each (vals := v1) (relI := ExprAt) (relO := At) (fun h hp => h.mono hp)
      (fun h hp => h.mono hp) (fun _ _ _ _ h => computes_rep h) v1 es Es (List.prefix_refl _) hes
  refine Computes.bindOk hr ?_
  intro v2 rs p2 hrs
  refine Computes.bindOk (computes_rep (hf.mono (p1.trans p2))) ?_
  intro v3 g p3 hg
  refine Computes.bindOk (computes_call hg (hrs.mono p3)) ?_
  intro v4 t p4 ht
  exact computes_wrap _ ht

theorem computes_exprCall2 {f a b : Nat} {F A B : Expr} (hf : ExprAt vals f F) (ha : ExprAt vals a A)
    (hb : ExprAt vals b B) :
    Computes vals (Prog.exprCall2 lit f a b) ExprAt (.ok (F.call [A, B])) :=
  computes_exprCall hl (Os := [.expr A, .expr B]) hf (.cons ha (.cons hb .nil))

omit hl in
theorem constsAt_mono {c : Prog.ConstsH} (h : ConstsAt vals c) (hp : vals <+: vals') :
    ConstsAt vals' c :=
  ⟨h.zero.mono hp, h.one.mono hp, h.negone.mono hp, h.x.mono hp, h.y.mono hp, h.f.mono hp,
    h.g.mono hp, h.pow.mono hp, h.sin.mono hp, h.cos.mono hp, h.add.mono hp, h.mul.mono hp,
    h.list.mono hp⟩

theorem computes_method {c : Prog.ConstsH} (hc : ConstsAt vals c) (op : BinOp) {a b : Nat}
    {A B : Expr} (ha : ExprAt vals a A) (hb : ExprAt vals b B) :
    Computes vals (Prog.method lit c op a b) ExprAt (.ok (op.method A B)) := by
  cases op with
  | add => exact computes_exprCall2 hl hc.add ha hb
  | mul => exact computes_exprCall2 hl hc.mul ha hb
  | pow => exact computes_exprCall2 hl hc.pow ha hb
  | sub =>
    refine Computes.bindOk (computes_exprCall2 hl hc.mul hc.negone hb) ?_
    intro v m p hm
    exact computes_exprCall2 hl (hc.add.mono p) (ha.mono p) hm
  | truediv =>
    refine Computes.bindOk (computes_exprCall2 hl hc.pow hb hc.negone) ?_
    intro v m p hm
    exact computes_exprCall2 hl (hc.mul.mono p) (ha.mono p) hm

theorem computes_rmethod {c : Prog.ConstsH} (hc : ConstsAt vals c) (op : BinOp) {a b : Nat}
    {A B : Expr} (ha : ExprAt vals a A) (hb : ExprAt vals b B) :
    Computes vals (Prog.rmethod lit c op a b) ExprAt (.ok (op.rmethod A B)) := by
  cases op with
  | add => exact computes_exprCall2 hl hc.add hb ha
  | mul => exact computes_exprCall2 hl hc.mul hb ha
  | pow => exact computes_exprCall2 hl hc.pow hb ha
  | sub =>
    refine Computes.bindOk (computes_exprCall2 hl hc.mul hc.negone ha) ?_
    intro v m p hm
    exact computes_exprCall2 hl (hc.add.mono p) (hb.mono p) hm
  | truediv =>
    refine Computes.bindOk (computes_exprCall2 hl hc.pow ha hc.negone) ?_
    intro v m p hm
    exact computes_exprCall2 hl (hc.mul.mono p) (hb.mono p) hm

theorem computes_binOp {c : Prog.ConstsH} (hc : ConstsAt vals c) (op : BinOp) {a b : Prog.ObjH}
    {A B : PyObj} (ha : ObjAt vals a A) (hb : ObjAt vals b B) :
    Computes vals (Prog.binOp lit c op a b) ExprAt (pyBinOp op A B) := by
  cases a <;> cases A <;> (try exact ha.elim) <;> cases b <;> cases B <;> (try exact hb.elim)
  · exact computes_method hl hc op ha hb
  · cases hb
    refine Computes.bindOk (computes_newLit hl Ty.integer _) ?_
    intro v n p hn
    exact computes_method hl (constsAt_mono hc p) op (ExprAt.mono ha p) hn
  · exact .raise
  · cases ha
    refine Computes.bindOk (computes_newLit hl Ty.integer _) ?_
    intro v n p hn
    exact computes_rmethod hl (constsAt_mono hc p) op (ExprAt.mono hb p) hn
  · exact .raise
  · exact .raise
  · exact .raise
  · exact .raise
  · exact .raise

theorem computes_exprFunction {o : Prog.ObjH} {O : PyObj} {ps : List Prog.ObjH} {Ps : List PyObj}
    (ho : ObjAt vals o O) (hp : Forall₂ (ObjAt vals) ps Ps) :
    Computes vals (Prog.exprFunction lit o ps) SubsAt (exprFunctionNew O Ps) := by
  refine Computes.bind (computes_expressRep hl ho) ?_
  intro v e E p he
  refine Computes.bind (computes_expressReps hl (hp.imp (fun _ _ h => h.mono p))) ?_
  intro v1 rs Rs p1 hr
  exact computes_subsNew (he.mono p1) hr

theorem computes_callExprFunction {f : Prog.SubsH} {F : SubsFunc Val} {as : List Prog.ObjH}
    {As : List PyObj} (hf : SubsAt vals f F) (ha : Forall₂ (ObjAt vals) as As) :
    Computes vals (Prog.callExprFunction lit f as) ExprAt (exprFunctionCall F As) := by
  refine Computes.bind (computes_expressReps hl ha) ?_
  intro v rs Rs p hr
  have := Computes.bind (F := fun e => .ok e) (computes_subsCall (V := V) (hf.mono p) hr)
    (f := fun e => (Prog.wrap Prog.exprCls e : Prog V Val Nat)) (rel' := ExprAt)
    (fun v d D hp hd => computes_wrap _ hd)
  have hb : ∀ x : PyM Expr, (x >>= fun d => .ok d) = x := by intro x; cases x <;> rfl
  rw [hb] at this
  exact this

theorem computes_xreplace {e : Nat} {E : Expr} {reps : List (Prog.ObjH × Prog.ObjH)}
    {Reps : Dict PyObj PyObj} (he : ExprAt vals e E)
    (hr : Forall₂ (fun r R => ObjAt vals r.1 R.1 ∧ ObjAt vals r.2 R.2) reps Reps.items) :
    Computes vals (Prog.xreplace lit e reps) ExprAt (Verif.xreplace E Reps) := by
  refine Computes.bind (computes_exprFunction hl (O := .expr E) he (Ps := Reps.keys) ?_) ?_
  · exact List.rel_map (fun _ _ h => h.1) hr
  intro v f F p hf
  refine computes_callExprFunction hl hf ?_
  exact List.rel_map (R := fun r R => ObjAt v r.1 R.1 ∧ ObjAt v r.2 R.2) (fun _ _ h => h.2)
    (hr.imp (fun _ _ h => ⟨h.1.mono p, h.2.mono p⟩))

omit hl in
theorem computes_exprDiffLoop {p : Prog.DiffH} {P : DiffProps Val} {sym : Nat} {Sym : Expr} :
    ∀ (n e : Nat) (E : Expr) (vals : List (Ex Val)), DiffAt vals p P → ExprAt vals e E →
    ExprAt vals sym Sym →
    Computes vals (Prog.exprDiffLoop p sym n e : Prog V Val Nat) ExprAt
      (iterPy (fun d => SymDifferentiator.call P d Sym 1) n E) := by
  intro n
  induction n with
  | zero => intro e E vals hP he hs; exact .ret he
  | succ n ih =>
    intro e E vals hP he hs
    unfold Prog.exprDiffLoop iterPy
    refine Computes.bind (computes_symDiff 1 hP he hs) ?_
    intro v d D hp hd
    exact ih d D v (hP.mono hp) hd (hs.mono hp)

omit hl in
theorem computes_exprDiff {p : Prog.DiffH} {P : DiffProps Val} {sym e : Nat} {Sym E : Expr} (n : Int)
    (hP : DiffAt vals p P) (he : ExprAt vals e E) (hs : ExprAt vals sym Sym) :
    Computes vals (Prog.exprDiff p e sym n : Prog V Val Nat) ExprAt (Expr.diff E Sym n P) := by
  exact computes_exprDiffLoop _ e E vals hP he hs

/-! ### `bin_expand` -/

omit hl in
theorem computes_reduceLoop {f : Nat} {F : Expr} : ∀ (as : List Nat) (As : List Expr) (a : Nat)
    (A : Expr) (vals : List (Ex Val)), At vals f F → At vals a A → Ats vals as As →
    Computes vals (Prog.reduceLoop f a as : Prog V Val Nat) At
      (.ok (As.foldl (fun x y => F.call [x, y]) A)) := by
  intro as
  induction as with
  | nil => intro As a A vals hf ha has; cases has; exact .ret ha
  | cons b as ih =>
    intro As a A vals hf ha has
    cases has with
    | @cons _ B _ As h1 h2 =>
      refine Computes.bindOk (computes_call hf (.cons ha (.one h1))) ?_
      intro v c p hc
      exact ih As c _ v (hf.mono p) hc (Ats.mono h2 p)

omit hl in
theorem opAt_reduce {f : Nat} {F : Expr} (hf : At vals f F) :
    OpAt vals At (Prog.reduceCall f : List Nat → Prog V Val Nat)
      (.seq (pyReduce (fun x y => F.call [x, y]))) := by
  intro v as As p has
  cases has with
  | nil => exact .raise
  | cons h1 h2 => exact computes_reduceLoop _ _ _ _ v (hf.mono p) h1 h2

omit hl in
theorem evalAt_transformer : EvalAt vals At (Prog.transformerNew : Prog.EvalH V Val Nat)
    (Transformer.new : Evaluator PyM Val Expr) := by
  exact (evalAt_new.addAtomGeneric (fun _ _ _ _ h => .ret h)).addOpGeneric
    (fun _ _ _ _ _ _ h has => computes_call h has)

omit hl in
theorem evalAt_binExpander {a m : Nat} (ha : At vals a Expr.addH) (hm : At vals m Expr.mulH) :
    EvalAt vals At (Prog.binExpander a m : Prog.EvalH V Val Nat) binExpandTransformer := by
  exact (evalAt_transformer.addOpN ha (opAt_reduce ha)).addOpN hm (opAt_reduce hm)

omit hl in
theorem stable_at {K : Type} [DecidableEq K] : Stable (At (K := K)) := fun _ _ _ _ h hp => h.mono hp

omit hl in
theorem computes_exprBinExpand {c : Prog.ConstsH} (hc : ConstsAt vals c) {e : Nat} {E : Expr}
    (he : ExprAt vals e E) :
    Computes vals (Prog.exprBinExpand c e : Prog V Val Nat) ExprAt (binExpand E) := by
  refine Computes.bindOk (computes_rep hc.add) ?_
  intro v1 a p1 ha
  refine Computes.bindOk (computes_rep (hc.mul.mono p1)) ?_
  intro v2 m p2 hm
  refine Computes.bindOk (computes_rep (he.mono (p1.trans p2))) ?_
  intro v3 t p3 ht
  have := Computes.bind (F := fun e => .ok e) (computes_evalCall (V := V) stable_at
    (fun _ _ _ _ => rfl) (evalAt_binExpander (ha.mono (p2.trans p3)) (hm.mono p3)) .empty ht)
    (f := fun e => (Prog.wrap Prog.exprCls e : Prog V Val Nat)) (rel' := ExprAt)
    (fun v d D hp hd => computes_wrap _ hd)
  have hb : ∀ x : PyM Expr, (x >>= fun d => .ok d) = x := by intro x; cases x <;> rfl
  rw [hb] at this
  exact this

omit hl in
theorem computes_exprCountOps {e : Nat} {E : Expr} (he : ExprAt vals e E) :
    Computes vals (Prog.exprCountOps e : Prog V Val Nat) (fun _ a b => a = b)
      (.ok (countOpsGraph E)) := by
  refine Computes.bindOk (computes_rep he) ?_
  intro v1 t p1 ht
  refine Computes.bindOk (computes_sort false .nil ht) ?_
  intro v2 l p2 hl
  exact .pure hl.length

/-! ### The import -/

theorem computes_makeConsts : Computes vals (Prog.makeConsts lit) (fun v c _ => ConstsAt v c)
    (.ok ()) := by
  refine Computes.bindOk (computes_newLit hl Ty.integer (.int 0)) ?_
  intro v1 c1 p1 h1
  refine Computes.bindOk (computes_newLit hl Ty.integer (.int 1)) ?_
  intro v2 c2 p2 h2
  refine Computes.bindOk (computes_newLit hl Ty.integer (.int (-1))) ?_
  intro v3 c3 p3 h3
  refine Computes.bindOk (computes_newLit hl Ty.symbol (.str "x")) ?_
  intro v4 c4 p4 h4
  refine Computes.bindOk (computes_newLit hl Ty.symbol (.str "y")) ?_
  intro v5 c5 p5 h5
  refine Computes.bindOk (computes_newLit hl Ty.function (.str "f")) ?_
  intro v6 c6 p6 h6
  refine Computes.bindOk (computes_newLit hl Ty.function (.str "g")) ?_
  intro v7 c7 p7 h7
  refine Computes.bindOk (computes_newLit hl Ty.function (.str "pow")) ?_
  intro v8 c8 p8 h8
  refine Computes.bindOk (computes_newLit hl Ty.function (.str "sin")) ?_
  intro v9 c9 p9 h9
  refine Computes.bindOk (computes_newLit hl Ty.function (.str "cos")) ?_
  intro v10 c10 p10 h10
  refine Computes.bindOk (computes_newLit hl Ty.function (.str "Add")) ?_
  intro v11 c11 p11 h11
  refine Computes.bindOk (computes_newLit hl Ty.function (.str "Mul")) ?_
  intro v12 c12 p12 h12
  refine Computes.bindOk (computes_newLit hl Ty.function (.str "List")) ?_
  intro v13 c13 p13 h13
  have q12 := p13
  have q11 := p12.trans q12
  have q10 := p11.trans q11
  have q9 := p10.trans q10
  have q8 := p9.trans q9
  have q7 := p8.trans q8
  have q6 := p7.trans q7
  have q5 := p6.trans q6
  have q4 := p5.trans q5
  have q3 := p4.trans q4
  have q2 := p3.trans q3
  have q1 := p2.trans q2
  exact .pure ⟨h1.mono q1, h2.mono q2, h3.mono q3, h4.mono q4, h5.mono q5, h6.mono q6, h7.mono q7,
    h8.mono q8, h9.mono q9, h10.mono q10, h11.mono q11, h12.mono q12, h13⟩

omit hl in
theorem builtinDiffM_ok : builtinDiffM = .ok builtinDiff := by
  have h : builtinDiffM.isOk = true := by decide +kernel
  unfold builtinDiff
  cases hb : builtinDiffM with
  | ok p => rfl
  | error e => rw [hb] at h; exact absurd h (by simp [Except.isOk, Except.toBool])

theorem computes_makeDiff {c : Prog.ConstsH} (hc : ConstsAt vals c) :
    Computes vals (Prog.makeDiff lit c) DiffAt (.ok builtinDiff) := by
  rw [← builtinDiffM_ok]
  unfold builtinDiffM Prog.makeDiff
  refine Computes.bindOk (computes_newLit hl Ty.wild (.str "a")) ?_
  intro v1 a p1 ha
  refine Computes.bindOk (computes_newLit hl Ty.wild (.str "b")) ?_
  intro v2 b p2 hb
  replace ha := ha.mono p2
  replace hc := constsAt_mono hc (p1.trans p2)
  clear p1 p2
  refine Computes.bindOk (computes_differentiator hc.add hc.mul hc.zero hc.one) ?_
  intro v3 p q hp
  replace ha := ha.mono q
  replace hb := hb.mono q
  replace hc := constsAt_mono hc q
  clear q
  refine Computes.bindOk (computes_exprCall hl (Os := [.expr (Expr.wild "a")]) hc.cos (.cons ha .nil)) ?_
  intro v4 cosA q hcosA
  replace ha := ha.mono q
  replace hb := hb.mono q
  replace hc := constsAt_mono hc q
  replace hp := hp.mono q
  clear q
  refine Computes.bindOk (computes_exprCall hl (Os := [.expr (Expr.wild "a")]) hc.sin (.cons ha .nil)) ?_
  intro v5 sinA q hsinA
  replace ha := ha.mono q
  replace hb := hb.mono q
  replace hc := constsAt_mono hc q
  replace hp := hp.mono q
  replace hcosA := hcosA.mono q
  clear q
  refine Computes.bind (computes_setDiffRule hp hsinA ha hcosA) ?_
  clear hp hsinA hcosA
  intro v6 p' P' q hp
  replace ha := ha.mono q
  replace hb := hb.mono q
  replace hc := constsAt_mono hc q
  clear q
  refine Computes.bindOk (computes_exprCall hl (Os := [.expr (Expr.wild "a")]) hc.sin (.cons ha .nil)) ?_
  intro v7 sinA' q hsinA
  replace ha := ha.mono q
  replace hb := hb.mono q
  replace hc := constsAt_mono hc q
  replace hp := hp.mono q
  clear q
  refine Computes.bindOk (computes_exprCall2 hl hc.mul hc.negone hsinA) ?_
  intro v8 ns q hns
  replace ha := ha.mono q
  replace hb := hb.mono q
  replace hc := constsAt_mono hc q
  replace hp := hp.mono q
  clear q hsinA
  refine Computes.bindOk (computes_exprCall hl (Os := [.expr (Expr.wild "a")]) hc.cos (.cons ha .nil)) ?_
  intro v9 cosA' q hcosA
  replace ha := ha.mono q
  replace hb := hb.mono q
  replace hc := constsAt_mono hc q
  replace hp := hp.mono q
  replace hns := hns.mono q
  clear q
  refine Computes.bind (computes_setDiffRule hp hcosA ha hns) ?_
  clear hp hcosA hns
  intro v10 p2 P2 q hp
  replace ha := ha.mono q
  replace hb := hb.mono q
  replace hc := constsAt_mono hc q
  clear q
  refine Computes.bindOk (computes_binOp hl hc .add (A := .expr (Expr.wild "b")) (B := .int (-1)) hb rfl) ?_
  intro v11 bm q hbm
  replace ha := ha.mono q
  replace hb := hb.mono q
  replace hc := constsAt_mono hc q
  replace hp := hp.mono q
  clear q
  refine Computes.bindOk (computes_binOp hl hc .pow (A := .expr (Expr.wild "a")) (B := .expr _) ha hbm) ?_
  intro v12 pw q hpw
  replace ha := ha.mono q
  replace hb := hb.mono q
  replace hc := constsAt_mono hc q
  replace hp := hp.mono q
  clear q hbm
  refine Computes.bindOk (computes_binOp hl hc .mul (A := .expr (Expr.wild "b")) (B := .expr _) hb hpw) ?_
  intro v13 rhs q hrhs
  replace ha := ha.mono q
  replace hb := hb.mono q
  replace hc := constsAt_mono hc q
  replace hp := hp.mono q
  clear q hpw
  refine Computes.bindOk (computes_binOp hl hc .pow (A := .expr (Expr.wild "a"))
    (B := .expr (Expr.wild "b")) ha hb) ?_
  intro v14 ab q hab
  replace ha := ha.mono q
  replace hc := constsAt_mono hc q
  replace hp := hp.mono q
  replace hrhs := hrhs.mono q
  clear q
  refine Computes.bind (computes_setDiffRule hp hab ha hrhs) ?_
  intro v15 p3 P3 q hp3
  exact computes_addDistributive hp3 (hc.list.mono q)

theorem computes_import : Computes vals (Prog.importSimplecas lit) (fun v m _ => SimplecasAt v m)
    (.ok ()) := by
  refine Computes.bindOk (computes_makeConsts hl) ?_
  intro v1 c p1 hc
  refine Computes.bindOk (computes_makeDiff hl hc) ?_
  intro v2 d p2 hd
  exact .pure ⟨constsAt_mono hc p2, hd⟩

end Verif.Store
