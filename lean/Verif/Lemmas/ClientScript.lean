import Verif.Spec.ClientScript
import Verif.Lemmas.ClientExpr

/-!
# User programs on objects
-/

set_option linter.unusedSectionVars false

namespace Verif.Store
open List (Forall₂)
variable {V : Type} [PyVal V Val] {vals vals' : List (Ex Val)} {lit : Val → V}

theorem computes_get {regs : List Prog.ObjH} {Regs : List PyObj} (h : Forall₂ (ObjAt vals) regs Regs)
    (k : Nat) : Computes vals (Prog.get regs k : Prog V Val Prog.ObjH) ObjAt (pyGet Regs k) :=
  Computes.ofPy (pyGet_rel h k)

theorem computes_asExpr (err : PyErr) {o : Prog.ObjH} {O : PyObj} (h : ObjAt vals o O) :
    Computes vals (Prog.asExpr err o : Prog V Val Nat) ExprAt (asExpr err O) := by
  cases o <;> cases O <;> first | exact h.elim | exact .raise | exact .ret h

theorem computes_sameSym {cls : Nat} {h h' : Nat} {t t' : Expr} (h1 : SymAt vals cls h t)
    (h2 : SymAt vals cls h' t') :
    Computes vals (.same h h' .ret : Prog V Val Bool) (fun _ b c => b = c) (.ok (decide (t = t'))) := by
  refine Computes.step (p' := .ret (decide (t = t'))) (vals' := vals) ?_ (List.prefix_refl _) (.ret rfl)
  unfold SymAt at h1 h2
  simp only [valueStep, h1, h2]
  congr 3
  simp

theorem computes_eqObj {a b : Prog.ObjH} {A B : PyObj} (ha : ObjAt vals a A) (hb : ObjAt vals b B) :
    Computes vals (Prog.eqObj a b : Prog V Val Bool) (fun _ b c => b = c) (.ok (decide (A = B))) := by
  match a, A, ha with
  | .expr a, .expr A, ha =>
    match b, B, hb with
    | .expr b, .expr B, hb =>
      have h := computes_sameSym (V := V) ha hb
      have e : decide (PyObj.expr A = PyObj.expr B) = decide (A = B) := by simp
      rw [e]
      exact h
    | .int n, .int _, hb => exact .ret (by simp)
    | .other n, .other _, hb => exact .ret (by simp)
  | .int n, .int m, ha =>
    have ha : n = m := ha
    subst ha
    match b, B, hb with
    | .expr b, .expr B, hb => exact .ret (by simp)
    | .int k, .int k', hb =>
      have hb : k = k' := hb
      subst hb
      refine .ret ?_
      by_cases h : n = k <;> simp [h]
    | .other n, .other _, hb => exact .ret (by simp)
  | .other n, .other m, ha =>
    have ha : n = m := ha
    subst ha
    match b, B, hb with
    | .expr b, .expr B, hb => exact .ret (by simp)
    | .int k, .int k', hb => exact .ret (by simp)
    | .other k, .other k', hb =>
      have hb : k = k' := hb
      subst hb
      refine .ret ?_
      by_cases h : n = k <;> simp [h]

/-- The items of a dictionary of objects. -/
def PairsAt (vals : List (Ex Val)) : List (Prog.ObjH × Prog.ObjH) → List (PyObj × PyObj) → Prop :=
  Forall₂ (fun r R => ObjAt vals r.1 R.1 ∧ ObjAt vals r.2 R.2)

theorem PairsAt.mono {ps : List (Prog.ObjH × Prog.ObjH)} {Ps : List (PyObj × PyObj)}
    (h : PairsAt vals ps Ps) (hp : vals <+: vals') : PairsAt vals' ps Ps :=
  h.imp (fun _ _ h => ⟨h.1.mono hp, h.2.mono hp⟩)

theorem computes_assignObj {k v : Prog.ObjH} {K X : PyObj} : ∀ (d : List (Prog.ObjH × Prog.ObjH))
    (D : List (PyObj × PyObj)) (vals : List (Ex Val)), ObjAt vals k K → ObjAt vals v X →
    PairsAt vals d D →
    Computes vals (Prog.assignObj k v d : Prog V Val (List (Prog.ObjH × Prog.ObjH))) PairsAt
      (.ok (Dict.assign K X D)) := by
  intro d
  induction d with
  | nil => intro D vals hk hv hd; cases hd; exact .ret (.cons ⟨hk, hv⟩ .nil)
  | cons p d ih =>
    intro D vals hk hv hd
    cases hd with
    | @cons _ P _ D h1 h2 =>
      obtain ⟨k', v'⟩ := p
      obtain ⟨K', X'⟩ := P
      unfold Prog.assignObj Dict.assign
      refine Computes.bindOk (computes_eqObj h1.1 hk) ?_
      rintro v1 _ p1 rfl
      by_cases hK : K' = K
      · simp only [hK, decide_true, if_true]
        subst hK
        exact .pure (.cons ⟨h1.1.mono p1, hv.mono p1⟩ (PairsAt.mono h2 p1))
      · simp only [hK, decide_false, Bool.false_eq_true, if_false]
        refine Computes.bindOk (ih D v1 (hk.mono p1) (hv.mono p1) (PairsAt.mono h2 p1)) ?_
        intro v2 r p2 hr
        exact .pure (.cons ⟨h1.1.mono (p1.trans p2), h1.2.mono (p1.trans p2)⟩ hr)

theorem computes_dictObj : ∀ (ps : List (Prog.ObjH × Prog.ObjH)) (Ps : List (PyObj × PyObj))
    (d : List (Prog.ObjH × Prog.ObjH)) (D : Dict PyObj PyObj) (vals : List (Ex Val)),
    PairsAt vals ps Ps → PairsAt vals d D.items →
    Computes vals (Prog.dictObj d ps : Prog V Val (List (Prog.ObjH × Prog.ObjH)))
      (fun v d D => PairsAt v d D.items) (.ok (D.update Ps)) := by
  intro ps
  induction ps with
  | nil => intro Ps d D vals hp hd; cases hp; exact .ret hd
  | cons p ps ih =>
    intro Ps d D vals hp hd
    cases hp with
    | @cons _ P _ Ps h1 h2 =>
      refine Computes.bindOk (computes_assignObj d D.items vals h1.1 h1.2 hd) ?_
      intro v d' p1 hd'
      exact ih Ps d' (D.set P.1 P.2) v (PairsAt.mono h2 p1) hd'

theorem computes_symHead {e : Nat} {E : Expr} (he : ExprAt vals e E) :
    Computes vals (Prog.symHead Prog.exprCls e : Prog V Val Nat) ExprAt (Expr.head E) := by
  refine Computes.bindOk (computes_rep he) ?_
  intro v1 t p1 ht
  refine Computes.bindOk (computes_children ht) ?_
  intro v2 cs p2 hcs
  have := Computes.bind (F := fun e => .ok e) (Computes.ofPy (V := V) (rel := At) (pyGet_rel hcs 0))
    (f := fun e => (Prog.wrap Prog.exprCls e : Prog V Val Nat)) (rel' := ExprAt)
    (fun v d D hp hd => computes_wrap _ hd)
  have hb : ∀ x : PyM Expr, (x >>= fun d => .ok d) = x := by intro x; cases x <;> rfl
  rw [hb] at this
  exact this

theorem computes_symArgs {e : Nat} {E : Expr} (he : ExprAt vals e E) :
    Computes vals (Prog.symArgs Prog.exprCls e : Prog V Val (List Nat))
      (fun v => Forall₂ (ExprAt v)) (.ok (Expr.args E)) := by
  refine Computes.bindOk (computes_rep he) ?_
  intro v1 t p1 ht
  refine Computes.bindOk (computes_children ht) ?_
  intro v2 cs p2 hcs
  have hq : (Expr.args E).mapM (fun e => (.ok e : PyM Expr)) = .ok (Expr.args E) := by
    have := mapM_ok (fun q : Expr => q) (Expr.args E)
    simpa using this
  rw [← hq]
  exact computes_each (vals := v2) (relI := At) (relO := ExprAt) (fun h hp => h.mono hp)
    (fun h hp => h.mono hp) (fun _ _ _ _ h => computes_wrap _ h) v2 _ _ (List.prefix_refl _)
    (List.forall₂_drop 1 hcs)

variable (hl : ∀ v, PyVal.key (lit v) = v)
include hl

theorem computes_instr {m : Prog.SimplecasH} (hm : SimplecasAt vals m) {regs : List Prog.ObjH}
    {Regs : List PyObj} (hr : Forall₂ (ObjAt vals) regs Regs) (i : Instr) :
    Computes vals (Prog.instr lit m regs i) ObjAt (i.value Regs) := by
  have hr' : ∀ {v : List (Ex Val)}, vals <+: v → Forall₂ (ObjAt v) regs Regs :=
    fun p => hr.imp (fun _ _ h => h.mono p)
  cases i with
  | int n => exact .ret rfl
  | symbol s =>
    refine Computes.bindOk (computes_newLit hl Ty.symbol (.str s)) ?_
    intro v h p hh
    exact .pure hh
  | function s =>
    refine Computes.bindOk (computes_newLit hl Ty.function (.str s)) ?_
    intro v h p hh
    exact .pure hh
  | call f args =>
    refine Computes.bind (computes_get hr f) ?_
    intro v1 o O p1 ho
    refine Computes.bind (computes_asExpr _ ho) ?_
    intro v2 g G p2 hg
    refine Computes.bind (computes_each (vals := v2) (relI := fun _ a b => a = b) (relO := ObjAt)
      (F := pyGet Regs) (fun h _ => h) (fun h hp => h.mono hp) ?_ v2 args args (List.prefix_refl _)
      (List.forall₂_refl _)) ?_
    · rintro v k _ p rfl
      exact computes_get (hr' ((p1.trans p2).trans p)) k
    intro v3 as As p3 has
    refine Computes.bind (computes_exprCall hl (hg.mono p3) has) ?_
    intro v4 r R p4 hr
    exact .pure hr
  | op o a b =>
    refine Computes.bind (computes_get hr a) ?_
    intro v1 a' A p1 ha
    refine Computes.bind (computes_get (hr' p1) b) ?_
    intro v2 b' B p2 hb
    refine Computes.bind (computes_binOp hl (constsAt_mono hm.consts (p1.trans p2)) o (ha.mono p2) hb) ?_
    intro v4 r R p4 hr
    exact .pure hr
  | neg a =>
    refine Computes.bind (computes_get hr a) ?_
    intro v1 a' A p1 ha
    cases a' <;> cases A <;> try exact ha.elim
    · have hc := constsAt_mono hm.consts p1
      refine Computes.bindOk (computes_exprCall2 hl hc.mul hc.negone ha) ?_
      intro v2 r p2 hr
      exact .pure hr
    · cases ha
      exact .pure rfl
    · exact .raise
  | diff e s n =>
    refine Computes.bind (computes_get hr e) ?_
    intro v1 o O p1 ho
    refine Computes.bind (computes_asExpr _ ho) ?_
    intro v2 g G p2 hg
    refine Computes.bind (computes_get (hr' (p1.trans p2)) s) ?_
    intro v3 o' O' p3 ho'
    split
    · exact .pure (hg.mono p3)
    refine Computes.bind (computes_asExpr _ ho') ?_
    intro v4 t T p4 ht
    refine Computes.bind (computes_exprDiff n (hm.diff.mono ((p1.trans p2).trans (p3.trans p4)))
      (hg.mono (p3.trans p4)) ht) ?_
    intro v5 r R p5 hr
    exact .pure hr
  | xreplace e reps =>
    refine Computes.bind (computes_get hr e) ?_
    intro v1 o O p1 ho
    refine Computes.bind (computes_asExpr _ ho) ?_
    intro v2 g G p2 hg
    refine Computes.bind (computes_each (vals := v2) (relI := fun _ a b => a = b)
      (relO := fun v (r : Prog.ObjH × Prog.ObjH) (R : PyObj × PyObj) => ObjAt v r.1 R.1 ∧ ObjAt v r.2 R.2)
      (F := fun r => do return (← pyGet Regs r.1, ← pyGet Regs r.2)) (fun h _ => h)
      (fun h hp => ⟨h.1.mono hp, h.2.mono hp⟩) ?_ v2 reps reps (List.prefix_refl _)
      (List.forall₂_refl _)) ?_
    · rintro v k _ p rfl
      have q := (p1.trans p2).trans p
      refine Computes.bind (computes_get (hr' q) k.1) ?_
      intro v' a A p' ha
      refine Computes.bind (computes_get (hr' (q.trans p')) k.2) ?_
      intro v'' b B p'' hb
      exact .pure ⟨ha.mono p'', hb⟩
    intro v3 ps Ps p3 hps
    refine Computes.bindOk (computes_dictObj ps Ps [] Dict.empty v3 hps .nil) ?_
    intro v4 d p4 hd
    refine Computes.bind (computes_xreplace hl (hg.mono (p3.trans p4)) hd) ?_
    intro v5 r R p5 hr
    exact .pure hr
  | binExpand e =>
    refine Computes.bind (computes_get hr e) ?_
    intro v1 o O p1 ho
    refine Computes.bind (computes_asExpr _ ho) ?_
    intro v2 g G p2 hg
    refine Computes.bind (computes_exprBinExpand (constsAt_mono hm.consts (p1.trans p2)) hg) ?_
    intro v5 r R p5 hr
    exact .pure hr
  | head e =>
    refine Computes.bind (computes_get hr e) ?_
    intro v1 o O p1 ho
    refine Computes.bind (computes_asExpr _ ho) ?_
    intro v2 g G p2 hg
    refine Computes.bind (computes_symHead hg) ?_
    intro v5 r R p5 hr
    exact .pure hr
  | arg e k =>
    refine Computes.bind (computes_get hr e) ?_
    intro v1 o O p1 ho
    refine Computes.bind (computes_asExpr _ ho) ?_
    intro v2 g G p2 hg
    refine Computes.bindOk (computes_symArgs hg) ?_
    intro v3 as p3 has
    refine Computes.bind (Computes.ofPy (rel := ExprAt) (pyGet_rel has k)) ?_
    intro v5 r R p5 hr
    exact .pure hr
  | countOps e =>
    refine Computes.bind (computes_get hr e) ?_
    intro v1 o O p1 ho
    refine Computes.bind (computes_asExpr _ ho) ?_
    intro v2 g G p2 hg
    refine Computes.bindOk (computes_exprCountOps hg) ?_
    rintro v3 _ p3 rfl
    exact .pure rfl
  | eq a b =>
    refine Computes.bind (computes_get hr a) ?_
    intro v1 a' A p1 ha
    refine Computes.bind (computes_get (hr' p1) b) ?_
    intro v2 b' B p2 hb
    refine Computes.bindOk (computes_eqObj (ha.mono p2) hb) ?_
    rintro v3 _ p3 rfl
    refine .pure ?_
    show (if decide (A = B) = true then (1 : Int) else 0) = if A = B then 1 else 0
    by_cases h : A = B <;> simp [h]

theorem computes_script {m : Prog.SimplecasH} : ∀ (is : List Instr) (regs : List Prog.ObjH)
    (Regs : List PyObj) (vals : List (Ex Val)), SimplecasAt vals m → Forall₂ (ObjAt vals) regs Regs →
    Computes vals (Prog.script lit m regs is) (fun v => Forall₂ (ObjAt v)) (scriptValue Regs is) := by
  intro is
  induction is with
  | nil => intro regs Regs vals hm hr; exact .ret hr
  | cons i is ih =>
    intro regs Regs vals hm hr
    refine Computes.bind (computes_instr hl hm hr i) ?_
    intro v o O p ho
    exact ih _ _ v ⟨constsAt_mono hm.consts p, hm.diff.mono p⟩
      (List.rel_append (hr.imp (fun _ _ h => h.mono p)) (.cons ho .nil))

theorem computes_session (is : List Instr) :
    Computes vals (Prog.session lit is) (fun v => Forall₂ (ObjAt v)) (scriptValue [] is) := by
  refine Computes.bindOk (computes_import hl) ?_
  intro v m p hm
  exact computes_script hl is [] [] v hm .nil

end Verif.Store
