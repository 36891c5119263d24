import Verif.Lemmas.ClientMatrix

/-!
# Interactive programs on objects
-/

set_option linter.unusedSectionVars false

namespace Verif.Store
open List (Forall₂)

/-! ### `try` -/

section
variable {V K α A : Type} [DecidableEq K] [PyVal V K] {vals : List (Ex K)}

theorem Prog.attempt_bind {α : Type} (p : Prog V K α) : ∀ {β : Type} (f : α → Prog V K β),
    Prog.attempt (p.bind f) = (Prog.attempt p).bind (Prog.attemptNext (fun a => Prog.attempt (f a))) := by
  induction p with
  | ret a => intros; rfl
  | raise e => intros; rfl
  | make c k ih => intro β f; simp only [Prog.bind, Prog.attempt, ih]
  | same h h' k ih => intro β f; simp only [Prog.bind, Prog.attempt, ih]
  | look h k ih => intro β f; simp only [Prog.bind, Prog.attempt, ih]
  | loop body x k ihb ihk =>
    intro β f
    simp only [Prog.bind, Prog.attempt, ihk]
    congr 1
    funext r
    cases r <;> rfl

theorem valueStep_attempt {vals' : List (Ex K)} {p p' : Prog V K α}
    (h : valueStep (vals, p) = some (vals', p')) :
    valueStep (vals, Prog.attempt p) = some (vals', Prog.attempt p') := by
  cases p with
  | ret a => cases h
  | raise e => cases h
  | make c k =>
    simp only [valueStep, Option.map_eq_some_iff, Prod.mk.injEq] at h
    obtain ⟨x, h1, h2, h3⟩ := h
    subst h2; subst h3
    simp only [Prog.attempt, valueStep, h1, Option.map_some]
  | same g g' k =>
    simp only [valueStep] at h
    split at h
    · rename_i x y h1 h2
      cases h
      simp only [Prog.attempt, valueStep, h1, h2]
    · cases h
  | look g k =>
    simp only [valueStep, Option.map_eq_some_iff, Prod.mk.injEq] at h
    obtain ⟨x, h1, h2, h3⟩ := h
    subst h2; subst h3
    simp only [Prog.attempt, valueStep, h1, Option.map_some]
  | loop body x k =>
    cases h
    simp only [Prog.attempt, valueStep]
    rw [Prog.attempt_bind, Prog.bind_assoc]
    congr 3
    funext r
    match r with
    | .ok (.inl z) => rfl
    | .ok (.inr b) => rfl
    | .error e => rfl

theorem valueRun_attempt {c c' : List (Ex K) × Prog V K α} (h : ValueRun c c') :
    ValueRun (c.1, Prog.attempt c.2) (c'.1, Prog.attempt c'.2) := by
  induction h with
  | refl => exact .refl
  | @step c' c'' _ hs ih =>
    obtain ⟨v, p⟩ := c'
    obtain ⟨v', p'⟩ := c''
    exact ih.step (valueStep_attempt hs)

theorem computes_attempt {rel : List (Ex K) → α → A → Prop} {p : Prog V K α} {x : PyM A}
    (h : Computes vals p rel x) :
    Computes vals (Prog.attempt p) (fun v => Agree (rel v)) (.ok x) := by
  obtain ⟨r, v, h1, h2, h3⟩ := h
  refine ⟨.ok r, v, ?_, h2, h3⟩
  have := valueRun_attempt h1
  cases r <;> exact this

end

variable {V F : Type} [PyVal V Val] {vals vals' : List (Ex Val)} {lit : Val → V}

/-! ### Results -/

/-- A result in handles and in values. -/
def ThingAt (vals : List (Ex Val)) (V : Type) [PyVal V Val] : Prog.ThingH F → Thing F → Prop
  | .obj o, .obj O => ObjAt vals o O
  | .mat m, .mat M => MatAt vals m M
  | .str s, .str s' => s = s'
  | .num x, .num x' => x = x'
  | .fn f, .fn F => SubsAt vals f F
  | .ev d, .ev E => EvDAt vals V d E
  | .diff d, .diff D => DiffAt vals d D
  | .sympy s, .sympy s' => s = s'
  | .sympyMat m, .sympyMat m' => m = m'
  | .compiled f p, .compiled f' p' => f = f' ∧ p = p'
  | .array l, .array l' => l = l'
  | .undefined, .undefined => True
  | .exc e, .exc e' => e = e'
  | .none, .none => True
  | _, _ => False

theorem ThingAt.mono {t : Prog.ThingH F} {T : Thing F} (h : ThingAt vals V t T) (hp : vals <+: vals') :
    ThingAt vals' V t T := by
  cases t <;> cases T <;> first | exact h.elim | skip
  · exact ObjAt.mono h hp
  · exact MatAt.mono h hp
  · exact h
  · exact h
  · exact SubsAt.mono h hp
  · exact EvDAt.mono h hp
  · exact DiffAt.mono h hp
  · exact h
  · exact h
  · exact h
  · exact h
  · exact h
  · exact h
  · exact h

/-- All results. -/
abbrev ThingsAt (vals : List (Ex Val)) (V : Type) [PyVal V Val] : List (Prog.ThingH F) →
    List (Thing F) → Prop := Forall₂ (ThingAt vals V)

theorem thingsAt_mono {ts : List (Prog.ThingH F)} {Ts : List (Thing F)} (h : ThingsAt vals V ts Ts)
    (hp : vals <+: vals') : ThingsAt vals' V ts Ts := h.imp (fun _ _ h => h.mono hp)

theorem ThingAt.seen {t : Prog.ThingH F} {T : Thing F} (h : ThingAt vals V t T) : t.seen = T.seen := by
  cases t with
  | obj o =>
    cases T with
    | obj O =>
      cases o <;> cases O <;> first | exact h.elim | skip
      · rfl
      · exact congrArg Seen.int h
      · rfl
    | _ => exact h.elim
  | mat m =>
    cases T with
    | mat M => exact congrArg₂ Seen.matrix h.nrows h.ncols
    | _ => exact h.elim
  | str s =>
    cases T with
    | str s' => exact congrArg Seen.str h
    | _ => exact h.elim
  | num s =>
    cases T with
    | num s' => exact congrArg Seen.num h
    | _ => exact h.elim
  | fn f =>
    cases T with
    | fn f' => exact congrArg Seen.function h.nargs
    | _ => exact h.elim
  | ev e => cases T <;> first | exact h.elim | rfl
  | diff e => cases T <;> first | exact h.elim | rfl
  | sympy s =>
    cases T with
    | sympy s' => exact congrArg Seen.sympy h
    | _ => exact h.elim
  | sympyMat m =>
    cases T with
    | sympyMat m' =>
      have h : m = m' := h
      subst h
      rfl
    | _ => exact h.elim
  | compiled f p => cases T <;> first | exact h.elim | rfl
  | array l =>
    cases T with
    | array l' => exact congrArg Seen.array h
    | _ => exact h.elim
  | undefined => cases T <;> first | exact h.elim | rfl
  | exc e =>
    cases T with
    | exc e' => exact congrArg Seen.exc h
    | _ => exact h.elim
  | none => cases T <;> first | exact h.elim | rfl

theorem things_seen {ts : List (Prog.ThingH F)} {Ts : List (Thing F)} (h : ThingsAt vals V ts Ts) :
    ts.map Prog.ThingH.seen = Ts.map Thing.seen := by
  induction h with
  | nil => rfl
  | cons h1 _ ih => rw [List.map_cons, List.map_cons, h1.seen, ih]

/-- What `lambdify` is given. -/
def LambdifyAt (vals : List (Ex Val)) : Prog.LambdifyH → LambdifyArg → Prop
  | .expr e, .expr E => ExprAt vals e E
  | .matrix m, .matrix M => MatAt vals m M
  | .other, .other => True
  | _, _ => False

theorem ThingAt.lambdify {t : Prog.ThingH F} {T : Thing F} (h : ThingAt vals V t T) :
    LambdifyAt vals t.asLambdify T.asLambdify := by
  cases t <;> cases T <;> first | exact h.elim | exact h | trivial | skip
  rename_i o O
  cases o <;> cases O <;> first | exact h.elim | exact h | trivial

theorem computes_reps {es : List Nat} {Es : List Expr} (h : Forall₂ (ExprAt vals) es Es) :
    Computes vals (Prog.each Prog.rep es : Prog V Val (List Nat)) Ats (.ok Es) := by
  have hq : Es.mapM (fun e => (.ok e : PyM Expr)) = .ok Es := by
    have := mapM_ok (fun q : Expr => q) Es
    simpa using this
  rw [← hq]
  exact computes_each (vals := vals) (relI := ExprAt) (relO := At) (fun h hp => h.mono hp)
    (fun h hp => h.mono hp) (fun _ _ _ _ h => computes_rep h) vals es Es (List.prefix_refl _) h

theorem reps_expr (Es : List Expr) : (Es.map PyObj.expr).mapM PyObj.rep = .ok Es := by
  induction Es with
  | nil => rfl
  | cons E Es ih => rw [List.map_cons, List.mapM_cons, ih]; rfl

/-- `compiled` as a function. -/
def compileAlone (P : Platform F) (fn : IRFunction) (params : Nat) (f : Nat → Callable) :
    PyM (Callable × Proc F) :=
  match compileLlvm P fn.text Proc.start with
  | (.error err, _) => .error err
  | (.ok fptr, s) => if P.maxArgs < params then .error .argumentError else .ok (f fptr, s)

theorem computes_compiled (P : Platform F) (fn : IRFunction) (params : Nat) (f : Nat → Callable) :
    Computes vals (Prog.compiled P fn params f : Prog V Val (Callable × Proc F)) Same
      (compileAlone P fn params f) := by
  unfold Prog.compiled compileAlone
  rcases compileLlvm P fn.text Proc.start with ⟨_ | fptr, s⟩
  · exact .raise
  · dsimp only
    split
    · exact .raise
    · exact .ret rfl

theorem lambdifyAlone_expr (P : Platform F) (Es : List Expr) (E : Expr) :
    lambdifyAlone P Es (.expr E) = (do
      let fn ← toLlvm Es E
      compileAlone P fn Es.length (fun fptr => .cfunc fptr Es.length)) := by
  unfold lambdifyAlone Verif.lambdify
  rw [reps_expr]
  show (match lambdifyLlvm P Es E Proc.start with
      | (.ok f, p) => (.ok (f, p) : PyM (Callable × Proc F)) | (.error e, _) => .error e) = _
  unfold lambdifyLlvm
  cases toLlvm Es E with
  | error err => rfl
  | ok fn =>
    show _ = compileAlone _ _ _ _
    unfold compileAlone
    dsimp only
    rcases compileLlvm P fn.text Proc.start with ⟨_ | fptr, s⟩
    · rfl
    · dsimp only
      by_cases h : P.maxArgs < Es.length
      · rw [if_pos h, if_pos h]
      · rw [if_neg h, if_neg h]

theorem lambdifyAlone_matrix (P : Platform F) (Es : List Expr) (M : Mat) :
    lambdifyAlone P Es (.matrix M) = (do
      let fn ← toLlvmMatrix Es M
      compileAlone P fn (Es.length + 1) (fun fptr => .npfunc fptr Es.length (M.nrows, M.ncols))) := by
  unfold lambdifyAlone Verif.lambdify
  rw [reps_expr]
  show (match lambdifyLlvmMatrix P Es M Proc.start with
      | (.ok f, p) => (.ok (f, p) : PyM (Callable × Proc F)) | (.error e, _) => .error e) = _
  unfold lambdifyLlvmMatrix
  cases toLlvmMatrix Es M with
  | error err => rfl
  | ok fn =>
    show _ = compileAlone _ _ _ _
    unfold compileAlone
    dsimp only
    rcases compileLlvm P fn.text Proc.start with ⟨_ | fptr, s⟩
    · rfl
    · dsimp only
      by_cases h : P.maxArgs < Es.length + 1
      · rw [if_pos h, if_pos h]
      · rw [if_neg h, if_neg h]

theorem computes_lambdify (P : Platform F) {c : Prog.ConstsH} (hc : ConstsAt vals c) {es : List Nat}
    {Es : List Expr} (he : Forall₂ (ExprAt vals) es Es) {x : Prog.LambdifyH} {X : LambdifyArg}
    (hx : LambdifyAt vals x X) :
    Computes vals (Prog.lambdify P c es x : Prog V Val (Callable × Proc F)) Same
      (lambdifyAlone P Es X) := by
  refine Computes.bindOk (computes_reps he) ?_
  intro v1 rs p1 hrs
  have hlen : rs.length = Es.length := hrs.length_eq
  cases x <;> cases X <;> first | exact hx.elim | skip
  · rename_i e E
    rw [lambdifyAlone_expr]
    refine Computes.bindOk (computes_rep (ExprAt.mono hx p1)) ?_
    intro v2 t p2 ht
    refine Computes.bind (computes_toLlvm (constsAt_mono hc (p1.trans p2)) (hrs.mono p2) ht) ?_
    rintro v3 fn _ p3 rfl
    rw [hlen]
    exact computes_compiled P _ _ _
  · rename_i m M
    rw [lambdifyAlone_matrix]
    refine Computes.bind (computes_toLlvmMatrix (constsAt_mono hc p1) hrs (MatAt.mono hx p1)) ?_
    rintro v3 fn _ p3 rfl
    rw [hlen, MatAt.nrows hx, MatAt.ncols hx]
    exact computes_compiled P _ _ _
  · unfold lambdifyAlone Verif.lambdify
    rw [reps_expr]
    exact .raise

theorem operands_rel {ts : List (Prog.ThingH F)} {Ts : List (Thing F)} (h : ThingsAt vals V ts Ts) :
    ∀ k, Forall₂ (ObjAt vals) (Prog.operandsH k ts) (operands k Ts) := by
  induction h with
  | nil => intro k; exact .nil
  | @cons t T ts Ts h1 _ ih =>
    intro k
    cases t <;> cases T <;> first | exact h1.elim | exact .cons h1 (ih _) | exact .cons rfl (ih _)

section
variable {regs : List (Prog.ThingH F)} {Regs : List (Thing F)} (hr : ThingsAt vals V regs Regs)
include hr

theorem computes_reg (k : Nat) : Computes vals (Prog.reg regs k : Prog V Val (Prog.ThingH F))
    (fun v => ThingAt v V) (pyGet Regs k) := Computes.ofPy (pyGet_rel hr k)

theorem computes_regExpr (err : PyErr) (k : Nat) :
    Computes vals (Prog.regExpr err regs k : Prog V Val Nat) ExprAt
      (pyGet Regs k >>= fun T => T.asExpr err) := by
  refine Computes.bind (computes_reg hr k) ?_
  intro v t T p ht
  cases t <;> cases T <;> first | exact ht.elim | exact .raise | exact computes_asExpr err ht

theorem computes_regMat (err : PyErr) (k : Nat) :
    Computes vals (Prog.regMat err regs k : Prog V Val Prog.MatH) MatAt
      (pyGet Regs k >>= fun T => T.asMat err) := by
  refine Computes.bind (computes_reg hr k) ?_
  intro v t T p ht
  cases t <;> cases T <;> first | exact ht.elim | exact .raise | exact .ret ht

theorem computes_regEv (k : Nat) :
    Computes vals (Prog.regEv regs k : Prog V Val (Prog.EvalD F)) (fun v => EvDAt v V)
      (pyGet Regs k >>= fun T => T.asEv) := by
  refine Computes.bind (computes_reg hr k) ?_
  intro v t T p ht
  cases t <;> cases T <;> first | exact ht.elim | exact .raise | exact .ret ht

theorem computes_regDiff (err : PyErr) (k : Nat) :
    Computes vals (Prog.regDiff err regs k : Prog V Val Prog.DiffH) DiffAt
      (pyGet Regs k >>= fun T => T.asDiff err) := by
  refine Computes.bind (computes_reg hr k) ?_
  intro v t T p ht
  cases t <;> cases T <;> first | exact ht.elim | exact .raise | exact .ret ht

theorem computes_regSympy (err : PyErr) (k : Nat) :
    Computes vals (Prog.regSympy err regs k : Prog V Val SExpr) Same
      (pyGet Regs k >>= fun T => T.asSympy err) := by
  refine Computes.bind (computes_reg hr k) ?_
  intro v t T p ht
  cases t <;> cases T <;> first | exact ht.elim | exact .raise | exact .ret ht

theorem computes_withSympy (err : PyErr) (k : Nat) {α A : Type} {rel : List (Ex Val) → α → A → Prop}
    {f : SExpr → Prog V Val α} {G : SExpr → PyM A}
    (hf : ∀ v s, vals <+: v → Computes v (f s) rel (G s)) :
    Computes vals (Prog.regSympy err regs k >>= f) rel
      (pyGet Regs k >>= fun T => T.asSympy err >>= G) := by
  have := Computes.bind (computes_regSympy hr err k) (f := f) (F := G)
    (rel' := rel) (by rintro v s _ p rfl; exact hf v s p)
  have e : ((pyGet Regs k >>= fun T => T.asSympy err) >>= G) =
      (pyGet Regs k >>= fun T => T.asSympy err >>= G) := by
    cases pyGet Regs k <;> rfl
  rw [e] at this
  exact this

/-- The same with what follows. -/
theorem computes_withExpr (err : PyErr) (k : Nat) {α A : Type} {rel : List (Ex Val) → α → A → Prop}
    {f : Nat → Prog V Val α} {G : Expr → PyM A}
    (hf : ∀ v e E, vals <+: v → ExprAt v e E → Computes v (f e) rel (G E)) :
    Computes vals (Prog.regExpr err regs k >>= f) rel
      (pyGet Regs k >>= fun T => T.asExpr err >>= G) := by
  have := Computes.bind (computes_regExpr hr err k) hf
  have e : ((pyGet Regs k >>= fun T => T.asExpr err) >>= G) =
      (pyGet Regs k >>= fun T => T.asExpr err >>= G) := by
    cases pyGet Regs k <;> rfl
  rw [e] at this
  exact this

theorem computes_withMat (err : PyErr) (k : Nat) {α A : Type} {rel : List (Ex Val) → α → A → Prop}
    {f : Prog.MatH → Prog V Val α} {G : Mat → PyM A}
    (hf : ∀ v e E, vals <+: v → MatAt v e E → Computes v (f e) rel (G E)) :
    Computes vals (Prog.regMat err regs k >>= f) rel
      (pyGet Regs k >>= fun T => T.asMat err >>= G) := by
  have := Computes.bind (computes_regMat hr err k) hf
  have e : ((pyGet Regs k >>= fun T => T.asMat err) >>= G) =
      (pyGet Regs k >>= fun T => T.asMat err >>= G) := by
    cases pyGet Regs k <;> rfl
  rw [e] at this
  exact this

theorem computes_withEv (k : Nat) {α A : Type} {rel : List (Ex Val) → α → A → Prop}
    {f : Prog.EvalD F → Prog V Val α} {G : Evaluator PyM Val F → PyM A}
    (hf : ∀ v e E, vals <+: v → EvDAt v V e E → Computes v (f e) rel (G E)) :
    Computes vals (Prog.regEv regs k >>= f) rel
      (pyGet Regs k >>= fun T => T.asEv >>= G) := by
  have := Computes.bind (computes_regEv hr k) hf
  have e : ((pyGet Regs k >>= fun T => T.asEv) >>= G) =
      (pyGet Regs k >>= fun T => T.asEv >>= G) := by
    cases pyGet Regs k <;> rfl
  rw [e] at this
  exact this

theorem computes_withDiff (err : PyErr) (k : Nat) {α A : Type} {rel : List (Ex Val) → α → A → Prop}
    {f : Prog.DiffH → Prog V Val α} {G : DiffProps Val → PyM A}
    (hf : ∀ v e E, vals <+: v → DiffAt v e E → Computes v (f e) rel (G E)) :
    Computes vals (Prog.regDiff err regs k >>= f) rel
      (pyGet Regs k >>= fun T => T.asDiff err >>= G) := by
  have := Computes.bind (computes_regDiff hr err k) hf
  have e : ((pyGet Regs k >>= fun T => T.asDiff err) >>= G) =
      (pyGet Regs k >>= fun T => T.asDiff err >>= G) := by
    cases pyGet Regs k <;> rfl
  rw [e] at this
  exact this

theorem computes_patH (p : Pat) :
    Computes vals (Prog.patH regs p : Prog V Val Prog.PatternH) PatAt (p.value Regs) := by
  cases p with
  | sym e => exact computes_withExpr hr _ e (fun _ _ _ _ h => .pure h)
  | integer e => exact computes_withExpr hr _ e (fun _ _ _ _ h => .pure ⟨rfl, h⟩)
  | symbol e => exact computes_withExpr hr _ e (fun _ _ _ _ h => .pure ⟨rfl, h⟩)
  | function e => exact computes_withExpr hr _ e (fun _ _ _ _ h => .pure ⟨rfl, h⟩)
  | atomRule e => exact computes_withExpr hr _ e (fun _ _ _ _ h => .pure h)
  | headRule a b =>
    refine computes_withExpr hr _ a ?_
    intro v1 a' A p1 ha
    refine computes_withExpr (thingsAt_mono hr p1) _ b ?_
    intro v2 b' B p2 hb
    exact .pure ⟨ha.mono p2, hb⟩

theorem computes_regExprs (args : List Nat) :
    Computes vals (Prog.regExprs regs args : Prog V Val (List Nat)) (fun v => Forall₂ (ExprAt v))
      (exprArgs Regs args) := by
  refine computes_each (vals := vals) (relI := fun _ a b => a = b) (relO := ExprAt)
    (F := fun k => do (← pyGet Regs k).asExpr .attributeError) (fun h _ => h)
    (fun h hp => h.mono hp) ?_ vals args args (List.prefix_refl _) (List.forall₂_refl _)
  rintro v k _ p rfl
  exact computes_regExpr (thingsAt_mono hr p) _ k

end

/-- The items of a dictionary with expressions for keys. -/
abbrev ValuesAt (vals : List (Ex Val)) : List (Nat × F) → List (Expr × F) → Prop :=
  Forall₂ (fun p q => ExprAt vals p.1 q.1 ∧ p.2 = q.2)

theorem valuesAt_mono {ps : List (Nat × F)} {Ps : List (Expr × F)} (h : ValuesAt vals ps Ps)
    (hp : vals <+: vals') : ValuesAt vals' ps Ps := h.imp (fun _ _ h => ⟨h.1.mono hp, h.2⟩)

theorem computes_assignExpr {k : Nat} {K : Expr} {x : F} : ∀ (d : List (Nat × F))
    (D : List (Expr × F)) (vals : List (Ex Val)), ExprAt vals k K → ValuesAt vals d D →
    Computes vals (Prog.assignExpr k x d : Prog V Val (List (Nat × F))) (fun v => ValuesAt v)
      (.ok (Dict.assign K x D)) := by
  intro d
  induction d with
  | nil => intro D vals hk hd; cases hd; exact .ret (.cons ⟨hk, rfl⟩ .nil)
  | cons p d ih =>
    intro D vals hk hd
    cases hd with
    | @cons _ P _ D h1 h2 =>
      obtain ⟨k', v'⟩ := p
      obtain ⟨K', X'⟩ := P
      unfold Prog.assignExpr Dict.assign
      refine computes_sameExpr h1.1 hk ?_
      by_cases hK : K' = K
      · simp only [hK, decide_true, if_true]
        subst hK
        exact .pure (.cons ⟨h1.1, rfl⟩ h2)
      · simp only [hK, decide_false, Bool.false_eq_true, if_false]
        refine Computes.bindOk (ih D vals hk h2) ?_
        intro v2 r p2 hr
        exact .pure (.cons ⟨h1.1.mono p2, h1.2⟩ hr)

theorem computes_dictExpr : ∀ (ps : List (Nat × F)) (Ps : List (Expr × F)) (d : List (Nat × F))
    (D : Dict Expr F) (vals : List (Ex Val)), ValuesAt vals ps Ps → ValuesAt vals d D.items →
    Computes vals (Prog.dictExpr d ps : Prog V Val (List (Nat × F)))
      (fun v d D => ValuesAt v d D.items) (.ok (D.update Ps)) := by
  intro ps
  induction ps with
  | nil => intro Ps d D vals hp hd; cases hp; exact .ret hd
  | cons p ps ih =>
    intro Ps d D vals hp hd
    cases hp with
    | @cons _ P _ Ps h1 h2 =>
      obtain ⟨k, x⟩ := p
      obtain ⟨K, X⟩ := P
      obtain ⟨g1, g2⟩ := h1
      simp only at g1 g2
      subst g2
      refine Computes.bindOk (computes_assignExpr d D.items vals g1 hd) ?_
      intro v d' p1 hd'
      exact ih Ps d' (D.set K x) v (valuesAt_mono h2 p1) hd'

theorem computes_valuesH {regs : List (Prog.ThingH F)} {Regs : List (Thing F)}
    (hr : ThingsAt vals V regs Regs) (values : List (Nat × F)) :
    Computes vals (Prog.valuesH regs values : Prog V Val (List (Nat × F)))
      (fun v d D => ValuesAt v d D.items) (valuesDict Regs values) := by
  unfold Prog.valuesH valuesDict
  refine Computes.bind (computes_each (vals := vals) (relI := fun _ a b => a = b)
    (relO := fun v (p : Nat × F) (q : Expr × F) => ExprAt v p.1 q.1 ∧ p.2 = q.2)
    (F := fun p => do return (← (← pyGet Regs p.1).asExpr .attributeError, p.2)) (fun h _ => h)
    (fun h hp => ⟨h.1.mono hp, h.2⟩) ?_ vals values values (List.prefix_refl _)
    (List.forall₂_refl _)) ?_
  · rintro v q _ p rfl
    exact computes_withExpr (thingsAt_mono hr p) _ q.1 (fun _ _ _ _ h => .pure ⟨h, rfl⟩)
  · intro v ps Ps p hps
    exact computes_dictExpr ps Ps [] Dict.empty v hps .nil

theorem computes_operands {regs : List (Prog.ThingH F)} {Regs : List (Thing F)}
    (hr : ThingsAt vals V regs Regs) (args : List Nat) :
    Computes vals (Prog.each (Prog.get (Prog.operandsH 0 regs)) args : Prog V Val (List Prog.ObjH))
      (fun v => Forall₂ (ObjAt v)) (args.mapM (pyGet (operands 0 Regs))) := by
  refine computes_each (vals := vals) (relI := fun _ a b => a = b) (relO := ObjAt)
    (F := pyGet (operands 0 Regs)) (fun h _ => h) (fun h hp => h.mono hp) ?_ vals args args
    (List.prefix_refl _) (List.forall₂_refl _)
  rintro v k _ p rfl
  exact computes_get (operands_rel (thingsAt_mono hr p) 0) k

/-! ### Statements -/

variable [HasNone F] (hl : ∀ v, PyVal.key (lit v) = v)
include hl

theorem computes_plain {A : Libs F} {m : Prog.FullH F} (hm : FullAt vals V A m)
    {regs : List (Prog.ThingH F)} {Regs : List (Thing F)} (hr : ThingsAt vals V regs Regs) (i : Instr) :
    Computes vals (do return .obj (← Prog.instr lit m.base (Prog.operandsH 0 regs) i) :
      Prog V Val (Prog.ThingH F)) (fun v => ThingAt v V)
      (do return .obj (← i.value (operands 0 Regs))) := by
  refine Computes.bind (computes_instr hl hm.base (operands_rel hr 0) i) ?_
  intro v o O p ho
  exact .pure ho

theorem computes_stmtResult {A : Libs F} {m : Prog.FullH F} (hm : FullAt vals V A m)
    {regs : List (Prog.ThingH F)} {Regs : List (Thing F)} (hr : ThingsAt vals V regs Regs)
    (s : Stmt F) :
    Computes vals (Prog.stmtResult lit A m regs s) (fun v => ThingAt v V) (s.result A Regs) := by
  cases s with
  | api i =>
    have plain := fun {v : List (Ex Val)} (p : vals <+: v) =>
      computes_plain hl (hm.mono p) (thingsAt_mono hr p) i
    cases i with
    | call f args =>
      refine Computes.bind (computes_reg hr f) ?_
      intro v1 t T p1 ht
      cases t <;> cases T <;> first | exact ht.elim | exact plain p1 | skip
      refine Computes.bind (computes_operands (thingsAt_mono hr p1) args) ?_
      intro v2 as As p2 has
      refine Computes.bind (computes_callExprFunction hl (SubsAt.mono ht p2) has) ?_
      intro v3 e E p3 he
      exact .pure he
    | op o a b =>
      cases o with
      | add =>
        refine Computes.bind (computes_reg hr a) ?_
        intro v1 t T p1 ht
        refine Computes.bind (computes_reg (thingsAt_mono hr p1) b) ?_
        intro v2 u U p2 hu
        have q := p1.trans p2
        cases t <;> cases T <;> first | exact ht.elim | exact plain q | skip
        cases u <;> cases U <;> first | exact hu.elim | exact plain q | skip
        refine Computes.bind (computes_matAdd hl (hm.mono q).base.consts (MatAt.mono ht p2) hu) ?_
        intro v3 e E p3 he
        exact .pure he
      | _ => exact plain (List.prefix_refl _)
    | diff e s n =>
      refine Computes.bind (computes_reg hr e) ?_
      intro v1 t T p1 ht
      cases t <;> cases T <;> first | exact ht.elim | exact plain p1 | exact .raise
    | _ => exact plain (List.prefix_refl _)
  | wild s =>
    refine Computes.bindOk (computes_newLit hl Ty.wild (.str s)) ?_
    intro v h p hh
    exact .pure hh
  | star e =>
    refine computes_withExpr hr _ e ?_
    intro v1 x X p1 hx
    refine Computes.bindOk (computes_star (hm.star.mono p1) hx) ?_
    intro v h p hh
    exact .pure hh
  | asFunction e params =>
    refine computes_withExpr hr _ e ?_
    intro v1 x X p1 hx
    refine Computes.bind (computes_operands (thingsAt_mono hr p1) params) ?_
    intro v2 as As p2 has
    refine Computes.bind (computes_exprFunction hl (O := .expr X) (ExprAt.mono hx p2) has) ?_
    intro v3 f F p3 hf
    exact .pure hf
  | matrix rows =>
    refine Computes.bind (computes_each (vals := vals) (relI := fun _ a b => a = b)
      (relO := fun v => Forall₂ (ObjAt v)) (F := fun row => row.mapM (pyGet (operands 0 Regs)))
      (fun h _ => h) (fun h hp => h.imp (fun _ _ h => h.mono hp)) ?_ vals rows rows
      (List.prefix_refl _) (List.forall₂_refl _)) ?_
    · rintro v row _ p rfl
      exact computes_operands (thingsAt_mono hr p) row
    intro v1 rs Rs p1 hrs
    refine Computes.bind (computes_matNew hl (hm.mono p1).base.consts hrs) ?_
    intro v2 a A p2 ha
    exact .pure ha
  | item k i j =>
    refine computes_withMat hr _ k ?_
    intro v1 x X p1 hx
    refine Computes.bind (computes_matGet (hm.mono p1).base.consts hx i j) ?_
    intro v2 a A p2 ha
    exact .pure ha
  | tolist k i j =>
    refine computes_withMat hr _ k ?_
    intro v1 x X p1 hx
    refine Computes.bind (computes_matTolist (hm.mono p1).base.consts hx) ?_
    intro v2 rs Rs p2 hrs
    refine Computes.bind (Computes.ofPy (rel := fun v => Forall₂ (ExprAt v)) (pyGet_rel hrs i)) ?_
    intro v3 row Row p3 hrow
    refine Computes.bind (Computes.ofPy (rel := ExprAt) (pyGet_rel hrow j)) ?_
    intro v4 e E p4 he
    exact .pure he
  | binop a b f =>
    refine computes_withMat hr _ a ?_
    intro v1 x X p1 hx
    refine computes_withMat (thingsAt_mono hr p1) _ b ?_
    intro v2 y Y p2 hy
    refine computes_withExpr (thingsAt_mono hr (p1.trans p2)) _ f ?_
    intro v3 g G p3 hg
    refine Computes.bind (computes_matBinop hl (hm.mono (p1.trans (p2.trans p3))).base.consts
      (hx.mono (p2.trans p3)) (hy.mono p3) hg) ?_
    intro v4 e E p4 he
    exact .pure he
  | diff e s =>
    refine Computes.bind (computes_reg hr e) ?_
    intro v1 t T p1 ht
    cases t <;> cases T <;> first
      | exact ht.elim
      | exact computes_plain hl (hm.mono p1) (thingsAt_mono hr p1) (.diff e s 1)
      | skip
    refine Computes.bind (computes_get (operands_rel (thingsAt_mono hr p1) 0) s) ?_
    intro v2 o O p2 ho
    refine Computes.bind (computes_matDiff hl (hm.mono (p1.trans p2)).base (MatAt.mono ht p2) ho) ?_
    intro v4 e E p4 he
    exact .pure he
  | repr e =>
    refine Computes.bind (computes_reg hr e) ?_
    intro v1 t T p1 ht
    cases t <;> cases T <;> first | exact ht.elim | exact .raise | skip
    · rename_i o O
      cases o <;> cases O <;> first | exact ht.elim | exact .raise | skip
      · refine Computes.bind (computes_evalPlain (hm.mono p1).repr ht) ?_
        rintro v2 x _ p2 rfl
        exact .pure rfl
      · have ht : _ = _ := ht
        subst ht
        exact .pure rfl
    · refine Computes.bind (computes_matRepr (hm.mono p1).base.consts (hm.mono p1).repr ht) ?_
      rintro v2 x _ p2 rfl
      exact .pure rfl
  | latex e =>
    refine computes_withExpr hr _ e ?_
    intro v1 x X p1 hx
    refine Computes.bind (computes_evalPlain (hm.mono p1).latex hx) ?_
    rintro v2 x _ p2 rfl
    exact .pure rfl
  | countOpsTree e =>
    refine computes_withExpr hr _ e ?_
    intro v1 x X p1 hx
    refine Computes.bind (computes_evalPlain (hm.mono p1).countOps hx) ?_
    rintro v2 x _ p2 rfl
    exact .pure rfl
  | evalF64 e values =>
    refine computes_withExpr hr _ e ?_
    intro v1 x X p1 hx
    refine Computes.bind (computes_valuesH (thingsAt_mono hr p1) values) ?_
    intro v2 d D p2 hd
    refine Computes.bind (computes_evalWith (hm.mono (p1.trans p2)).f64 (hx.mono p2) hd) ?_
    rintro v3 x _ p3 rfl
    exact .pure rfl
  | llvm e args =>
    refine Computes.bind (computes_reg hr e) ?_
    intro v1 t T p1 ht
    have reps : ∀ {v : List (Ex Val)} {es : List Nat} {Es : List Expr}, Forall₂ (ExprAt v) es Es →
        Computes v (Prog.each Prog.rep es : Prog V Val (List Nat)) Ats (.ok Es) := by
      intro v es Es h
      have hq : Es.mapM (fun e => (.ok e : PyM Expr)) = .ok Es := by
        have := mapM_ok (fun q : Expr => q) Es
        simpa using this
      rw [← hq]
      exact computes_each (vals := v) (relI := ExprAt) (relO := At) (fun h hp => h.mono hp)
        (fun h hp => h.mono hp) (fun _ _ _ _ h => computes_rep h) v es Es (List.prefix_refl _) h
    cases t <;> cases T <;> first | exact ht.elim | exact .raise | skip
    · rename_i o O
      cases o <;> cases O <;> first | exact ht.elim | exact .raise | skip
      refine Computes.bind (computes_regExprs (thingsAt_mono hr p1) args) ?_
      intro v2 as As p2 has
      refine Computes.bindOk (reps has) ?_
      intro v3 rs p3 hrs
      refine Computes.bindOk (computes_rep (ExprAt.mono ht (p2.trans p3))) ?_
      intro v4 x p4 hx
      have q := p1.trans (p2.trans (p3.trans p4))
      refine Computes.bind (computes_toLlvm (hm.mono q).base.consts (hrs.mono p4) hx) ?_
      rintro v3 x _ p3 rfl
      exact .pure rfl
    · refine Computes.bind (computes_regExprs (thingsAt_mono hr p1) args) ?_
      intro v2 as As p2 has
      refine Computes.bindOk (reps has) ?_
      intro v3 rs p3 hrs
      have q := p1.trans (p2.trans p3)
      refine Computes.bind (computes_toLlvmMatrix (hm.mono q).base.consts hrs
        (MatAt.mono ht (p2.trans p3))) ?_
      rintro v3 x _ p3 rfl
      exact .pure rfl
  | newEvaluator => exact .ret evDAt_new
  | evaluate ev e values =>
    refine computes_withEv hr ev ?_
    intro v1 x X p1 hx
    refine Computes.bind (computes_valuesH (thingsAt_mono hr p1) values) ?_
    intro v2 d D p2 hd
    refine computes_withExpr (thingsAt_mono hr (p1.trans p2)) _ e ?_
    intro v3 y Y p3 hy
    refine Computes.bind (computes_evalWith (hx.mono (p2.trans p3)) hy (valuesAt_mono hd p3)) ?_
    rintro v3 x _ p3 rfl
    exact .pure rfl
  | newDiff a b c d =>
    refine computes_withExpr hr _ a ?_
    intro v1 a' A' p1 ha
    refine computes_withExpr (thingsAt_mono hr p1) _ b ?_
    intro v2 b' B' p2 hb
    refine computes_withExpr (thingsAt_mono hr (p1.trans p2)) _ c ?_
    intro v3 c' C' p3 hc
    refine computes_withExpr (thingsAt_mono hr (p1.trans (p2.trans p3))) _ d ?_
    intro v4 d' D' p4 hd
    refine Computes.bindOk (computes_differentiator (ha.mono (p2.trans (p3.trans p4)))
      (hb.mono (p3.trans p4)) (hc.mono p4) hd) ?_
    intro v5 p p5 hp
    exact .pure hp
  | diffWith d e s n =>
    refine computes_withDiff hr _ d ?_
    intro v1 x X p1 hx
    refine computes_withExpr (thingsAt_mono hr p1) _ e ?_
    intro v2 y Y p2 hy
    refine computes_withExpr (thingsAt_mono hr (p1.trans p2)) _ s ?_
    intro v3 z Z p3 hz
    refine Computes.bind (computes_symDiff n (hx.mono (p2.trans p3)) (hy.mono p3) hz) ?_
    intro v5 p P p5 hp
    exact .pure hp
  | sympy f args =>
    refine Computes.bind (computes_each (vals := vals) (relI := fun _ a b => a = b)
      (relO := Same) (F := fun k => do (← pyGet Regs k).asSympy .typeError)
      (fun h _ => h) (fun h _ => h) ?_ vals args args (List.prefix_refl _) (List.forall₂_refl _)) ?_
    · rintro v k _ p rfl
      exact computes_regSympy (thingsAt_mono hr p) _ k
    intro v1 as As p1 has
    rw [forall₂_eq has]
    refine Computes.bind (Computes.ofPySame (r := f As)) ?_
    rintro v2 x _ p2 rfl
    exact .pure rfl
  | toSympy e =>
    refine Computes.bind (computes_reg hr e) ?_
    intro v1 t T p1 ht
    cases t <;> cases T <;> first | exact ht.elim | exact .raise | skip
    · rename_i o O
      cases o <;> cases O <;> first | exact ht.elim | exact .raise | skip
      refine Computes.bind (computes_evalPlain (hm.mono p1).sympy ht) ?_
      rintro v2 x _ p2 rfl
      exact .pure rfl
    · refine Computes.bind (computes_toSympyMatrix (hm.mono p1).sympy ht) ?_
      rintro v2 x _ p2 rfl
      exact .pure rfl
  | fromSympy k =>
    refine computes_withSympy hr _ k ?_
    intro v1 x p1
    refine Computes.bind (computes_fromSympy hl (hm.mono p1).base.consts x) ?_
    intro v2 e E p2 he
    exact .pure he
  | fromSympyMatrix rows cols dok =>
    refine Computes.bind (computes_each (vals := vals) (relI := fun _ a b => a = b)
      (relO := Same) (F := fun p => do return (p.1, ← (← pyGet Regs p.2).asSympy .typeError))
      (fun h _ => h) (fun h _ => h) ?_ vals dok dok (List.prefix_refl _) (List.forall₂_refl _)) ?_
    · rintro v k _ p rfl
      exact computes_withSympy (thingsAt_mono hr p) _ k.2 (fun _ _ _ => .pure rfl)
    intro v1 as As p1 has
    rw [forall₂_eq has]
    refine Computes.bind (computes_fromSympyMatrix hl A.sympy (hm.mono p1).base.consts rows cols As) ?_
    intro v2 x X p2 hx
    exact .pure hx
  | lambdify e args =>
    refine Computes.bind (computes_reg hr e) ?_
    intro v1 t T p1 ht
    refine Computes.bind (computes_regExprs (thingsAt_mono hr p1) args) ?_
    intro v2 as As p2 has
    refine Computes.bind (computes_lambdify A.platform (hm.mono (p1.trans p2)).base.consts has
      (ht.mono p2).lambdify) ?_
    rintro v3 r _ p3 rfl
    exact .pure ⟨rfl, rfl⟩
  | callCompiled f args =>
    refine Computes.bind (computes_reg hr f) ?_
    intro v1 t T p1 ht
    cases t <;> cases T <;> first | exact ht.elim | exact .raise | skip
    obtain ⟨rfl, rfl⟩ := ht
    rename_i f p
    refine Computes.ofPy ?_
    show Agree _ (callResult _ _ _ (Verif.call A.platform f args p))
      (callResult _ _ _ (Verif.call A.platform f args p))
    generalize Verif.call A.platform f args p = o
    obtain ⟨o, q⟩ := o
    cases o with
    | float v => exact rfl
    | array id =>
      unfold callResult
      cases h : pyGet q.arrays id <;> simp only [h] <;> exact rfl
    | raised e => exact rfl
    | undefined => trivial
  | rule ev pattern f args => exact .ret trivial
  | diffRule d e s r => exact .ret trivial
  | distributive d h => exact .ret trivial

omit hl in
theorem computes_pushed {regs : List (Prog.ThingH F)} {Regs : List (Thing F)}
    (hr : ThingsAt vals V regs Regs) {p : Prog V Val (Prog.ThingH F)} {x : PyM (Thing F)}
    (h : Computes vals p (fun v => ThingAt v V) x) :
    Computes vals (Prog.pushedH regs p) (fun v => ThingsAt v V) (pushed Regs x) := by
  refine Computes.bind h ?_
  intro v t T p ht
  exact .pure (List.rel_append (thingsAt_mono hr p) (.cons ht .nil))

omit hl in
theorem computes_changed {regs : List (Prog.ThingH F)} {Regs : List (Thing F)}
    (hr : ThingsAt vals V regs Regs) (k : Nat) {p : Prog V Val (Prog.ThingH F)} {x : PyM (Thing F)}
    (h : Computes vals p (fun v => ThingAt v V) x) :
    Computes vals (Prog.changedH regs k p) (fun v => ThingsAt v V) (changed Regs k x) := by
  refine Computes.bind h ?_
  intro v t T p ht
  refine .pure (List.rel_append ?_ (.cons trivial .nil))
  have hr := thingsAt_mono hr p
  clear * - hr ht
  induction hr generalizing k with
  | nil => exact .nil
  | cons h1 h2 ih =>
    cases k with
    | zero => exact .cons ht h2
    | succ n => exact .cons h1 (ih n)

theorem computes_stmt {A : Libs F} {m : Prog.FullH F} (hm : FullAt vals V A m)
    {regs : List (Prog.ThingH F)} {Regs : List (Thing F)} (hr : ThingsAt vals V regs Regs)
    (s : Stmt F) :
    Computes vals (Prog.stmt lit A m regs s) (fun v => ThingsAt v V) (s.value A Regs) := by
  cases s with
  | rule ev pattern f args =>
    refine computes_changed hr ev ?_
    refine computes_withEv hr ev ?_
    intro v1 x X p1 hx
    refine Computes.bind (computes_patH (thingsAt_mono hr p1) pattern) ?_
    intro v2 q Q p2 hq
    refine Computes.bind (computes_regExprs (thingsAt_mono hr (p1.trans p2)) args) ?_
    intro v3 as As p3 has
    refine Computes.bind (computes_rule (hm.star.mono (p1.trans (p2.trans p3))) f
      (hx.mono (p2.trans p3)) (hq.mono p3) has) ?_
    intro v4 d D p4 hd
    exact .pure hd
  | diffRule d e s r =>
    refine computes_changed hr d ?_
    refine computes_withDiff hr _ d ?_
    intro v1 x X p1 hx
    refine computes_withExpr (thingsAt_mono hr p1) _ e ?_
    intro v2 y Y p2 hy
    refine computes_withExpr (thingsAt_mono hr (p1.trans p2)) _ s ?_
    intro v3 z Z p3 hz
    refine computes_withExpr (thingsAt_mono hr (p1.trans (p2.trans p3))) _ r ?_
    intro v4 w W p4 hw
    refine Computes.bind (computes_setDiffRule (hx.mono (p2.trans (p3.trans p4)))
      (hy.mono (p3.trans p4)) (hz.mono p4) hw) ?_
    intro v5 p P p5 hp
    exact .pure hp
  | distributive d h =>
    refine computes_changed hr d ?_
    refine computes_withDiff hr _ d ?_
    intro v1 x X p1 hx
    refine computes_withExpr (thingsAt_mono hr p1) _ h ?_
    intro v2 y Y p2 hy
    refine Computes.bindOk (computes_addDistributive (hx.mono p2) hy) ?_
    intro v5 p p5 hp
    exact .pure hp
  | _ => exact computes_pushed hr (computes_stmtResult hl hm hr _)

/-! ### Sessions -/

theorem computes_interact {A : Libs F} {m : Prog.FullH F} (user : User F) : ∀ (n : Nat)
    (regs : List (Prog.ThingH F)) (Regs : List (Thing F)) (vals : List (Ex Val)),
    FullAt vals V A m → ThingsAt vals V regs Regs →
    Computes vals (Prog.interact lit A m user n regs) (fun v => ThingsAt v V)
      (.ok (sessionValue A user n Regs)) := by
  intro n
  induction n with
  | zero => intro regs Regs vals hm hr; exact .ret hr
  | succ n ih =>
    intro regs Regs vals hm hr
    unfold Prog.interact sessionValue
    rw [things_seen hr]
    cases user (Regs.map Thing.seen) with
    | none => exact .ret hr
    | some s =>
      refine Computes.bindOk (computes_attempt (computes_stmt hl hm hr s)) ?_
      intro v r p h
      cases hx : s.value A Regs with
      | error e =>
        have ha : s.after A Regs = Regs ++ [.exc e] := by simp only [Stmt.after, hx]
        rw [hx] at h
        show Computes v _ _ (.ok (sessionValue A user n (s.after A Regs)))
        rw [ha]
        match r, h with
        | .error _, rfl =>
          exact ih _ _ v (hm.mono p) (List.rel_append (thingsAt_mono hr p)
            (.cons (show ThingAt v V (.exc e) (.exc e) from rfl) .nil))
      | ok x =>
        have ha : s.after A Regs = x := by simp only [Stmt.after, hx]
        rw [hx] at h
        show Computes v _ _ (.ok (sessionValue A user n (s.after A Regs)))
        rw [ha]
        match r, h with
        | .ok r, h => exact ih _ _ v (hm.mono p) h

theorem computes_fullSession (A : Libs F) (user : User F) (n : Nat) :
    Computes vals (Prog.fullSession lit A user n) (fun v => ThingsAt v V)
      (.ok (sessionValue A user n [])) := by
  refine Computes.bindOk (computes_importFull hl A) ?_
  intro v m p hm
  exact computes_interact hl user n [] [] v hm .nil

end Verif.Store
