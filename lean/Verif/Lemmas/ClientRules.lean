import Verif.Spec.ClientUser
import Verif.Lemmas.ClientRead
import Verif.Lemmas.ClientScript
import Verif.Lemmas.Rules

/-!
# Evaluation rules on objects
-/

set_option linter.unusedSectionVars false

namespace Verif.Store
open List (Forall₂)
variable {V T : Type} [PyVal V Val] {vals vals' : List (Ex Val)} {lit : Val → V}

/-- Data are equal. -/
abbrev Same {α : Type} : List (Ex Val) → α → α → Prop := fun _ a b => a = b

theorem same_stable : Stable (Same (α := T)) := fun _ _ _ _ h _ => h
theorem same_none [HasNone T] : SameNone (Same (α := T)) := fun _ _ _ h => by
  have h : _ = _ := h
  rw [h]

theorem Computes.ofPySame {r : PyM T} : Computes vals (Prog.ofPy r : Prog V Val T) Same r := by
  refine Computes.ofPy ?_
  cases r <;> rfl

/-- The evaluator in handles has the rules of the one in values. -/
def EvDAt (vals : List (Ex Val)) (V : Type) [PyVal V Val] (d : Prog.EvalD T) (Ev : Evaluator PyM Val T) :
    Prop := EvalAt vals Same (d.toH : Prog.EvalH V Val T) Ev

theorem EvDAt.mono {d : Prog.EvalD T} {Ev : Evaluator PyM Val T} (h : EvDAt vals V d Ev)
    (hp : vals <+: vals') : EvDAt vals' V d Ev := EvalAt.mono h hp

theorem evDAt_new : EvDAt vals V (Prog.EvalD.new : Prog.EvalD T) Evaluator.new := by
  refine ⟨fun _ => trivial, .empty, ?_, ?_⟩
  · intro v h t as xs hv ht has
    refine Computes.bindOk (computes_readTree ht) ?_
    rintro v' _ p rfl
    exact .raise
  · intro v h a hv ht
    refine Computes.bindOk (computes_readTree ht) ?_
    rintro v' _ p rfl
    exact .raise

theorem EvDAt.addAtom {d : Prog.EvalD T} {Ev : Evaluator PyM Val T} (h : EvDAt vals V d Ev)
    (ty : AtomType) (f : Val → PyM T) :
    EvDAt vals V { d with atoms := (ty, f) :: d.atoms } (Ev.addAtom ty f) :=
  EvalAt.addAtom h ty (fun _ _ _ => Computes.ofPySame)

theorem EvDAt.addAtomGeneric {d : Prog.EvalD T} {Ev : Evaluator PyM Val T} (h : EvDAt vals V d Ev)
    (f : Expr → PyM T) :
    EvDAt vals V { d with genericAtom := f } (Ev.addAtomGeneric f) := by
  refine EvalAt.addAtomGeneric h ?_
  intro v n a hv ht
  refine Computes.bindOk (computes_readTree ht) ?_
  rintro v' _ p rfl
  exact Computes.ofPySame

theorem EvDAt.addOpGeneric {d : Prog.EvalD T} {Ev : Evaluator PyM Val T} (h : EvDAt vals V d Ev)
    (f : Expr → List T → PyM T) :
    EvDAt vals V { d with genericOp := f } (Ev.addOpGeneric f) := by
  refine EvalAt.addOpGeneric h ?_
  intro v n t as xs hv ht has
  refine Computes.bindOk (computes_readTree ht) ?_
  rintro v' _ p rfl
  rw [forall₂_eq has]
  exact Computes.ofPySame

theorem EvDAt.addOp {d : Prog.EvalD T} {Ev : Evaluator PyM Val T} (h : EvDAt vals V d Ev) {n : Nat}
    {t : Expr} (ht : At vals n t) (f : List T → PyM T) :
    EvDAt vals V { d with operations := (n, f) :: d.operations }
      { Ev with operations := Ev.operations.set t (.star f) } ∧
    EvDAt vals V { d with operations := (n, f) :: d.operations }
      { Ev with operations := Ev.operations.set t (.seq f) } := by
  have hf : ∀ (v : List (Ex Val)) (as xs : List T), vals <+: v → Forall₂ (Same v) as xs →
      Computes v (Prog.ofPy (f as) : Prog V Val T) Same (f xs) := by
    intro v as xs _ has
    rw [forall₂_eq has]
    exact Computes.ofPySame
  exact ⟨⟨h.atoms, h.operations.set ht hf, h.genericOp, h.genericAtom⟩,
    ⟨h.atoms, h.operations.set ht hf, h.genericOp, h.genericAtom⟩⟩

/-! ### Patterns and calls -/

theorem PatAt.mono {p : Prog.PatternH} {P : Pattern} (h : PatAt vals p P) (hp : vals <+: vals') :
    PatAt vals' p P := by
  cases p <;> cases P <;> first | exact h.elim | skip
  · exact ExprAt.mono h hp
  · exact ⟨h.1, h.2.mono hp⟩
  · exact ExprAt.mono h hp
  · exact ⟨h.1.mono hp, h.2.mono hp⟩

theorem computes_patArgs {p : Prog.PatternH} {P : Pattern} (h : PatAt vals p P) :
    Computes vals (p.args : Prog V Val (List Nat)) (fun v => Forall₂ (ExprAt v)) (.ok P.args) := by
  cases p <;> cases P <;> first | exact h.elim | skip
  · exact computes_symArgs h
  · exact .ret (.cons h.2 .nil)
  · exact .ret (.cons h .nil)
  · exact .ret (.cons h.1 (.cons h.2 .nil))

theorem computes_star {st w : Nat} {W : Expr} (hs : At vals st Expr.starH) (hw : ExprAt vals w W) :
    Computes vals (Prog.star st w : Prog V Val Nat) ExprAt (.ok (star W)) := by
  refine Computes.bindOk (computes_rep hw) ?_
  intro v1 w' p1 hw'
  refine Computes.bindOk (computes_call (hs.mono p1) (.one hw')) ?_
  intro v2 t p2 ht
  exact computes_wrap _ ht

theorem computes_sameExpr {h h' : Nat} {t t' : Expr} {α A : Type} {k : Bool → Prog V Val α}
    {rel : List (Ex Val) → α → A → Prop} {x : PyM A} (h1 : ExprAt vals h t) (h2 : ExprAt vals h' t')
    (hk : Computes vals (k (decide (t = t'))) rel x) : Computes vals (.same h h' k) rel x := by
  refine Computes.step (p' := k (decide (t = t'))) (vals' := vals) ?_ (List.prefix_refl _) hk
  unfold ExprAt SymAt at h1 h2
  simp only [valueStep, h1, h2]
  congr 3
  simp

theorem computes_sameArgs {as : List Nat} {As : List Expr} (ha : Forall₂ (ExprAt vals) as As) :
    ∀ {bs : List Nat} {Bs : List Expr}, Forall₂ (ExprAt vals) bs Bs →
    Computes vals (Prog.sameArgs as bs : Prog V Val Bool) Same (.ok (decide (As = Bs))) := by
  induction ha with
  | nil =>
    intro bs Bs hb
    cases hb with
    | nil => exact .ret rfl
    | cons _ _ => exact .ret rfl
  | @cons a A as As h1 _ ih =>
    intro bs Bs hb
    cases hb with
    | nil => exact .ret rfl
    | @cons b B bs Bs g1 g2 =>
      unfold Prog.sameArgs
      refine computes_sameExpr h1 g1 ?_
      by_cases hab : A = B
      · have : decide (A :: As = B :: Bs) = decide (As = Bs) := by simp [hab]
        rw [this]
        simp only [hab, decide_true, if_true]
        exact ih g2
      · simp only [hab, decide_false, Bool.false_eq_true, if_false]
        exact .ret (by simp [hab])

/-- The call refers to the expressions of the call in values. -/
def CallAt (vals : List (Ex Val)) (c : Prog.WildCallH T) (C : WildCall T) : Prop :=
  c.op = C.op ∧ Forall₂ (ExprAt vals) c.args C.args

theorem computes_wildCall {f : PyFn T} {as : List Nat} {As : List Expr}
    (ha : Forall₂ (ExprAt vals) as As) :
    Computes vals (Prog.wildCall f as : Prog V Val (Prog.WildCallH T)) CallAt (f.call As) := by
  unfold Prog.wildCall PyFn.call
  rw [ha.length_eq]
  split
  · exact .ret ⟨rfl, ha⟩
  · exact .raise

theorem computes_checkEq {p : Prog.PatternH} {P : Pattern} {as : List Nat} {As : List Expr}
    (hp : PatAt vals p P) (ha : Forall₂ (ExprAt vals) as As) :
    Computes vals (do
      let args ← p.args
      if ← Prog.sameArgs args as then return ()
      else .raise .badRule : Prog V Val Unit) Same
      (if P.args ≠ As then .error .badRule else .ok ()) := by
  refine Computes.bindOk (computes_patArgs hp) ?_
  intro v1 args p1 hargs
  refine Computes.bindOk (computes_sameArgs hargs (ha.imp (fun _ _ h => h.mono p1))) ?_
  rintro v2 _ p2 rfl
  by_cases h : P.args = As
  · simp only [h, decide_true, if_true, ne_eq, not_true_eq_false, if_false]
    exact .pure rfl
  · simp only [h, decide_false, Bool.false_eq_true, if_false, ne_eq, not_false_eq_true, if_true]
    exact .raise

theorem computes_checkSignature {st : Nat} (hs : At vals st Expr.starH) {p : Prog.PatternH}
    {P : Pattern} {c : Prog.WildCallH T} {C : WildCall T} (hp : PatAt vals p P) (hc : CallAt vals c C) :
    Computes vals (Prog.checkSignature st p c : Prog V Val Unit) Same (checkSignature P C) := by
  obtain ⟨op, as⟩ := c
  obtain ⟨op', As⟩ := C
  obtain ⟨rfl, ha⟩ := hc
  cases op <;> try exact computes_checkEq hp ha
  simp only at ha
  cases ha with
  | nil => exact .raise
  | @cons a A as As h1 h2 =>
    cases h2 with
    | cons _ _ => exact .raise
    | nil =>
      show Computes vals (do
        let args ← p.args
        let s ← Prog.star st a
        if ← Prog.sameArgs args [s] then return ()
        else .raise .badRule : Prog V Val Unit) Same
        (if P.args ≠ [star A] then .error .badRule else .ok ())
      refine Computes.bindOk (computes_patArgs hp) ?_
      intro v1 args p1 hargs
      refine Computes.bindOk (computes_star (hs.mono p1) (h1.mono p1)) ?_
      intro v2 s p2 hs'
      refine Computes.bindOk (computes_sameArgs (hargs.imp (fun _ _ h => h.mono p2))
        (.cons hs' .nil)) ?_
      rintro v3 _ p3 rfl
      by_cases h : P.args = [star A]
      · simp only [h, decide_true, if_true, ne_eq, not_true_eq_false, if_false]
        exact .pure rfl
      · simp only [h, decide_false, Bool.false_eq_true, if_false, ne_eq, not_false_eq_true, if_true]
        exact .raise

/-- The evaluator after an assignment that may have raised. -/
def outcome (r : Except PyErr Unit × Evaluator PyM Val T) : PyM (Evaluator PyM Val T) :=
  match r with
  | (.ok (), ev') => .ok ev'
  | (.error e, _) => .error e

theorem assignRule_eq (ev : Evaluator PyM Val T) (P : Pattern) (f : PyFn T) (args : List Expr) :
    assignRule ev P f args = f.call args >>= fun c => outcome (Verif.setItem P (some c) ev) := by
  unfold assignRule outcome
  cases f.call args <;> rfl

theorem computes_setItem {st : Nat} (hs : At vals st Expr.starH) {p : Prog.PatternH} {P : Pattern}
    {c : Prog.WildCallH T} {C : WildCall T} {d : Prog.EvalD T} {Ev : Evaluator PyM Val T}
    (hE : EvDAt vals V d Ev) (hp : PatAt vals p P) (hc : CallAt vals c C) :
    Computes vals (Prog.setItem st d p c : Prog V Val (Prog.EvalD T)) (fun v => EvDAt v V)
      (outcome (Verif.setItem P (some C) Ev)) := by
  have e : outcome (Verif.setItem P (some C) Ev) = checkSignature P C >>= fun _ =>
      match P with
      | .atomRule _ =>
        match C.op with
        | .atomFunc f => .ok (Ev.addAtomGeneric f)
        | _ => .error .badRule
      | .headRule _ _ =>
        match C.op with
        | .headOp f => .ok (Ev.addOpGeneric f)
        | _ => .error .badRule
      | .atomValue ty _ =>
        match C.op with
        | .func1 f => .ok (Ev.addAtom ty f)
        | _ => .error .badRule
      | .sym e =>
        match C.op with
        | .op1 f => e.head >>= fun h => .ok (Ev.addOp1 h f)
        | .op2 f => e.head >>= fun h => .ok (Ev.addOp2 h f)
        | .opN f => e.head >>= fun h => .ok (Ev.addOpN h f)
        | _ => .error .badRule := by
    unfold Verif.setItem
    simp only [bind, ExceptT.bind, ExceptT.mk, StateT.bind, EvM.lift, pure, ExceptT.bindCont]
    cases checkSignature P C with
    | error e => rfl
    | ok u =>
      cases P with
      | atomRule w => cases C.op <;> rfl
      | headRule h as => cases C.op <;> rfl
      | atomValue ty w => cases C.op <;> rfl
      | sym e =>
        cases C.op <;> try rfl
        all_goals
          simp only [bind, StateT.bind, EvM.lift, pure, ExceptT.bindCont]
          cases e.head <;> rfl
  rw [e]
  unfold Prog.setItem
  refine Computes.bind (computes_checkSignature hs hp hc) ?_
  rintro v1 _ _ p1 rfl
  replace hE := hE.mono p1
  replace hp := hp.mono p1
  obtain ⟨op, as⟩ := c
  obtain ⟨op', As⟩ := C
  obtain ⟨rfl, ha⟩ := hc
  cases p <;> cases P <;> first | exact hp.elim | skip
  · have key : ∀ (f : List T → PyM T) (G : Expr → Evaluator PyM Val T),
        (∀ v n t, v1 <+: v → At v n t → EvDAt v V { d with operations := (n, f) :: d.operations } (G t)) →
        ∀ (e : Nat) (E : Expr), ExprAt v1 e E →
        Computes v1 (do
          let head ← Prog.symHead Prog.exprCls e
          let h ← Prog.rep head
          return { d with operations := (h, f) :: d.operations } : Prog V Val (Prog.EvalD T))
          (fun v => EvDAt v V) (E.head >>= fun h => .ok (G h)) := by
      intro f G hG e E he
      refine Computes.bind (computes_symHead he) ?_
      intro v2 h H p2 hh
      refine Computes.bindOk (computes_rep hh) ?_
      intro v3 n p3 hn
      exact .pure (hG v3 n H (p2.trans p3) hn)
    cases op <;> try exact .raise
    · exact key _ (fun h => Ev.addOp1 h _) (fun v n t hv ht => ((hE.mono hv).addOp ht _).1) _ _ hp
    · exact key _ (fun h => Ev.addOp2 h _) (fun v n t hv ht => ((hE.mono hv).addOp ht _).1) _ _ hp
    · exact key _ (fun h => Ev.addOpN h _) (fun v n t hv ht => ((hE.mono hv).addOp ht _).2) _ _ hp
  · obtain ⟨rfl, hw⟩ := hp
    cases op <;> first | exact .raise | exact .pure (hE.addAtom _ _)
  · cases op <;> first | exact .raise | exact .pure (hE.addAtomGeneric _)
  · cases op <;> first | exact .raise | exact .pure (hE.addOpGeneric _)

theorem computes_rule {st : Nat} (hs : At vals st Expr.starH) {p : Prog.PatternH} {P : Pattern}
    {d : Prog.EvalD T} {Ev : Evaluator PyM Val T} (f : PyFn T) {as : List Nat} {As : List Expr}
    (hE : EvDAt vals V d Ev) (hp : PatAt vals p P) (ha : Forall₂ (ExprAt vals) as As) :
    Computes vals (Prog.rule st d p f as : Prog V Val (Prog.EvalD T)) (fun v => EvDAt v V)
      (assignRule Ev P f As) := by
  rw [assignRule_eq]
  refine Computes.bind (computes_wildCall ha) ?_
  intro v1 c C p1 hc
  exact computes_setItem (hs.mono p1) (hE.mono p1) (hp.mono p1) hc

/-! ### The import -/

/-- The `Tree` `Star`, the constants and the wilds that the rules are written with. -/
structure RuleEnv (vals : List (Ex Val)) (st a b : Nat) (c : Prog.ConstsH) : Prop where
  star : At vals st Expr.starH
  consts : ConstsAt vals c
  a : ExprAt vals a Expr.wa
  b : ExprAt vals b Expr.wb

theorem RuleEnv.mono {st a b : Nat} {c : Prog.ConstsH} (h : RuleEnv vals st a b c)
    (hp : vals <+: vals') : RuleEnv vals' st a b c :=
  ⟨h.star.mono hp, constsAt_mono h.consts hp, h.a.mono hp, h.b.mono hp⟩

variable (hl : ∀ v, PyVal.key (lit v) = v)
include hl

theorem computes_makeStar : Computes vals (Prog.makeStar lit) At (.ok Expr.starH) := by
  unfold Prog.makeStar
  refine Computes.step (p' := _) rfl (List.prefix_append _ _) ?_
  refine Computes.step (p' := .ret (vals.length + 1))
    (vals' := vals ++ [.atom ⟨Ty.star, PyVal.key (lit (.str "Star"))⟩] ++
      [.tree (.atom ⟨Ty.star, PyVal.key (lit (.str "Star"))⟩)]) ?_
    (List.prefix_append _ _) (.ret ?_)
  · simp [valueStep, valueOf]
  · simp [At, Expr.starH, hl]

variable {st a b : Nat} {c : Prog.ConstsH} {d : Prog.EvalD T} {Ev : Evaluator PyM Val T}

theorem computes_ruleN (hR : RuleEnv vals st a b c) (hE : EvDAt vals V d Ev) {h : Nat} {H : Expr}
    (hh : ExprAt vals h H) (f : List T → PyM T) :
    Computes vals (Prog.ruleN lit st d h a f) (fun v => EvDAt v V)
      (assignRule Ev (.sym (H.call [star Expr.wa])) (.opN f) [Expr.wa]) := by
  refine Computes.bindOk (computes_star hR.star hR.a) ?_
  intro v1 s p1 hs
  refine Computes.bindOk (computes_exprCall hl (Os := [.expr _]) (hh.mono p1) (.cons hs .nil)) ?_
  intro v2 p p2 hp
  have q := p1.trans p2
  exact computes_rule (hR.star.mono q) _ (hE.mono q) (P := .sym _) hp (.cons (hR.a.mono q) .nil)

theorem computes_rule1 (hR : RuleEnv vals st a b c) (hE : EvDAt vals V d Ev) {h : Nat} {H : Expr}
    (hh : ExprAt vals h H) (f : List T → PyM T) :
    Computes vals (Prog.rule1 lit st d h a f) (fun v => EvDAt v V)
      (assignRule Ev (.sym (H.call [Expr.wa])) (.op1 f) [Expr.wa]) := by
  refine Computes.bindOk (computes_exprCall hl (Os := [.expr _]) hh (.cons hR.a .nil)) ?_
  intro v2 p q hp
  exact computes_rule (hR.star.mono q) _ (hE.mono q) (P := .sym _) hp (.cons (hR.a.mono q) .nil)

theorem computes_rulePow (hR : RuleEnv vals st a b c) (hE : EvDAt vals V d Ev) (f : List T → PyM T) :
    Computes vals (Prog.rulePow lit c st d a b f) (fun v => EvDAt v V)
      (assignRule Ev (.sym (Expr.pow Expr.wa Expr.wb)) (.op2 f) [Expr.wa, Expr.wb]) := by
  refine Computes.bindOk (computes_binOp hl hR.consts .pow (A := .expr Expr.wa) (B := .expr Expr.wb)
    hR.a hR.b) ?_
  intro v2 p q hp
  exact computes_rule (hR.star.mono q) _ (hE.mono q) (P := .sym _) hp
    (.cons (hR.a.mono q) (.cons (hR.b.mono q) .nil))

theorem computes_makeF64 {F : Type} (A : FloatOps F) (hR : RuleEnv vals st a b c) :
    Computes vals (Prog.makeF64 lit A c st a b) (fun v => EvDAt v V) (.ok (Verif.evalF64 A)) := by
  have e : (.ok (Verif.evalF64 A) : PyM (Evaluator PyM Val F)) = (do
      let e ← assignRule Evaluator.new (.atomValue Ty.integer Expr.wa) (.func1 A.fromVal) [Expr.wa]
      let e ← assignRule e (.sym (Expr.addH.call [star Expr.wa])) (.opN A.fsum) [Expr.wa]
      let e ← assignRule e (.sym (Expr.mulH.call [star Expr.wa])) (.opN A.prod) [Expr.wa]
      let e ← assignRule e (.sym (Expr.pow Expr.wa Expr.wb)) (.op2 (arity2 A.pow)) [Expr.wa, Expr.wb]
      let e ← assignRule e (.sym (Expr.sinH.call [Expr.wa])) (.op1 (arity1 A.sin)) [Expr.wa]
      assignRule e (.sym (Expr.cosH.call [Expr.wa])) (.op1 (arity1 A.cos)) [Expr.wa]) := rfl
  rw [e]
  refine Computes.bind (computes_rule hR.star _ evDAt_new (P := .atomValue _ _) ⟨rfl, hR.a⟩
    (.cons hR.a .nil)) ?_
  intro v1 d1 E1 p1 h1
  replace hR := hR.mono p1
  refine Computes.bind (computes_ruleN hl hR h1 hR.consts.add _) ?_
  intro v2 d2 E2 p2 h2
  replace hR := hR.mono p2
  refine Computes.bind (computes_ruleN hl hR h2 hR.consts.mul _) ?_
  intro v3 d3 E3 p3 h3
  replace hR := hR.mono p3
  refine Computes.bind (computes_rulePow hl hR h3 _) ?_
  intro v4 d4 E4 p4 h4
  replace hR := hR.mono p4
  refine Computes.bind (computes_rule1 hl hR h4 hR.consts.sin _) ?_
  intro v5 d5 E5 p5 h5
  replace hR := hR.mono p5
  exact computes_rule1 hl hR h5 hR.consts.cos _

theorem computes_makeRepr (hR : RuleEnv vals st a b c) :
    Computes vals (Prog.makeRepr lit c st a b) (fun v => EvDAt v V) (.ok Verif.evalRepr) := by
  have e : (.ok Verif.evalRepr : PyM (Evaluator PyM Val String)) = (do
      let e ← assignRule Evaluator.new (.headRule Expr.wa Expr.wb) (.headOp reprCall) [Expr.wa, Expr.wb]
      let e ← assignRule e (.atomRule Expr.wa) (.atomFunc treeStr) [Expr.wa]
      let e ← assignRule e (.atomValue Ty.integer Expr.wa) (.func1 (fun v => .ok (valStr v))) [Expr.wa]
      let e ← assignRule e (.atomValue Ty.symbol Expr.wa) (.func1 (fun v => .ok (valStr v))) [Expr.wa]
      let e ← assignRule e (.atomValue Ty.function Expr.wa) (.func1 (fun v => .ok (valStr v))) [Expr.wa]
      let e ← assignRule e (.sym (Expr.addH.call [star Expr.wa]))
        (.opN (fun args => .ok ("(" ++ String.intercalate " + " args ++ ")"))) [Expr.wa]
      let e ← assignRule e (.sym (Expr.mulH.call [star Expr.wa]))
        (.opN (fun args => .ok ("(" ++ String.intercalate "*" args ++ ")"))) [Expr.wa]
      assignRule e (.sym (Expr.pow Expr.wa Expr.wb))
        (.op2 (arity2 (fun b e => .ok (b ++ "**" ++ e)))) [Expr.wa, Expr.wb]) := rfl
  rw [e]
  refine Computes.bind (computes_rule hR.star _ evDAt_new (P := .headRule _ _) ⟨hR.a, hR.b⟩
    (.cons hR.a (.cons hR.b .nil))) ?_
  intro v1 d1 E1 p1 h1
  replace hR := hR.mono p1
  refine Computes.bind (computes_rule hR.star _ h1 (P := .atomRule _) hR.a (.cons hR.a .nil)) ?_
  intro v2 d2 E2 p2 h2
  replace hR := hR.mono p2
  refine Computes.bind (computes_rule hR.star _ h2 (P := .atomValue _ _) ⟨rfl, hR.a⟩
    (.cons hR.a .nil)) ?_
  intro v3 d3 E3 p3 h3
  replace hR := hR.mono p3
  refine Computes.bind (computes_rule hR.star _ h3 (P := .atomValue _ _) ⟨rfl, hR.a⟩
    (.cons hR.a .nil)) ?_
  intro v4 d4 E4 p4 h4
  replace hR := hR.mono p4
  refine Computes.bind (computes_rule hR.star _ h4 (P := .atomValue _ _) ⟨rfl, hR.a⟩
    (.cons hR.a .nil)) ?_
  intro v5 d5 E5 p5 h5
  replace hR := hR.mono p5
  refine Computes.bind (computes_ruleN hl hR h5 hR.consts.add _) ?_
  intro v6 d6 E6 p6 h6
  replace hR := hR.mono p6
  refine Computes.bind (computes_ruleN hl hR h6 hR.consts.mul _) ?_
  intro v7 d7 E7 p7 h7
  exact computes_rulePow hl (hR.mono p7) h7 _

theorem computes_makeLatex (hR : RuleEnv vals st a b c) :
    Computes vals (Prog.makeLatex lit c st a b) (fun v => EvDAt v V) (.ok Verif.evalLatex) := by
  have e : (.ok Verif.evalLatex : PyM (Evaluator PyM Val String)) = (do
      let e ← assignRule Evaluator.new (.headRule Expr.wa Expr.wb) (.headOp reprCall) [Expr.wa, Expr.wb]
      let e ← assignRule e (.atomValue Ty.integer Expr.wa) (.func1 (fun v => .ok (valStr v))) [Expr.wa]
      let e ← assignRule e (.atomValue Ty.symbol Expr.wa) (.func1 (fun v => .ok (valStr v))) [Expr.wa]
      let e ← assignRule e (.atomValue Ty.function Expr.wa) (.func1 (fun v => .ok (valStr v))) [Expr.wa]
      let e ← assignRule e (.sym (Expr.addH.call [star Expr.wa]))
        (.opN (fun args => .ok ("(" ++ String.intercalate " + " args ++ ")"))) [Expr.wa]
      let e ← assignRule e (.sym (Expr.mulH.call [star Expr.wa]))
        (.opN (fun args => .ok ("(" ++ String.intercalate " \\times " args ++ ")"))) [Expr.wa]
      let e ← assignRule e (.sym (Expr.pow Expr.wa Expr.wb))
        (.op2 (arity2 (fun b e => .ok (b ++ "^{" ++ e ++ "}")))) [Expr.wa, Expr.wb]
      let e ← assignRule e (.sym (Expr.sinH.call [Expr.wa]))
        (.op1 (arity1 (fun a => .ok ("\\sin(" ++ a ++ ")")))) [Expr.wa]
      assignRule e (.sym (Expr.cosH.call [Expr.wa]))
        (.op1 (arity1 (fun a => .ok ("\\cos(" ++ a ++ ")")))) [Expr.wa]) := rfl
  rw [e]
  refine Computes.bind (computes_rule hR.star _ evDAt_new (P := .headRule _ _) ⟨hR.a, hR.b⟩
    (.cons hR.a (.cons hR.b .nil))) ?_
  intro v2 d2 E2 p2 h2
  replace hR := hR.mono p2
  refine Computes.bind (computes_rule hR.star _ h2 (P := .atomValue _ _) ⟨rfl, hR.a⟩
    (.cons hR.a .nil)) ?_
  intro v3 d3 E3 p3 h3
  replace hR := hR.mono p3
  refine Computes.bind (computes_rule hR.star _ h3 (P := .atomValue _ _) ⟨rfl, hR.a⟩
    (.cons hR.a .nil)) ?_
  intro v4 d4 E4 p4 h4
  replace hR := hR.mono p4
  refine Computes.bind (computes_rule hR.star _ h4 (P := .atomValue _ _) ⟨rfl, hR.a⟩
    (.cons hR.a .nil)) ?_
  intro v5 d5 E5 p5 h5
  replace hR := hR.mono p5
  refine Computes.bind (computes_ruleN hl hR h5 hR.consts.add _) ?_
  intro v6 d6 E6 p6 h6
  replace hR := hR.mono p6
  refine Computes.bind (computes_ruleN hl hR h6 hR.consts.mul _) ?_
  intro v7 d7 E7 p7 h7
  replace hR := hR.mono p7
  refine Computes.bind (computes_rulePow hl hR h7 _) ?_
  intro v8 d8 E8 p8 h8
  replace hR := hR.mono p8
  refine Computes.bind (computes_rule1 hl hR h8 hR.consts.sin _) ?_
  intro v9 d9 E9 p9 h9
  replace hR := hR.mono p9
  exact computes_rule1 hl hR h9 hR.consts.cos _

omit hl in
theorem computes_makeCountOps (hR : RuleEnv vals st a b c) :
    Computes vals (Prog.makeCountOps st a b : Prog V Val (Prog.EvalD Nat)) (fun v => EvDAt v V)
      (.ok (evaluatorOf countOpsRules)) := by
  have e : (.ok (evaluatorOf countOpsRules) : PyM (Evaluator PyM Val Nat)) = (do
      let e ← assignRule Evaluator.new (.atomRule Expr.wa) (.atomFunc (fun _ => .ok 1)) [Expr.wa]
      assignRule e (.headRule Expr.wa Expr.wb) (.headOp (fun _ counts => .ok (1 + counts.sum)))
        [Expr.wa, Expr.wb]) := rfl
  rw [e]
  refine Computes.bind (computes_rule hR.star _ evDAt_new (P := .atomRule _) hR.a (.cons hR.a .nil)) ?_
  intro v2 d2 E2 p2 h2
  replace hR := hR.mono p2
  exact computes_rule hR.star _ h2 (P := .headRule _ _) ⟨hR.a, hR.b⟩
    (.cons hR.a (.cons hR.b .nil))

theorem computes_makeToSympy (L : SymPyLib) (hR : RuleEnv vals st a b c) :
    Computes vals (Prog.makeToSympy lit L c st a b) (fun v => EvDAt v V) (.ok (Verif.evalToSympy L)) := by
  have e : (.ok (Verif.evalToSympy L) : PyM (Evaluator PyM Val SExpr)) = (do
      let e ← assignRule Evaluator.new (.atomValue Ty.integer Expr.wa) (.func1 L.fromInt) [Expr.wa]
      let e ← assignRule e (.atomValue Ty.symbol Expr.wa) (.func1 (fromStr L.symbol)) [Expr.wa]
      let e ← assignRule e (.atomValue Ty.function Expr.wa) (.func1 (fromStr L.function)) [Expr.wa]
      let e ← assignRule e (.sym (Expr.addH.call [star Expr.wa])) (.opN L.add) [Expr.wa]
      let e ← assignRule e (.sym (Expr.mulH.call [star Expr.wa])) (.opN L.mul) [Expr.wa]
      let e ← assignRule e (.sym (Expr.pow Expr.wa Expr.wb)) (.op2 (arity2 L.pow)) [Expr.wa, Expr.wb]
      let e ← assignRule e (.sym (Expr.sinH.call [Expr.wa])) (.op1 (arity1 L.sin)) [Expr.wa]
      let e ← assignRule e (.sym (Expr.cosH.call [Expr.wa])) (.op1 (arity1 L.cos)) [Expr.wa]
      let e ← assignRule e (.sym (Expr.listH.call [star Expr.wa])) (.opN L.tuple) [Expr.wa]
      assignRule e (.headRule Expr.wa Expr.wb) (.headOp L.undefCall) [Expr.wa, Expr.wb]) := rfl
  rw [e]
  refine Computes.bind (computes_rule hR.star _ evDAt_new (P := .atomValue _ _) ⟨rfl, hR.a⟩
    (.cons hR.a .nil)) ?_
  intro v1 d1 E1 p1 h1
  replace hR := hR.mono p1
  refine Computes.bind (computes_rule hR.star _ h1 (P := .atomValue _ _) ⟨rfl, hR.a⟩
    (.cons hR.a .nil)) ?_
  intro v2 d2 E2 p2 h2
  replace hR := hR.mono p2
  refine Computes.bind (computes_rule hR.star _ h2 (P := .atomValue _ _) ⟨rfl, hR.a⟩
    (.cons hR.a .nil)) ?_
  intro v3 d3 E3 p3 h3
  replace hR := hR.mono p3
  refine Computes.bind (computes_ruleN hl hR h3 hR.consts.add _) ?_
  intro v4 d4 E4 p4 h4
  replace hR := hR.mono p4
  refine Computes.bind (computes_ruleN hl hR h4 hR.consts.mul _) ?_
  intro v5 d5 E5 p5 h5
  replace hR := hR.mono p5
  refine Computes.bind (computes_rulePow hl hR h5 _) ?_
  intro v6 d6 E6 p6 h6
  replace hR := hR.mono p6
  refine Computes.bind (computes_rule1 hl hR h6 hR.consts.sin _) ?_
  intro v7 d7 E7 p7 h7
  replace hR := hR.mono p7
  refine Computes.bind (computes_rule1 hl hR h7 hR.consts.cos _) ?_
  intro v8 d8 E8 p8 h8
  replace hR := hR.mono p8
  refine Computes.bind (computes_ruleN hl hR h8 hR.consts.list _) ?_
  intro v9 d9 E9 p9 h9
  replace hR := hR.mono p9
  exact computes_rule hR.star _ h9 (P := .headRule _ _) ⟨hR.a, hR.b⟩ (.cons hR.a (.cons hR.b .nil))

/-- The module after its import. -/
structure FullAt {F : Type} (vals : List (Ex Val)) (V : Type) [PyVal V Val] (A : Libs F)
    (m : Prog.FullH F) : Prop where
  star : At vals m.star Expr.starH
  base : SimplecasAt vals m.base
  f64 : EvDAt vals V m.f64 (Verif.evalF64 A.floats)
  repr : EvDAt vals V m.repr Verif.evalRepr
  latex : EvDAt vals V m.latex Verif.evalLatex
  countOps : EvDAt vals V m.countOps (evaluatorOf countOpsRules)
  sympy : EvDAt vals V m.sympy (Verif.evalToSympy A.sympy)

omit hl in
theorem FullAt.mono {F : Type} {A : Libs F} {m : Prog.FullH F} (h : FullAt vals V A m)
    (hp : vals <+: vals') : FullAt vals' V A m :=
  ⟨h.star.mono hp, ⟨constsAt_mono h.base.consts hp, h.base.diff.mono hp⟩, h.f64.mono hp,
    h.repr.mono hp, h.latex.mono hp, h.countOps.mono hp, h.sympy.mono hp⟩

theorem computes_importFull {F : Type} (A : Libs F) :
    Computes vals (Prog.importFull lit A) (fun v m _ => FullAt v V A m) (.ok ()) := by
  refine Computes.bindOk (computes_makeStar hl) ?_
  intro v1 st p1 hst
  refine Computes.bindOk (computes_import hl) ?_
  intro v2 m p2 hm
  refine Computes.bindOk (computes_newLit hl Ty.wild (.str "a")) ?_
  intro v3 a p3 ha
  refine Computes.bindOk (computes_newLit hl Ty.wild (.str "b")) ?_
  intro v4 b p4 hb
  have hR : RuleEnv v4 st a b m.consts := ⟨hst.mono (p2.trans (p3.trans p4)),
    constsAt_mono hm.consts (p3.trans p4), ha.mono p4, hb⟩
  refine Computes.bindOk (computes_makeCountOps hR) ?_
  intro v5 n p5 hn
  refine Computes.bindOk (computes_makeF64 hl A.floats (hR.mono p5)) ?_
  intro v6 f p6 hf
  refine Computes.bindOk (computes_makeRepr hl (hR.mono (p5.trans p6))) ?_
  intro v7 r p7 hr
  refine Computes.bindOk (computes_makeLatex hl (hR.mono (p5.trans (p6.trans p7)))) ?_
  intro v8 l p8 hll
  refine Computes.bindOk (computes_makeToSympy hl A.sympy (hR.mono (p5.trans (p6.trans (p7.trans p8))))) ?_
  intro v9 y p9 hy
  have q := p5.trans (p6.trans (p7.trans (p8.trans p9)))
  have q' := p3.trans (p4.trans q)
  exact .pure ⟨hR.star.mono q, ⟨constsAt_mono hm.consts q', hm.diff.mono q'⟩,
    hf.mono (p7.trans (p8.trans p9)), hr.mono (p8.trans p9), hll.mono p9,
    hn.mono (p6.trans (p7.trans (p8.trans p9))), hy⟩

end Verif.Store
