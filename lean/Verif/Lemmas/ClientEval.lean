import Verif.Spec.ClientEval
import Verif.Lemmas.ClientDiff
import Verif.Props.Topo

/-!
# Evaluators on objects
-/

set_option linter.unusedSectionVars false

namespace Verif.Store
open List (Forall₂)
variable {V K T A : Type} [DecidableEq K] [PyVal V K] {vals vals' : List (Ex K)}

theorem OpAt.mono {rel : List (Ex K) → T → A → Prop} {f : List T → Prog V K T} {F : OpFunc PyM A}
    (h : OpAt vals rel f F) (hp : vals <+: vals') : OpAt vals' rel f F := by
  cases F with
  | star F => exact fun v as xs hv => h v as xs (hp.trans hv)
  | seq F => exact fun v as xs hv => h v as xs (hp.trans hv)

theorem MapAt.mono {W : Type u} {X : Type} {rel rel' : W → X → Prop} {d : List (Nat × W)}
    {D : Dict (Tree K) X} (h : MapAt vals rel d D) (hp : vals <+: vals')
    (hr : ∀ w x, rel w x → rel' w x) : MapAt vals' rel' d D := by
  obtain ⟨l, h1, h2⟩ := h
  exact ⟨l, h1.imp (fun _ _ h => ⟨h.1.mono hp, hr _ _ h.2⟩), h2⟩

theorem MapAt.empty {W : Type u} {X : Type} {rel : W → X → Prop} :
    MapAt vals rel [] (Dict.empty : Dict (Tree K) X) := ⟨[], .nil, fun _ => rfl⟩

theorem MapAt.set {W : Type u} {X : Type} {rel : W → X → Prop} {d : List (Nat × W)}
    {D : Dict (Tree K) X} (h : MapAt vals rel d D) {n : Nat} {t : Tree K} (ht : At vals n t) {w : W}
    {x : X} (hw : rel w x) : MapAt vals rel ((n, w) :: d) (D.set t x) := by
  obtain ⟨l, h1, h2⟩ := h
  refine ⟨(t, x) :: l, .cons ⟨ht, hw⟩ h1, fun u => ?_⟩
  rw [Dict.get?_set]
  simp only [Dict.lookup, h2]

theorem MapAt.update {W X : Type} {rel : W → X → Prop} : ∀ (ps : List (Nat × W))
    (qs : List (Tree K × X)) {d : List (Nat × W)} {D : Dict (Tree K) X}, MapAt vals rel d D →
    Forall₂ (fun p q => At vals p.1 q.1 ∧ rel p.2 q.2) ps qs →
    MapAt vals rel (ps.reverse ++ d) (D.update qs) := by
  intro ps
  induction ps with
  | nil => intro qs d D h ha; cases ha; exact h
  | cons p ps ih =>
    intro qs d D h ha
    cases ha with
    | @cons _ q _ qs h1 h2 =>
      have := ih qs (h.set h1.1 h1.2) h2
      simpa [Dict.update] using this

theorem EvalAt.mono {rel : List (Ex K) → T → A → Prop} {ev : Prog.EvalH V K T}
    {Ev : Evaluator PyM K A} (h : EvalAt vals rel ev Ev) (hp : vals <+: vals') :
    EvalAt vals' rel ev Ev := by
  refine ⟨?_, h.operations.mono hp (fun _ _ h => h.mono hp),
    fun v n t as xs hv => h.genericOp v n t as xs (hp.trans hv),
    fun v n a hv => h.genericAtom v n a (hp.trans hv)⟩
  intro ty
  have := h.atoms ty
  revert this
  cases Prog.atomRule ty ev.atoms <;> cases Ev.atoms.get? ty <;> simp only [imp_self]
  exact fun h v k hv => h v k (hp.trans hv)

/-! ### Building evaluators -/

theorem evalAt_new {rel : List (Ex K) → T → A → Prop} :
    EvalAt vals rel (Prog.evalNew : Prog.EvalH V K T) (Evaluator.new : Evaluator PyM K A) :=
  ⟨fun _ => trivial, .empty, fun _ _ _ _ _ _ _ _ => .raise, fun _ _ _ _ _ => .raise⟩

theorem EvalAt.addAtom {rel : List (Ex K) → T → A → Prop} {ev : Prog.EvalH V K T}
    {Ev : Evaluator PyM K A} (h : EvalAt vals rel ev Ev) (ty : AtomType) {f : K → Prog V K T}
    {F : K → PyM A} (hf : ∀ v k, vals <+: v → Computes v (f k) rel (F k)) :
    EvalAt vals rel (ev.addAtom ty f) (Ev.addAtom ty F) := by
  refine ⟨fun ty' => ?_, h.operations, h.genericOp, h.genericAtom⟩
  simp only [Prog.EvalH.addAtom, Evaluator.addAtom, Prog.atomRule, Dict.get?_set]
  by_cases ht : ty = ty'
  · simp only [ht, if_true]; exact hf
  · simp only [ht, if_false]; exact h.atoms ty'

theorem EvalAt.addAtomGeneric {rel : List (Ex K) → T → A → Prop} {ev : Prog.EvalH V K T}
    {Ev : Evaluator PyM K A} (h : EvalAt vals rel ev Ev) {f : Nat → Prog V K T} {F : Tree K → PyM A}
    (hf : ∀ v n a, vals <+: v → At v n (.atom a) → Computes v (f n) rel (F (.atom a))) :
    EvalAt vals rel (ev.addAtomGeneric f) (Ev.addAtomGeneric F) :=
  ⟨h.atoms, h.operations, h.genericOp, hf⟩

theorem EvalAt.addOpGeneric {rel : List (Ex K) → T → A → Prop} {ev : Prog.EvalH V K T}
    {Ev : Evaluator PyM K A} (h : EvalAt vals rel ev Ev) {f : Nat → List T → Prog V K T}
    {F : Tree K → List A → PyM A}
    (hf : ∀ v n t as xs, vals <+: v → At v n t → Forall₂ (rel v) as xs →
      Computes v (f n as) rel (F t xs)) :
    EvalAt vals rel (ev.addOpGeneric f) (Ev.addOpGeneric F) :=
  ⟨h.atoms, h.operations, hf, h.genericAtom⟩

theorem EvalAt.addOpN {rel : List (Ex K) → T → A → Prop} {ev : Prog.EvalH V K T}
    {Ev : Evaluator PyM K A} (h : EvalAt vals rel ev Ev) {n : Nat} {t : Tree K} (ht : At vals n t)
    {f : List T → Prog V K T} {F : List A → PyM A} (hf : OpAt vals rel f (.seq F)) :
    EvalAt vals rel (ev.addOp n f) (Ev.addOpN t F) :=
  ⟨h.atoms, h.operations.set ht hf, h.genericOp, h.genericAtom⟩

/-! ### Evaluation -/

theorem computes_atomParts {n : Nat} {a : Atom K} (ha : vals[n]? = some (.atom a)) :
    Computes vals (Prog.atomParts n : Prog V K (AtomType × K)) (fun _ p b => p = (b.atomType, b.value))
      (.ok a) := by
  refine Computes.step (vals' := vals ++ []) (p' := .ret (a.atomType, a.value)) ?_
    (List.prefix_append _ _) (.ret rfl)
  simp only [valueStep, Prog.atomParts, ha, Option.map_some, Ex.parts, Ex.view]

theorem computes_atomValue {h : Nat} {a : Atom K} (ha : At vals h (.atom a)) :
    Computes vals (Prog.atomValue h : Prog V K (AtomType × K)) (fun _ p b => p = (b.atomType, b.value))
      (.ok a) := by
  unfold At at ha
  refine Computes.step (vals' := vals ++ [.atom a])
    (p' := Prog.atomParts vals.length) ?_ (List.prefix_append _ _) (computes_atomParts (by simp))
  simp only [valueStep, Prog.atomValue, ha, Option.map_some, Ex.parts, Ex.view]

theorem computes_atomValue_node {h : Nat} {ts : List (Tree K)} {rel : List (Ex K) → AtomType × K → A → Prop}
    (ha : At vals h (.node ts)) :
    Computes vals (Prog.atomValue h : Prog V K (AtomType × K)) rel (.error .attributeError) := by
  unfold At at ha
  refine Computes.step (vals' := vals ++ ts.map .tree) (p' := _) ?_ (List.prefix_append _ _) .raise
  simp only [valueStep, Prog.atomValue, ha, Option.map_some, Ex.parts, Ex.view]

theorem computes_evalAtom {rel : List (Ex K) → T → A → Prop} {ev : Prog.EvalH V K T}
    {Ev : Evaluator PyM K A} {h : Nat} {t : Tree K} (hE : EvalAt vals rel ev Ev) (ha : At vals h t) :
    Computes vals (ev.evalAtom h) rel (Ev.evalAtom t) := by
  unfold Evaluator.evalAtom
  cases t with
  | node ts =>
    have := Computes.bind (F := fun x : A => Except.ok x) (computes_atomValue_node (V := V) (A := A)
      (rel := fun _ _ _ => False) ha) (f := fun p =>
        match Prog.atomRule p.1 ev.atoms with
        | none => ev.genericAtom h
        | some func => func p.2) (rel' := rel) (fun _ _ _ _ h => h.elim)
    exact this
  | atom a =>
    refine Computes.bindOk (computes_atomValue ha) ?_
    rintro v _ hp rfl
    simp only [Tree.value]
    have := hE.atoms a.atomType
    revert this
    cases h1 : Prog.atomRule a.atomType ev.atoms <;> cases h2 : Ev.atoms.get? a.atomType <;>
      simp only [false_imp_iff]
    · exact fun _ => hE.genericAtom v h a hp (ha.mono hp)
    · exact fun hf => hf v a.value hp

theorem computes_evalOperation {rel : List (Ex K) → T → A → Prop} {ev : Prog.EvalH V K T}
    {Ev : Evaluator PyM K A} {h : Nat} {t : Tree K} {as : List T} {xs : List A}
    (hE : EvalAt vals rel ev Ev) (ha : At vals h t) (has : Forall₂ (rel vals) as xs) :
    Computes vals (ev.evalOperation h as) rel (Ev.evalOperation t xs) := by
  unfold Prog.EvalH.evalOperation Evaluator.evalOperation
  have hg := hE.genericOp vals h t as xs (List.prefix_refl _) ha has
  obtain ⟨l, h1, h2⟩ := hE.operations
  rw [← h2]
  clear h2 hE
  generalize ev.operations = d at h1
  induction h1 with
  | nil => exact hg
  | @cons p q d l hpq _ ih =>
    obtain ⟨n, f⟩ := p
    obtain ⟨u, F⟩ := q
    obtain ⟨hn, hf⟩ := hpq
    unfold Prog.opRule
    refine computes_same hn ha ?_
    simp only [Dict.lookup]
    by_cases hu : u = t
    · simp only [hu, decide_true, if_true]
      cases F with
      | star F => exact hf vals as xs (List.prefix_refl _) has
      | seq F => exact hf vals as xs (List.prefix_refl _) has
    · simp only [hu, decide_false, Bool.false_eq_true, if_false]; exact ih

theorem computes_lookup {rel : List (Ex K) → T → A → Prop} {d : List (Nat × T)} {D : Dict (Tree K) A}
    {h : Nat} {t : Tree K} (hd : MapAt vals (rel vals) d D) (ht : At vals h t) :
    Computes vals (Prog.lookup h d : Prog V K (Option T))
      (fun v a b => match a, b with | none, none => True | some a, some b => rel v a b | _, _ => False)
      (.ok (D.get? t)) := by
  obtain ⟨l, h1, h2⟩ := hd
  rw [← h2]
  clear h2
  induction h1 with
  | nil => exact .ret trivial
  | @cons p q d l hpq _ ih =>
    obtain ⟨n, w⟩ := p
    obtain ⟨u, w'⟩ := q
    obtain ⟨hn, hw⟩ := hpq
    unfold Prog.lookup
    refine computes_same hn ht ?_
    simp only [Dict.lookup]
    by_cases hu : u = t
    · simp only [hu, decide_true, if_true]; exact .ret hw
    · simp only [hu, decide_false, Bool.false_eq_true, if_false]; exact ih

variable [HasNone T] [HasNone A]

theorem computes_evalLeaf {rel : List (Ex K) → T → A → Prop} {ev : Prog.EvalH V K T}
    {Ev : Evaluator PyM K A} {h : Nat} {t : Tree K} {d : List (Nat × T)} {D : Dict (Tree K) A}
    (mono : Stable rel)
    (none : SameNone rel)
    (hE : EvalAt vals rel ev Ev) (hd : MapAt vals (rel vals) d D) (ha : At vals h t) :
    Computes vals (ev.evalLeaf d h) rel (Ev.evalLeaf D t) := by
  unfold Prog.EvalH.evalLeaf Evaluator.evalLeaf
  refine Computes.bindOk (computes_lookup hd ha) ?_
  intro v w hp hw
  have hat := computes_evalAtom (hE.mono hp) (ha.mono hp)
  cases w with
  | none =>
    cases hg : D.get? t with
    | none => exact hat
    | some b => rw [hg] at hw; exact hw.elim
  | some w =>
    cases hg : D.get? t with
    | none => rw [hg] at hw; exact hw.elim
    | some b =>
      rw [hg] at hw
      simp only [none _ _ _ hw]
      split
      · exact hat
      · exact .ret hw

theorem computes_evalAtomsLoop {rel : List (Ex K) → T → A → Prop} {ev : Prog.EvalH V K T}
    {Ev : Evaluator PyM K A} {d : List (Nat × T)} {D : Dict (Tree K) A}
    (mono : Stable rel)
    (none : SameNone rel) :
    ∀ (hs : List Nat) (ts : List (Tree K)) (st : List T) (St : List A) (vals : List (Ex K)),
    EvalAt vals rel ev Ev → MapAt vals (rel vals) d D → Ats vals hs ts → Forall₂ (rel vals) st St →
    Computes vals (ev.evalAtomsLoop d st hs) (fun v => Forall₂ (rel v)) (Ev.evalAtomsLoop D St ts) := by
  intro hs
  induction hs with
  | nil => intro ts st St vals hE hd ha hst; cases ha; exact .ret hst
  | cons n hs ih =>
    intro ts st St vals hE hd ha hst
    cases ha with
    | @cons _ t _ ts h1 h2 =>
      refine Computes.bind (computes_evalLeaf mono none hE hd h1) ?_
      intro v a b hp hab
      exact ih ts _ _ v (hE.mono hp) (hd.mono hp (fun _ _ h => mono _ _ _ _ h hp)) (Ats.mono h2 hp)
        (List.rel_append (hst.imp (fun _ _ h => mono _ _ _ _ h hp)) (.cons hab .nil))

theorem computes_args {rel : List (Ex K) → T → A → Prop}
    (mono : Stable rel) {st : List T}
    {St : List A} (hst : Forall₂ (rel vals) st St) (is : List Nat) :
    Computes vals (Prog.each (fun i => Prog.ofPy (pyGet st i)) is : Prog V K (List T))
      (fun v => Forall₂ (rel v)) (is.mapM (fun i => pyGet St i)) := by
  refine computes_each (vals := vals) (relI := fun _ a b => a = b) (relO := rel) (fun h _ => h) (fun h hp => mono _ _ _ _ h hp) ?_
    vals is is (List.prefix_refl _) (List.forall₂_refl _)
  rintro v i _ hp rfl
  exact Computes.ofPy (pyGet_rel (hst.imp (fun _ _ h => mono _ _ _ _ h hp)) i)

theorem liftPy_id {α : Type} (r : PyM α) : (liftPy r : PyM α) = r := by cases r <;> rfl

theorem computes_evalOpsLoop {rel : List (Ex K) → T → A → Prop} {ev : Prog.EvalH V K T}
    {Ev : Evaluator PyM K A}
    (mono : Stable rel) :
    ∀ (ops : List (Nat × List Nat)) (Ops : List (Tree K × List Nat)) (st : List T) (St : List A)
    (vals : List (Ex K)), EvalAt vals rel ev Ev → OpsAt vals ops Ops → Forall₂ (rel vals) st St →
    Computes vals (ev.evalOpsLoop st ops) (fun v => Forall₂ (rel v)) (Ev.evalOpsLoop St Ops) := by
  intro ops
  induction ops with
  | nil => intro Ops st St vals hE ho hst; cases ho; exact .ret hst
  | cons op ops ih =>
    intro Ops st St vals hE ho hst
    cases ho with
    | @cons _ Op _ Ops h1 h2 =>
      obtain ⟨func, is⟩ := op
      obtain ⟨Func, is'⟩ := Op
      obtain ⟨g1, g2⟩ := h1
      simp only at g1 g2
      subst g2
      unfold Prog.EvalH.evalOpsLoop Evaluator.evalOpsLoop
      rw [liftPy_id]
      refine Computes.bind (computes_args mono hst is) ?_
      intro v1 as xs hp1 has
      refine Computes.bind (computes_evalOperation (hE.mono hp1) (g1.mono hp1) has) ?_
      intro v2 a x hp2 hax
      have hq := hp1.trans hp2
      exact ih Ops _ _ v2 (hE.mono hq) (OpsAt.mono h2 hq)
        (List.rel_append (hst.imp (fun _ _ h => mono _ _ _ _ h hq)) (.cons hax .nil))

theorem computes_evalCall {rel : List (Ex K) → T → A → Prop} {ev : Prog.EvalH V K T}
    {Ev : Evaluator PyM K A} {e : Nat} {E : Tree K} {d : List (Nat × T)} {D : Dict (Tree K) A}
    (mono : Stable rel)
    (none : SameNone rel)
    (hE : EvalAt vals rel ev Ev) (hd : MapAt vals (rel vals) d D) (he : At vals e E) :
    Computes vals (ev.call e d) rel (Ev.evalForward E D) := by
  unfold Prog.EvalH.call Evaluator.evalForward
  rw [liftPy_id]
  refine Computes.bind (computes_graph he) ?_
  intro v g G hp hg
  refine Computes.bind (computes_evalAtomsLoop mono none _ _ _ _ v (hE.mono hp)
    (hd.mono hp (fun _ _ h => mono _ _ _ _ h hp)) hg.atoms .nil) ?_
  intro v1 st St hp1 hst
  have hq := hp.trans hp1
  refine Computes.bind (computes_evalOpsLoop mono _ _ _ _ v1 (hE.mono hq) (hg.operations.mono hp1)
    hst) ?_
  intro v2 st2 St2 hp2 hst2
  rw [liftPy_id]
  exact Computes.ofPy (pyLast_rel hst2)

end Verif.Store
