import Verif.Lemmas.ClientRules

/-!
# Matrices and generated code on objects
-/

set_option linter.unusedSectionVars false

namespace Verif.Store
open List (Forall₂)
variable {V : Type} [PyVal V Val] {vals vals' : List (Ex Val)} {lit : Val → V}

/-! ### Lists -/

theorem pySet_rel {α β : Type} {R : α → β → Prop} {l : List α} {m : List β} (h : Forall₂ R l m)
    (n : Nat) {a : α} {b : β} (hab : R a b) : Agree (Forall₂ R) (pySet l n a) (pySet m n b) := by
  unfold pySet
  rw [h.length_eq]
  split
  · show Forall₂ R (l.set n a) (m.set n b)
    clear * - h hab
    induction h generalizing n with
    | nil => exact .nil
    | cons h1 h2 ih =>
      cases n with
      | zero => exact .cons hab h2
      | succ n => exact .cons h1 (ih n)
  · rfl

theorem Agree.bind {α β A B : Type} {R : α → A → Prop} {S : β → B → Prop} {x : PyM α} {X : PyM A}
    {f : α → PyM β} {F : A → PyM B} (h : Agree R x X) (hf : ∀ a b, R a b → Agree S (f a) (F b)) :
    Agree S (x >>= f) (X >>= F) := by
  cases x <;> cases X
  · exact h
  · exact h.elim
  · exact h.elim
  · exact hf _ _ h

theorem exprAts_mono {es : List Nat} {Es : List Expr} (h : Forall₂ (ExprAt vals) es Es)
    (hp : vals <+: vals') : Forall₂ (ExprAt vals') es Es := h.imp (fun _ _ h => h.mono hp)

/-! ### Matrices -/

/-- The matrix of objects is the matrix of expressions. -/
structure MatAt (vals : List (Ex Val)) (m : Prog.MatH) (M : Mat) : Prop where
  nrows : m.nrows = M.nrows
  ncols : m.ncols = M.ncols
  entrymap : m.entrymap = M.entrymap
  elements : Forall₂ (ExprAt vals) m.elements M.elements
  graph : ExprAt vals m.elementsGraph M.elementsGraph

theorem MatAt.mono {m : Prog.MatH} {M : Mat} (h : MatAt vals m M) (hp : vals <+: vals') :
    MatAt vals' m M :=
  ⟨h.nrows, h.ncols, h.entrymap, exprAts_mono h.elements hp, h.graph.mono hp⟩

/-- The state of the loops: the elements and where they are. -/
def LoopAt (vals : List (Ex Val)) (s : List Nat × Dict (Nat × Nat) Nat)
    (S : List Expr × Dict (Nat × Nat) Nat) : Prop := Forall₂ (ExprAt vals) s.1 S.1 ∧ s.2 = S.2

theorem computes_rowLoop {z i : Nat} : ∀ (row : List Nat) (Row : List Expr) (j : Nat)
    (s : List Nat × Dict (Nat × Nat) Nat) (S : List Expr × Dict (Nat × Nat) Nat)
    (vals : List (Ex Val)), ExprAt vals z Expr.zero → Forall₂ (ExprAt vals) row Row → LoopAt vals s S →
    Computes vals (Prog.rowLoop z i j row s : Prog V Val _) LoopAt (.ok (Mat.rowLoop i j Row S)) := by
  intro row
  induction row with
  | nil => intro Row j s S vals hz hr hs; cases hr; exact .ret hs
  | cons e row ih =>
    intro Row j s S vals hz hr hs
    cases hr with
    | @cons _ E _ Row h1 h2 =>
      obtain ⟨es, em⟩ := s
      obtain ⟨Es, Em⟩ := S
      obtain ⟨hs1, hs2⟩ := hs
      simp only at hs1 hs2
      subst hs2
      unfold Prog.rowLoop Mat.rowLoop
      refine computes_sameExpr h1 hz ?_
      by_cases hE : E = Expr.zero
      · simp only [hE, decide_true, if_true, ne_eq, not_true_eq_false, if_false]
        exact ih Row _ _ _ vals hz h2 ⟨hs1, rfl⟩
      · simp only [hE, decide_false, Bool.false_eq_true, if_false, ne_eq, not_false_eq_true, if_true]
        exact ih Row _ _ _ vals hz h2
          ⟨List.rel_append hs1 (.cons h1 .nil), by simp only [hs1.length_eq]⟩

theorem computes_rowsLoop {z : Nat} : ∀ (rows : List (List Nat)) (Rows : List (List Expr)) (i : Nat)
    (s : List Nat × Dict (Nat × Nat) Nat) (S : List Expr × Dict (Nat × Nat) Nat)
    (vals : List (Ex Val)), ExprAt vals z Expr.zero → Forall₂ (Forall₂ (ExprAt vals)) rows Rows →
    LoopAt vals s S →
    Computes vals (Prog.rowsLoop z i rows s : Prog V Val _) LoopAt (.ok (Mat.rowsLoop i Rows S)) := by
  intro rows
  induction rows with
  | nil => intro Rows i s S vals hz hr hs; cases hr; exact .ret hs
  | cons row rows ih =>
    intro Rows i s S vals hz hr hs
    cases hr with
    | @cons _ Row _ Rows h1 h2 =>
      refine Computes.bindOk (computes_rowLoop row Row 0 s S vals hz h1 hs) ?_
      intro v s' p hs'
      exact ih Rows _ _ _ v (hz.mono p) (h2.imp (fun _ _ h => exprAts_mono h p)) hs'

theorem computes_matGet {c : Prog.ConstsH} (hc : ConstsAt vals c) {m : Prog.MatH} {M : Mat}
    (hm : MatAt vals m M) (i j : Int) :
    Computes vals (Prog.matGet c m i j : Prog V Val Nat) ExprAt (M.getItem (.pair i j)) := by
  unfold Prog.matGet Mat.getItem
  simp only [hm.nrows, hm.ncols, hm.entrymap]
  split
  · exact .raise
  · cases M.entrymap.get? (i.toNat, j.toNat) with
    | some n => exact Computes.ofPy (pyGet_rel hm.elements n)
    | none => exact .ret hc.zero

theorem tolistLoop_rel {es : List Nat} {Es : List Expr} (h : Forall₂ (ExprAt vals) es Es) :
    ∀ (items : List ((Nat × Nat) × Nat)) (rows : List (List Nat)) (Rows : List (List Expr)),
    Forall₂ (Forall₂ (ExprAt vals)) rows Rows →
    Agree (Forall₂ (Forall₂ (ExprAt vals))) (Prog.tolistLoop es items rows)
      (Mat.tolistLoop Es items Rows) := by
  intro items
  induction items with
  | nil => intro rows Rows hr; exact hr
  | cons it items ih =>
    obtain ⟨⟨i, j⟩, n⟩ := it
    intro rows Rows hr
    unfold Prog.tolistLoop Mat.tolistLoop
    refine Agree.bind (pyGet_rel h n) ?_
    intro a A ha
    refine Agree.bind (pyGet_rel hr i) ?_
    intro row Row hrow
    refine Agree.bind (pySet_rel hrow j ha) ?_
    intro row' Row' hrow'
    refine Agree.bind (pySet_rel hr i hrow') ?_
    intro rows' Rows' hrows'
    exact ih rows' Rows' hrows'

theorem forall₂_replicate {α β : Type} {R : α → β → Prop} {a : α} {b : β} (h : R a b) (n : Nat) :
    Forall₂ R (List.replicate n a) (List.replicate n b) := by
  induction n with
  | zero => exact .nil
  | succ n ih => exact .cons h ih

theorem computes_matTolist {c : Prog.ConstsH} (hc : ConstsAt vals c) {m : Prog.MatH} {M : Mat}
    (hm : MatAt vals m M) :
    Computes vals (Prog.matTolist c m : Prog V Val (List (List Nat)))
      (fun v => Forall₂ (Forall₂ (ExprAt v))) M.tolist := by
  unfold Prog.matTolist Mat.tolist
  rw [hm.nrows, hm.ncols, hm.entrymap]
  exact Computes.ofPy (tolistLoop_rel hm.elements _ _ _
    (forall₂_replicate (forall₂_replicate hc.zero _) _))

/-! ### Evaluation without values -/

theorem computes_evalPlain {T : Type} [HasNone T] {d : Prog.EvalD T} {Ev : Evaluator PyM Val T}
    (hd : EvDAt vals V d Ev) {e : Nat} {E : Expr} (he : ExprAt vals e E) :
    Computes vals (Prog.evalPlain d e : Prog V Val T) Same (symEvalCall Ev E) :=
  computes_symEval same_stable same_none hd he .nil

theorem computes_evalWith {T : Type} [HasNone T] {d : Prog.EvalD T} {Ev : Evaluator PyM Val T}
    (hd : EvDAt vals V d Ev) {e : Nat} {E : Expr} (he : ExprAt vals e E) {ps : List (Nat × T)}
    {D : Dict Expr T} (hps : Forall₂ (fun p q => ExprAt vals p.1 q.1 ∧ p.2 = q.2) ps D.items) :
    Computes vals (Prog.symEval d.toH e ps : Prog V Val T) Same (symEvalCall Ev E (some D)) :=
  computes_symEval same_stable same_none hd he hps

theorem computes_matRepr {c : Prog.ConstsH} (hc : ConstsAt vals c) {d : Prog.EvalD String}
    (hd : EvDAt vals V d Verif.evalRepr) {m : Prog.MatH} {M : Mat} (hm : MatAt vals m M) :
    Computes vals (Prog.matRepr c d m : Prog V Val String) Same M.repr := by
  unfold Prog.matRepr Mat.repr
  refine Computes.bind (computes_matTolist hc hm) ?_
  intro v1 rows Rows p1 hr
  have h := computes_each (vals := v1) (V := V) (relI := fun v => Forall₂ (ExprAt v)) (relO := Same)
    (f := fun row => do
      let ss ← Prog.each (Prog.evalPlain d) row
      return pyReprList ss)
    (F := fun Row => do
      let ss ← Row.mapM Expr.repr
      return pyReprList ss)
    (fun h hp => exprAts_mono h hp) (fun h _ => h) ?_ v1 rows Rows (List.prefix_refl _) hr
  · refine Computes.bind h ?_
    intro v2 ss Ss p2 hss
    have hss := forall₂_eq hss
    subst hss
    exact .pure rfl
  · intro v row Row p hrow
    refine Computes.bind (computes_each (vals := v) (relI := ExprAt) (relO := Same)
      (F := Expr.repr) (fun h hp => h.mono hp) (fun h _ => h)
      (fun v' a b p' hab => computes_evalPlain (hd.mono (p1.trans (p.trans p'))) hab) v row Row
      (List.prefix_refl _) hrow) ?_
    intro v2 ss Ss p2 hss
    have hss := forall₂_eq hss
    subst hss
    exact .pure rfl

/-! ### LLVM -/

theorem computes_binExpandTree {c : Prog.ConstsH} (hc : ConstsAt vals c) {t : Nat} {E : Expr}
    (ht : At vals t E) :
    Computes vals (Prog.binExpandTree c t : Prog V Val Nat) At (binExpand E) := by
  refine Computes.bindOk (computes_rep hc.add) ?_
  intro v1 a p1 ha
  refine Computes.bindOk (computes_rep (hc.mul.mono p1)) ?_
  intro v2 m p2 hm
  exact computes_evalCall stable_at (fun _ _ _ _ => rfl) (evalAt_binExpander (ha.mono p2) hm) .empty
    (ht.mono (p1.trans p2))

theorem dictAt_pairs {ps : List (Nat × String)} {Ps : List (Expr × String)}
    (h : Forall₂ (fun p q => At vals p.1 q.1 ∧ p.2 = q.2) ps Ps) :
    DictAt vals ps.reverse (Dict.ofPairs Ps) := by
  have := MapAt.update (vals := vals) (rel := fun a b : String => a = b) ps Ps .empty h
  unfold MapAt at this
  simpa [Dict.ofPairs, DictAt] using this

theorem computes_llvmNames {as : List Nat} {As : List Expr} (ha : Ats vals as As) :
    Computes vals (Prog.llvmNames as : Prog V Val (List (Nat × String)))
      (fun v => DictAt v) (llvmArgnames As) := by
  unfold Prog.llvmNames llvmArgnames
  refine Computes.bind (computes_each (vals := vals) (relI := At)
    (relO := fun v (p : Nat × String) (q : Expr × String) => At v p.1 q.1 ∧ p.2 = q.2)
    (F := fun s => do return (s, quoteName (← treeStr s)))
    (fun h hp => h.mono hp) (fun h hp => ⟨h.1.mono hp, h.2⟩) ?_ vals as As (List.prefix_refl _) ha) ?_
  · intro v s S p hs
    refine Computes.bindOk (computes_readTree hs) ?_
    rintro v1 _ p1 rfl
    refine Computes.bind Computes.ofPySame ?_
    rintro v2 n _ p2 rfl
    exact .pure ⟨hs.mono (p1.trans p2), rfl⟩
  · intro v ps Ps p hps
    exact .pure (dictAt_pairs hps)

theorem computes_llvmAtom {as : List Nat} {As : List Expr} (ha : Ats vals as As)
    {names : List (Nat × String)} {Names : Dict Expr String} (hn : DictAt vals names Names) {t : Nat}
    {E : Expr} (ht : At vals t E) :
    Computes vals (Prog.llvmAtom as names t : Prog V Val String) Same (llvmAtom As Names E) := by
  unfold Prog.llvmAtom llvmAtom
  refine Computes.bindOk (computes_mem ht ha) ?_
  rintro v _ p rfl
  by_cases hE : E ∈ As
  · simp only [hE, decide_true, if_true]
    exact computes_getItem (hn.mono p) (ht.mono p)
  · simp only [hE, decide_false, Bool.false_eq_true, if_false]
    cases E with
    | node ts =>
      exact Computes.bind (F := fun x : String => Except.ok x) (A := String)
        (computes_atomValue_node (rel := fun _ _ _ => False) (ht.mono p)) (fun _ _ _ _ h => h.elim)
    | atom a =>
      refine Computes.bindOk (computes_atomValue (ht.mono p)) ?_
      rintro v' _ p' rfl
      simp only
      split
      · exact Computes.ofPySame
      · exact .raise

theorem computes_llvmLine {c : Prog.ConstsH} (hc : ConstsAt vals c) (id : String) {f : Nat} {F : Expr}
    (hf : At vals f F) (args : List String) :
    Computes vals (Prog.llvmLine c id f args : Prog V Val Verif.Instr) Same (llvmLine id F args) := by
  have test : ∀ {v : List (Ex Val)} {h : Nat} {H : Expr} {p q : Prog V Val Verif.Instr}
      {P Q : PyM Verif.Instr}, At v f F → ExprAt v h H →
      (∀ v', v <+: v' → Computes v' p Same P) → (∀ v', v <+: v' → Computes v' q Same Q) →
      Computes v (do
        let r ← Prog.rep h
        if ← Prog.eq f r then p else q : Prog V Val Verif.Instr) Same (if F = H then P else Q) := by
    intro v h H p q P Q hf hh hp hq
    refine Computes.bindOk (computes_rep hh) ?_
    intro v1 r p1 hr
    refine Computes.bindOk (computes_eq (hf.mono p1) hr) ?_
    rintro v2 _ p2 rfl
    by_cases hF : F = H
    · simp only [hF, decide_true, if_true]; exact hp v2 (p1.trans p2)
    · simp only [hF, decide_false, Bool.false_eq_true, if_false]; exact hq v2 (p1.trans p2)
  refine test hf hc.add (fun _ _ => .pure rfl) ?_
  intro v1 p1
  refine test (hf.mono p1) (hc.mul.mono p1) (fun _ _ => .pure rfl) ?_
  intro v2 p2
  have q2 := p1.trans p2
  refine test (hf.mono q2) (hc.pow.mono q2) ?_ ?_
  · intro v p
    refine Computes.bind Computes.ofPySame ?_
    rintro v3 a _ _ rfl
    refine Computes.bind Computes.ofPySame ?_
    rintro v4 b _ _ rfl
    exact .pure rfl
  intro v3 p3
  have q3 := q2.trans p3
  refine test (hf.mono q3) (hc.sin.mono q3) ?_ ?_
  · intro v p
    refine Computes.bind Computes.ofPySame ?_
    rintro v3 a _ _ rfl
    exact .pure rfl
  intro v4 p4
  have q4 := q3.trans p4
  refine test (hf.mono q4) (hc.cos.mono q4) ?_ (fun _ _ => .raise)
  · intro v p
    refine Computes.bind Computes.ofPySame ?_
    rintro v3 a _ _ rfl
    exact .pure rfl

theorem computes_llvmOps {c : Prog.ConstsH} : ∀ (ops : List (Nat × List Nat))
    (Ops : List (Expr × List Nat)) (ids : List String) (is : List Verif.Instr) (vals : List (Ex Val)),
    ConstsAt vals c → OpsAt vals ops Ops →
    Computes vals (Prog.llvmOps c ids is ops : Prog V Val (List String × List Verif.Instr)) Same
      (llvmOpsLoop ids is Ops) := by
  intro ops
  induction ops with
  | nil => intro Ops ids is vals hc ho; cases ho; exact .ret rfl
  | cons op ops ih =>
    intro Ops ids is vals hc ho
    cases ho with
    | @cons _ Op _ Ops h1 h2 =>
      obtain ⟨f, ix⟩ := op
      obtain ⟨F, ix'⟩ := Op
      obtain ⟨g1, g2⟩ := h1
      simp only at g1 g2
      subst g2
      unfold Prog.llvmOps llvmOpsLoop
      refine Computes.bind Computes.ofPySame ?_
      rintro v1 as _ p1 rfl
      refine Computes.bind (computes_llvmLine (constsAt_mono hc p1) _ (g1.mono p1) _) ?_
      rintro v2 l _ p2 rfl
      exact ih Ops _ _ v2 (constsAt_mono hc (p1.trans p2)) (OpsAt.mono h2 (p1.trans p2))

theorem computes_llvmAtoms {as : List Nat} {As : List Expr} (ha : Ats vals as As)
    {names : List (Nat × String)} {Names : Dict Expr String} (hn : DictAt vals names Names)
    {ts : List Nat} {Es : List Expr} (ht : Ats vals ts Es) :
    Computes vals (Prog.each (Prog.llvmAtom as names) ts : Prog V Val (List String)) Same
      (Es.mapM (llvmAtom As Names)) :=
  Computes.weaken (computes_each (vals := vals) (relI := At) (relO := Same) (fun h hp => h.mono hp)
    (fun h _ => h) (fun _ _ _ p hab => computes_llvmAtom (ha.mono p) (hn.mono p) hab) vals ts Es
    (List.prefix_refl _) ht) (fun _ _ _ _ h => forall₂_eq h)

theorem computes_params {as : List Nat} {As : List Expr} (ha : Ats vals as As)
    {names : List (Nat × String)} {Names : Dict Expr String} (hn : DictAt vals names Names) :
    Computes vals (Prog.each (Prog.getItem names) as : Prog V Val (List String)) Same
      (As.mapM Names.getItem) :=
  Computes.weaken (computes_each (vals := vals) (relI := At) (relO := Same) (fun h hp => h.mono hp)
    (fun h _ => h) (fun _ _ _ p hab => computes_getItem (hn.mono p) hab) vals as As
    (List.prefix_refl _) ha) (fun _ _ _ _ h => forall₂_eq h)

theorem computes_toLlvm {c : Prog.ConstsH} (hc : ConstsAt vals c) {as : List Nat} {As : List Expr}
    (ha : Ats vals as As) {t : Nat} {E : Expr} (ht : At vals t E) :
    Computes vals (Prog.toLlvm c as t : Prog V Val IRFunction) Same (toLlvm As E) := by
  unfold Prog.toLlvm toLlvm
  refine Computes.bind (computes_binExpandTree hc ht) ?_
  intro v1 b B p1 hb
  refine Computes.bind (computes_graph hb) ?_
  intro v2 g G p2 hg
  refine Computes.bind (computes_llvmNames (ha.mono (p1.trans p2))) ?_
  intro v3 ns Ns p3 hn
  have q3 := (p1.trans p2).trans p3
  refine Computes.bind (computes_llvmAtoms (ha.mono q3) hn (hg.atoms.mono p3)) ?_
  rintro v4 ids _ p4 rfl
  refine Computes.bind (computes_params (ha.mono (q3.trans p4)) (hn.mono p4)) ?_
  rintro v5 ps _ p5 rfl
  have q := p3.trans (p4.trans p5)
  refine Computes.bind (computes_llvmOps _ _ _ _ v5 (constsAt_mono hc ((p1.trans p2).trans q))
    (hg.operations.mono q)) ?_
  rintro v6 ⟨ids', is⟩ _ p6 rfl
  refine Computes.bind Computes.ofPySame ?_
  rintro v7 l _ p7 rfl
  exact .pure rfl

theorem forall₂_dropLast {α β : Type} {R : α → β → Prop} {l : List α} {m : List β}
    (h : Forall₂ R l m) : Forall₂ R l.dropLast m.dropLast := by
  rw [List.dropLast_eq_take, List.dropLast_eq_take, h.length_eq]
  exact List.forall₂_take _ h

theorem computes_toLlvmMatrix {c : Prog.ConstsH} (hc : ConstsAt vals c) {as : List Nat}
    {As : List Expr} (ha : Ats vals as As) {m : Prog.MatH} {M : Mat} (hm : MatAt vals m M) :
    Computes vals (Prog.toLlvmMatrix c as m : Prog V Val IRFunction) Same (toLlvmMatrix As M) := by
  unfold Prog.toLlvmMatrix toLlvmMatrix
  refine Computes.bindOk (computes_rep hm.graph) ?_
  intro v0 t p0 ht
  replace hc := constsAt_mono hc p0
  replace ha := ha.mono p0
  refine Computes.bind (computes_binExpandTree hc ht) ?_
  intro v1 b B p1 hb
  refine Computes.bind (computes_graph hb) ?_
  intro v2 g G p2 hg
  refine Computes.bind (computes_llvmNames (ha.mono (p1.trans p2))) ?_
  intro v3 ns Ns p3 hn
  have q3 := (p1.trans p2).trans p3
  refine Computes.bind (computes_llvmAtoms (ha.mono q3) hn (hg.atoms.mono p3)) ?_
  rintro v4 ids _ p4 rfl
  refine Computes.bind (computes_params (ha.mono (q3.trans p4)) (hn.mono p4)) ?_
  rintro v5 ps _ p5 rfl
  have q := p3.trans (p4.trans p5)
  refine Computes.bind (computes_llvmOps _ _ _ _ v5 (constsAt_mono hc ((p1.trans p2).trans q))
    (forall₂_dropLast (hg.operations.mono q))) ?_
  rintro v6 ⟨ids', is⟩ _ p6 rfl
  refine Computes.bind (Computes.ofPy (rel := fun v (p : Nat × List Nat) (q : Expr × List Nat) =>
    At v p.1 q.1 ∧ p.2 = q.2) (pyLast_rel (hg.operations.mono (q.trans p6)))) ?_
  rintro v7 ⟨f, ix⟩ ⟨F, _⟩ p7 ⟨_, rfl⟩
  rw [hm.ncols, hm.entrymap]
  refine Computes.bind Computes.ofPySame ?_
  rintro v8 l _ p8 rfl
  exact .pure rfl

/-! ### Matrices that are made -/

variable (hl : ∀ v, PyVal.key (lit v) = v)
include hl

theorem computes_matMk {c : Prog.ConstsH} (hc : ConstsAt vals c) (r k : Nat) {es : List Nat}
    {Es : List Expr} (he : Forall₂ (ExprAt vals) es Es) (em : Dict (Nat × Nat) Nat) :
    Computes vals (Prog.matMk lit c r k es em) MatAt (.ok (Mat.mk' r k Es em)) := by
  have ho : Forall₂ (ObjAt vals) (es.map .expr) (Es.map .expr) := by
    clear * - he
    induction he with
    | nil => exact .nil
    | cons h _ ih => exact .cons h ih
  have hcall : Computes vals (Prog.exprCall lit c.list (es.map .expr)) ExprAt
      (Expr.pyCall Expr.listH (Es.map .expr)) := computes_exprCall hl hc.list ho
  have hx : Expr.pyCall Expr.listH (Es.map .expr) = .ok (Expr.listH.call Es) := by
    have h : (Es.map PyObj.expr).mapM expressify = .ok Es := by
      clear * -
      induction Es with
      | nil => rfl
      | cons e es ih => rw [List.map_cons, List.mapM_cons, ih]; rfl
    unfold Expr.pyCall
    rw [h]; rfl
  rw [hx] at hcall
  refine Computes.bindOk hcall ?_
  intro v g p hg
  exact .pure ⟨rfl, rfl, rfl, exprAts_mono he p, hg⟩

theorem computes_matNew {c : Prog.ConstsH} (hc : ConstsAt vals c) {rows : List (List Prog.ObjH)}
    {Rows : List (List PyObj)} (hr : Forall₂ (Forall₂ (ObjAt vals)) rows Rows) :
    Computes vals (Prog.matNew lit c rows) MatAt (Mat.new (.list (Rows.map .list))) := by
  have hlist : (Rows.map PyRow.list).mapM PyRow.asList = some Rows := by
    clear * -
    induction Rows with
    | nil => rfl
    | cons r rs ih => rw [List.map_cons, List.mapM_cons, ih]; rfl
  unfold Prog.matNew Mat.new
  simp only [hlist]
  refine Computes.bind (Computes.ofPy (rel := fun v => Forall₂ (ObjAt v)) (pyGet_rel hr 0)) ?_
  intro v1 first First p1 hf
  have hall : rows.all (fun row => row.length = first.length) =
      Rows.all (fun row => row.length = First.length) := by
    rw [hf.length_eq]
    clear * - hr
    induction hr with
    | nil => rfl
    | cons h1 _ ih => simp only [List.all_cons, ih, h1.length_eq]
  rw [hall, hr.length_eq, hf.length_eq]
  split
  · exact .raise
  refine Computes.bind (computes_each (vals := v1) (relI := fun v => Forall₂ (ObjAt v))
    (relO := fun v => Forall₂ (ExprAt v)) (F := fun row => row.mapM expressify)
    (fun h hp => h.imp (fun _ _ h => h.mono hp)) (fun h hp => exprAts_mono h hp) ?_ v1 rows Rows
    (List.prefix_refl _) (hr.imp (fun _ _ h => h.imp (fun _ _ h => h.mono p1)))) ?_
  · intro v row Row p hrow
    exact computes_each (vals := v) (relI := ObjAt) (relO := ExprAt) (fun h hp => h.mono hp)
      (fun h hp => h.mono hp) (fun _ _ _ _ h => computes_expressify hl h) v row Row
      (List.prefix_refl _) hrow
  intro v2 es Es p2 hes
  have hc2 := constsAt_mono hc (p1.trans p2)
  refine Computes.bindOk (computes_rowsLoop es Es 0 _ ([], Dict.empty) v2 hc2.zero hes ⟨.nil, rfl⟩) ?_
  rintro v3 ⟨s1, s2⟩ p3 ⟨h1, h2⟩
  simp only at h1 h2
  subst h2
  exact computes_matMk hl (constsAt_mono hc2 p3) _ _ h1 _

theorem computes_binopLoop {func : Nat} {Func : Expr} {os : List Nat} {Os : List Expr} :
    ∀ (items : List ((Nat × Nat) × Nat)) (es : List Nat) (Es : List Expr) (em : Dict (Nat × Nat) Nat)
    (vals : List (Ex Val)), Forall₂ (ExprAt vals) os Os → ExprAt vals func Func →
    Forall₂ (ExprAt vals) es Es →
    Computes vals (Prog.binopLoop lit os func items (es, em)) LoopAt
      (Mat.binopLoop Os Func items (Es, em)) := by
  intro items
  induction items with
  | nil => intro es Es em vals ho hf he; exact .ret ⟨he, rfl⟩
  | cons it items ih =>
    obtain ⟨ij, n'⟩ := it
    intro es Es em vals ho hf he
    unfold Prog.binopLoop Mat.binopLoop
    cases em.get? ij with
    | some n =>
      refine Computes.bind (Computes.ofPy (rel := ExprAt) (pyGet_rel he n)) ?_
      intro v1 a A p1 ha
      refine Computes.bind (Computes.ofPy (rel := ExprAt) (pyGet_rel (exprAts_mono ho p1) n')) ?_
      intro v2 b B p2 hb
      have q2 := p1.trans p2
      refine Computes.bindOk (computes_exprCall2 hl (hf.mono q2) (ha.mono p2) hb) ?_
      intro v3 r p3 hr
      have q3 := q2.trans p3
      refine Computes.bind (Computes.ofPy (rel := fun v => Forall₂ (ExprAt v))
        (pySet_rel (exprAts_mono he q3) n hr)) ?_
      intro v4 es' Es' p4 hes
      have q4 := q3.trans p4
      exact ih es' Es' em v4 (exprAts_mono ho q4) (hf.mono q4) hes
    | none =>
      refine Computes.bind (Computes.ofPy (rel := ExprAt) (pyGet_rel ho n')) ?_
      intro v1 a A p1 ha
      rw [he.length_eq]
      exact ih _ _ _ v1 (exprAts_mono ho p1) (hf.mono p1)
        (List.rel_append (exprAts_mono he p1) (.cons ha .nil))

theorem computes_matBinop {c : Prog.ConstsH} (hc : ConstsAt vals c) {a b : Prog.MatH} {A B : Mat}
    (ha : MatAt vals a A) (hb : MatAt vals b B) {f : Nat} {F : Expr} (hf : ExprAt vals f F) :
    Computes vals (Prog.matBinop lit c a b f) MatAt (A.binop B F) := by
  unfold Prog.matBinop Mat.binop
  rw [ha.nrows, ha.ncols, hb.nrows, hb.ncols, ha.entrymap, hb.entrymap]
  split
  · exact .raise
  refine Computes.bind (computes_binopLoop hl _ _ _ _ vals hb.elements hf ha.elements) ?_
  rintro v ⟨s1, s2⟩ ⟨S1, S2⟩ p ⟨h1, h2⟩
  simp only at h1 h2
  subst h2
  exact computes_matMk hl (constsAt_mono hc p) _ _ h1 _

theorem computes_matAdd {c : Prog.ConstsH} (hc : ConstsAt vals c) {a b : Prog.MatH} {A B : Mat}
    (ha : MatAt vals a A) (hb : MatAt vals b B) :
    Computes vals (Prog.matAdd lit c a b) MatAt (A.add B) := by
  exact computes_matBinop hl hc ha hb hc.add

theorem computes_matDiff {m : Prog.SimplecasH} (hS : SimplecasAt vals m) {a : Prog.MatH} {A : Mat}
    (ha : MatAt vals a A) {o : Prog.ObjH} {O : PyObj} (ho : ObjAt vals o O) :
    Computes vals (Prog.matDiff lit m a o) MatAt (A.diff O) := by
  cases o <;> cases O <;> first | exact ho.elim | exact .raise | skip
  refine Computes.bind (computes_exprDiff 1 hS.diff ha.graph ho) ?_
  intro v1 e E p1 he
  refine Computes.bindOk (computes_symArgs he) ?_
  intro v2 as p2 has
  rw [ha.nrows, ha.ncols, ha.entrymap]
  exact computes_matMk hl (constsAt_mono hS.consts (p1.trans p2)) _ _ has _

/-! ### SymPy -/

theorem computes_callExprs {f : Nat} {H : Expr} {es : List Nat} {Es : List Expr} (hf : ExprAt vals f H)
    (he : Forall₂ (ExprAt vals) es Es) :
    Computes vals (Prog.exprCall lit f (es.map .expr)) ExprAt (.ok (H.call Es)) := by
  have ho : Forall₂ (ObjAt vals) (es.map .expr) (Es.map .expr) := by
    clear * - he
    induction he with
    | nil => exact .nil
    | cons h _ ih => exact .cons h ih
  have hx : Expr.pyCall H (Es.map .expr) = .ok (H.call Es) := by
    have h : (Es.map PyObj.expr).mapM expressify = .ok Es := by
      clear * -
      induction Es with
      | nil => rfl
      | cons e Es ih => rw [List.map_cons, List.mapM_cons, ih]; rfl
    unfold Expr.pyCall
    rw [h]
    rfl
  rw [← hx]
  exact computes_exprCall hl hf ho

theorem computes_fromSympyBuild {c : Prog.ConstsH} (hc : ConstsAt vals c) (k : SKind) {es : List Nat}
    {Es : List Expr} (he : Forall₂ (ExprAt vals) es Es) :
    Computes vals (Prog.fromSympyBuild lit c k es) ExprAt (Verif.fromSympyBuild k Es) := by
  cases k with
  | add => exact computes_callExprs hl hc.add he
  | mul => exact computes_callExprs hl hc.mul he
  | pow => exact computes_callExprs hl hc.pow he
  | sin => exact computes_callExprs hl hc.sin he
  | cos => exact computes_callExprs hl hc.cos he
  | tuple => exact computes_callExprs hl hc.list he
  | undef name =>
    refine Computes.bindOk (computes_newLit hl Ty.function (.str name)) ?_
    intro v f p hf
    exact computes_callExprs hl hf (exprAts_mono he p)
  | other => exact .raise

/-- The cache: the same keys in the same order, with `Expr`s for the values. -/
def CacheAt (vals : List (Ex Val)) (d : Dict SExpr Nat) (D : Dict SExpr Expr) : Prop :=
  Forall₂ (fun p q => p.1 = q.1 ∧ ExprAt vals p.2 q.2) d.items D.items

omit hl in
theorem CacheAt.mono {d : Dict SExpr Nat} {D : Dict SExpr Expr} (h : CacheAt vals d D)
    (hp : vals <+: vals') : CacheAt vals' d D := h.imp (fun _ _ h => ⟨h.1, h.2.mono hp⟩)

/-- A result with the cache. -/
def CachedAt {α B : Type} (rel : List (Ex Val) → α → B → Prop) (vals : List (Ex Val))
    (r : α × Dict SExpr Nat) (x : B × Dict SExpr Expr) : Prop := rel vals r.1 x.1 ∧ CacheAt vals r.2 x.2

omit hl in
theorem CacheAt.set {d : Dict SExpr Nat} {D : Dict SExpr Expr} (h : CacheAt vals d D) (s : SExpr)
    {e : Nat} {E : Expr} (he : ExprAt vals e E) : CacheAt vals (d.set s e) (D.set s E) := by
  unfold CacheAt Dict.set at *
  obtain ⟨l⟩ := d
  obtain ⟨M⟩ := D
  simp only at h ⊢
  induction h with
  | nil => exact .cons ⟨rfl, he⟩ .nil
  | @cons p q l M h1 h2 ih =>
    obtain ⟨k, x⟩ := p
    obtain ⟨k', y⟩ := q
    obtain ⟨g1, g2⟩ := h1
    simp only at g1 g2
    subst g1
    unfold Dict.assign
    by_cases hk : k = s
    · simp only [hk, if_true]
      exact .cons ⟨rfl, he⟩ h2
    · simp only [hk, if_false]
      exact .cons ⟨rfl, g2⟩ ih

omit hl in
theorem CacheAt.get {d : Dict SExpr Nat} {D : Dict SExpr Expr} (h : CacheAt vals d D) (s : SExpr) :
    (d.get? s = none ∧ D.get? s = none) ∨
    ∃ e E, d.get? s = some e ∧ D.get? s = some E ∧ ExprAt vals e E := by
  unfold CacheAt at h
  unfold Dict.get?
  obtain ⟨l⟩ := d
  obtain ⟨M⟩ := D
  simp only at h ⊢
  induction h with
  | nil => exact .inl ⟨rfl, rfl⟩
  | @cons p q l M h1 h2 ih =>
    obtain ⟨k, x⟩ := p
    obtain ⟨k', y⟩ := q
    obtain ⟨g1, g2⟩ := h1
    simp only at g1 g2
    subst g1
    unfold Dict.lookup
    by_cases hk : k = s
    · simp only [hk, if_true]
      exact .inr ⟨x, y, rfl, rfl, g2⟩
    · simp only [hk, if_false]
      exact ih

omit hl in
theorem computes_withCache {d : Dict SExpr Nat} {D : Dict SExpr Expr} (h : CacheAt vals d D) (s : SExpr)
    {p : Prog V Val (Nat × Dict SExpr Nat)} {x : PyM (Expr × Dict SExpr Expr)}
    (hp : Computes vals p (CachedAt ExprAt) x) :
    Computes vals (Prog.withCache d s p) (CachedAt ExprAt) (Verif.withCache D s x) := by
  unfold Prog.withCache Verif.withCache
  rcases h.get s with ⟨h1, h2⟩ | ⟨e, E, h1, h2, h3⟩
  · rw [h1, h2]
    refine Computes.bind hp ?_
    rintro v ⟨r1, r2⟩ ⟨x1, x2⟩ q ⟨g1, g2⟩
    exact .ret ⟨g1, CacheAt.set g2 s g1⟩
  · rw [h1, h2]
    exact .ret ⟨h3, h⟩

mutual
theorem computes_fromSympyCache {c : Prog.ConstsH} : ∀ (s : SExpr) {vals : List (Ex Val)}
    {d : Dict SExpr Nat} {D : Dict SExpr Expr}, ConstsAt vals c → CacheAt vals d D →
    Computes vals (Prog.fromSympyCache lit c s d) (CachedAt ExprAt) (Verif.fromSympyCache s D)
  | .int n, vals, d, D, hc, h => by
    unfold Prog.fromSympyCache Verif.fromSympyCache
    refine computes_withCache h _ ?_
    refine Computes.bindOk (computes_newLit hl Ty.integer (.int n)) ?_
    intro v e p he
    exact .ret ⟨he, h.mono p⟩
  | .sym name a, vals, d, D, hc, h => by
    unfold Prog.fromSympyCache Verif.fromSympyCache
    refine computes_withCache h _ ?_
    refine Computes.bindOk (computes_newLit hl Ty.symbol (.str name)) ?_
    intro v e p he
    exact .ret ⟨he, h.mono p⟩
  | .cls name, vals, d, D, hc, h => by
    unfold Prog.fromSympyCache Verif.fromSympyCache
    exact computes_withCache h _ .raise
  | .leaf id, vals, d, D, hc, h => by
    unfold Prog.fromSympyCache Verif.fromSympyCache
    exact computes_withCache h _ .raise
  | .app k as, vals, d, D, hc, h => by
    unfold Prog.fromSympyCache Verif.fromSympyCache
    refine computes_withCache h _ ?_
    split
    · exact .raise
    · refine Computes.bind (computes_fromSympyCacheList as hc h) ?_
      rintro v ⟨r1, r2⟩ ⟨x1, x2⟩ p ⟨g1, g2⟩
      refine Computes.bind (computes_fromSympyBuild hl (constsAt_mono hc p) k g1) ?_
      intro v' e E p' he
      exact .ret ⟨he, CacheAt.mono g2 p'⟩

theorem computes_fromSympyCacheList {c : Prog.ConstsH} : ∀ (ss : List SExpr) {vals : List (Ex Val)}
    {d : Dict SExpr Nat} {D : Dict SExpr Expr}, ConstsAt vals c → CacheAt vals d D →
    Computes vals (Prog.fromSympyCacheList lit c ss d) (CachedAt (fun v => Forall₂ (ExprAt v)))
      (Verif.fromSympyCacheList ss D)
  | [], vals, d, D, hc, h => by
    unfold Prog.fromSympyCacheList Verif.fromSympyCacheList
    exact .ret ⟨.nil, h⟩
  | s :: ss, vals, d, D, hc, h => by
    unfold Prog.fromSympyCacheList Verif.fromSympyCacheList
    refine Computes.bind (computes_fromSympyCache s hc h) ?_
    rintro v ⟨r1, r2⟩ ⟨x1, x2⟩ p ⟨g1, g2⟩
    refine Computes.bind (computes_fromSympyCacheList ss (constsAt_mono hc p) g2) ?_
    rintro v' ⟨r1', r2'⟩ ⟨x1', x2'⟩ p' ⟨g1', g2'⟩
    exact .ret ⟨.cons (g1.mono p') g1', g2'⟩
end

theorem computes_fromSympy {c : Prog.ConstsH} (hc : ConstsAt vals c) (s : SExpr) :
    Computes vals (Prog.fromSympy lit c s) ExprAt (Verif.fromSympy s) := by
  unfold Prog.fromSympy Verif.fromSympy
  refine Computes.bind (computes_fromSympyCache hl s hc .nil) ?_
  rintro v ⟨r1, r2⟩ ⟨x1, x2⟩ p ⟨g1, g2⟩
  exact .ret g1

omit hl in
theorem computes_toSympyMatrix {L : SymPyLib} {d : Prog.EvalD SExpr}
    (hE : EvDAt vals V d (Verif.evalToSympy L)) {m : Prog.MatH} {M : Mat} (hm : MatAt vals m M) :
    Computes vals (Prog.toSympyMatrix d m : Prog V Val SMat) Same (Verif.toSympyMatrix L M) := by
  unfold Prog.toSympyMatrix Verif.toSympyMatrix
  refine Computes.bind (computes_evalPlain hE hm.graph) ?_
  rintro v g _ p rfl
  rw [hm.nrows, hm.ncols, hm.entrymap]
  exact Computes.ofPySame

theorem computes_fromSympyMatrix (L : SymPyLib) {c : Prog.ConstsH} (hc : ConstsAt vals c)
    (rows cols : Nat) (dok : List ((Nat × Nat) × SExpr)) :
    Computes vals (Prog.fromSympyMatrix lit L c rows cols dok) MatAt
      (Verif.fromSympyMatrix L rows cols dok) := by
  unfold Prog.fromSympyMatrix Verif.fromSympyMatrix
  refine Computes.bind Computes.ofPySame ?_
  rintro v1 t _ p1 rfl
  refine Computes.bind (computes_fromSympy hl (constsAt_mono hc p1) t) ?_
  intro v2 e E p2 he
  refine Computes.bindOk (computes_symArgs he) ?_
  intro v3 as p3 has
  exact computes_matMk hl (constsAt_mono hc ((p1.trans p2).trans p3)) _ _ has _

end Verif.Store
