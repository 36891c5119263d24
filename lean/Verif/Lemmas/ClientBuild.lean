import Verif.Lemmas.ClientRead
import Verif.Lemmas.ClientExpr

/-!
# Every evaluator on values is the evaluator of programs on objects
-/

set_option linter.unusedSectionVars false

namespace Verif.Store
open List (Forall₂)
variable {V K T A : Type} [DecidableEq K] [PyVal V K] {vals vals' : List (Ex K)}

mutual
/-- Make an expression, from the leaves. -/
def Prog.buildTree (lit : K → V) : Tree K → Prog V K Nat
  | .atom a => .make (.atom a.atomType (lit a.value)) (fun h => .make (.treeAtom h) .ret)
  | .node ts => Prog.buildTrees lit ts >>= Prog.tree
/-- Make several. -/
def Prog.buildTrees (lit : K → V) : List (Tree K) → Prog V K (List Nat)
  | [] => .ret []
  | t :: ts => do
    let h ← Prog.buildTree lit t
    let hs ← Prog.buildTrees lit ts
    return h :: hs
end

variable {lit : K → V} (hl : ∀ v, PyVal.key (lit v) = v)
include hl

mutual
theorem computes_buildTree (t : Tree K) (vals : List (Ex K)) :
    Computes vals (Prog.buildTree lit t) At (.ok t) := by
  match t with
  | .atom ⟨ty, k⟩ =>
    unfold Prog.buildTree
    refine Computes.step (p' := _) rfl (List.prefix_append _ _) ?_
    refine Computes.step (p' := .ret (vals.length + 1))
      (vals' := vals ++ [.atom ⟨ty, k⟩] ++ [.tree (.atom ⟨ty, k⟩)]) ?_
      (by rw [hl]; exact List.prefix_append _ _) (.ret (by simp [At]))
    simp [valueStep, valueOf, hl]
  | .node ts =>
    unfold Prog.buildTree
    refine Computes.bindOk (computes_buildTrees ts vals) ?_
    intro v hs p h
    exact computes_tree h
theorem computes_buildTrees (ts : List (Tree K)) (vals : List (Ex K)) :
    Computes vals (Prog.buildTrees lit ts) Ats (.ok ts) := by
  match ts with
  | [] => exact .ret .nil
  | t :: ts =>
    unfold Prog.buildTrees
    refine Computes.bindOk (computes_buildTree t vals) ?_
    intro v h p hh
    refine Computes.bindOk (computes_buildTrees ts v) ?_
    intro v' hs p' hhs
    exact .pure (.cons (hh.mono p') hhs)
end

omit hl

/-- Read the arguments, compute on values, make the result. -/
def Prog.onValues (dec : T → Prog V K A) (enc : A → Prog V K T) (F : List A → PyM A)
    (as : List T) : Prog V K T :=
  Prog.each dec as >>= fun xs => Prog.ofPy (F xs) >>= enc

theorem computes_onValues {rel : List (Ex K) → T → A → Prop} (mono : Stable rel)
    {dec : T → Prog V K A} {enc : A → Prog V K T}
    (hdec : ∀ v a x, rel v a x → Computes v (dec a) (fun _ a b => a = b) (.ok x))
    (henc : ∀ v x, Computes v (enc x) rel (.ok x)) (F : List A → PyM A) {as : List T} {xs : List A}
    (h : Forall₂ (rel vals) as xs) : Computes vals (Prog.onValues dec enc F as) rel (F xs) := by
  have h1 : Computes vals (Prog.each dec as) (fun v => Forall₂ (fun a b => a = b)) (.ok xs) := by
    have hq : xs.mapM (fun q => (.ok q : PyM A)) = .ok xs := by
      have := mapM_ok (fun q : A => q) xs
      simpa using this
    rw [← hq]
    exact computes_each (vals := vals) (relI := rel) (relO := fun _ a b => a = b)
      (fun h hp => mono _ _ _ _ h hp) (fun h _ => h) (fun v a b _ h => hdec v a b h) vals as xs
      (List.prefix_refl _) h
  refine Computes.bindOk h1 ?_
  intro v ys p hys
  rw [List.forall₂_eq_eq_eq] at hys
  subst hys
  have := Computes.bind (vals := v) (F := fun x => .ok x) (Computes.ofPy (V := V) (rel := fun _ a b => a = b)
    (r := F ys) (x := F ys) (by cases F ys <;> rfl)) (f := enc) (rel' := rel)
    (by rintro v' a b _ rfl; exact henc v' a)
  have hb : ∀ x : PyM A, (x >>= fun d => .ok d) = x := by intro x; cases x <;> rfl
  rw [hb] at this
  exact this

/-- The function of a rule on values. -/
def opBody : OpFunc PyM A → List A → PyM A
  | .star F | .seq F => F

/-- The rules of an evaluator on values as programs; `keys` are the heads of its operations. -/
def Prog.evalOf (dec : T → Prog V K A) (enc : A → Prog V K T) (Ev : Evaluator PyM K A)
    (keys : List Nat) : Prog.EvalH V K T where
  atoms := Ev.atoms.items.map (fun p => (p.1, fun v => Prog.ofPy (p.2 v) >>= enc))
  operations := keys.zip (Ev.operations.vals.map (fun f => Prog.onValues dec enc (opBody f)))
  genericOp := fun h as => Prog.readTree h >>= fun t =>
    Prog.onValues dec enc (Ev.genericOperationFunc t) as
  genericAtom := fun h => Prog.readTree h >>= fun t => Prog.ofPy (Ev.genericAtomFunc t) >>= enc

theorem atomRule_map {F : Type} {G : Type 1} (g : F → G) (ty : AtomType) :
    ∀ l : List (AtomType × F), Prog.atomRule ty (l.map (fun p => (p.1, g p.2))) =
      match Dict.lookup ty l with | none => none | some f => some (g f) := by
  intro l
  induction l with
  | nil => rfl
  | cons p l ih =>
    simp only [List.map_cons, Prog.atomRule, Dict.lookup]
    split
    · rfl
    · exact ih

theorem evalAt_evalOf {rel : List (Ex K) → T → A → Prop} (mono : Stable rel)
    {dec : T → Prog V K A} {enc : A → Prog V K T}
    (hdec : ∀ v a x, rel v a x → Computes v (dec a) (fun _ a b => a = b) (.ok x))
    (henc : ∀ v x, Computes v (enc x) rel (.ok x)) (Ev : Evaluator PyM K A) {keys : List Nat}
    (hk : Ats vals keys Ev.operations.keys) : EvalAt vals rel (Prog.evalOf dec enc Ev keys) Ev := by
  have hb : ∀ x : PyM A, (x >>= fun d => .ok d) = x := by intro x; cases x <;> rfl
  have hret : ∀ (v : List (Ex K)) (x : PyM A), Computes v (Prog.ofPy x >>= enc) rel x := by
    intro v x
    have := Computes.bind (vals := v) (F := fun x => .ok x) (Computes.ofPy (V := V)
      (rel := fun _ a b => a = b) (r := x) (x := x) (by cases x <;> rfl)) (f := enc) (rel' := rel)
      (by rintro v' a b _ rfl; exact henc v' a)
    rw [hb] at this
    exact this
  refine ⟨?_, ?_, ?_, ?_⟩
  · intro ty
    have := atomRule_map (fun (F : K → PyM A) (v : K) => (Prog.ofPy (F v) >>= enc : Prog V K T)) ty
      Ev.atoms.items
    have e : (Prog.evalOf dec enc Ev keys).atoms = Ev.atoms.items.map (fun p =>
        (p.1, fun v => (Prog.ofPy (p.2 v) >>= enc : Prog V K T))) := rfl
    rw [e, this]
    unfold Dict.get?
    cases Dict.lookup ty Ev.atoms.items with
    | none => trivial
    | some F => exact fun v k _ => hret v (F k)
  · refine ⟨Ev.operations.items, ?_, fun _ => rfl⟩
    show Forall₂ _ (keys.zip (List.map _ (List.map _ _))) _
    replace hk : Ats vals keys (Ev.operations.items.map Prod.fst) := hk
    generalize Ev.operations.items = l at hk ⊢
    induction l generalizing keys with
    | nil => cases hk; exact .nil
    | cons p l ih =>
      cases hk with
      | @cons n _ ns _ h1 h2 =>
        refine .cons ⟨h1, ?_⟩ (ih h2)
        obtain ⟨t, f⟩ := p
        cases f <;> exact fun v as xs _ h => computes_onValues mono hdec henc _ h
  · intro v h t as xs _ ht has
    refine Computes.bindOk (computes_readTree ht) ?_
    rintro v' _ p rfl
    exact computes_onValues mono hdec henc _ (has.imp (fun _ _ h => mono _ _ _ _ h p))
  · intro v h a _ ha
    refine Computes.bindOk (computes_readTree ha) ?_
    rintro v' _ p rfl
    exact hret v' _

end Verif.Store
