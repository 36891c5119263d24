import Mathlib.Data.List.Forall2
import Verif.Spec.Client
import Verif.Model.ClientTree

/-!
# Reasoning about programs on values
-/

set_option linter.unusedSectionVars false

namespace Verif.Store
variable {V K α β : Type} [DecidableEq K] [PyVal V K]

/-! ### Runs -/

theorem Prog.bind_assoc {α : Type} (p : Prog V K α) : ∀ {β γ : Type} (f : α → Prog V K β)
    (g : β → Prog V K γ), (p.bind f).bind g = p.bind (fun a => (f a).bind g) := by
  induction p with
  | ret a => intros; rfl
  | raise e => intros; rfl
  | make c k ih => intro β γ f g; simp only [Prog.bind, ih]
  | same h h' k ih => intro β γ f g; simp only [Prog.bind, ih]
  | look h k ih => intro β γ f g; simp only [Prog.bind, ih]
  | loop body x k ihb ihk => intro β γ f g; simp only [Prog.bind, ihk]

theorem Prog.again_bind {σ γ : Type} (body : σ → Prog V K (σ ⊕ β)) (k : β → Prog V K α)
    (f : α → Prog V K γ) :
    (fun x => (Prog.again body k x).bind f) = Prog.again body (fun b => (k b).bind f) := by
  funext x
  cases x <;> rfl

theorem valueStep_bind {vals vals' : List (Ex K)} {p p' : Prog V K α} (f : α → Prog V K β)
    (h : valueStep (vals, p) = some (vals', p')) :
    valueStep (vals, p.bind f) = some (vals', p'.bind f) := by
  cases p with
  | ret a => cases h
  | raise e => cases h
  | make c k =>
    simp only [valueStep, Option.map_eq_some_iff, Prod.mk.injEq] at h
    obtain ⟨x, h1, h2, h3⟩ := h
    subst h2; subst h3
    simp only [Prog.bind, valueStep, h1, Option.map_some]
  | same g g' k =>
    simp only [valueStep] at h
    split at h
    · rename_i x y h1 h2
      cases h
      simp only [Prog.bind, valueStep, h1, h2]
    · cases h
  | look g k =>
    simp only [valueStep, Option.map_eq_some_iff, Prod.mk.injEq] at h
    obtain ⟨x, h1, h2, h3⟩ := h
    subst h2; subst h3
    simp only [Prog.bind, valueStep, h1, Option.map_some]
  | loop body x k =>
    cases h
    simp only [Prog.bind, valueStep]
    rw [Prog.bind_assoc, Prog.again_bind]

theorem ValueRun.trans {c c' c'' : List (Ex K) × Prog V K α} (h : ValueRun c c')
    (h' : ValueRun c' c'') : ValueRun c c'' := by
  induction h' with
  | refl => exact h
  | step _ hs ih => exact ih.step hs

theorem ValueRun.bind {c c' : List (Ex K) × Prog V K α} (h : ValueRun c c') (f : α → Prog V K β) :
    ValueRun (c.1, c.2.bind f) (c'.1, c'.2.bind f) := by
  induction h with
  | refl => exact .refl
  | @step c' c'' _ hs ih =>
    obtain ⟨v, p⟩ := c'
    obtain ⟨v', p'⟩ := c''
    exact ih.step (valueStep_bind f hs)

theorem valueStep_ofPy (vals : List (Ex K)) (r : PyM α) : valueStep (vals, (Prog.ofPy r : Prog V K α)) = none := by
  cases r <;> rfl

/-- A program on values has one result. -/
theorem Yields.unique {vals vals1 vals2 : List (Ex K)} {p : Prog V K α} {r1 r2 : PyM α}
    (h1 : Yields vals p r1 vals1) (h2 : Yields vals p r2 vals2) : r1 = r2 ∧ vals1 = vals2 := by
  have key : ∀ {c c1 c2 : List (Ex K) × Prog V K α}, ValueRun c c1 → valueStep c1 = none →
      ValueRun c c2 → ValueRun c2 c1 := by
    intro c c1 c2 h1 hn h2
    induction h2 with
    | refl => exact h1
    | @step c' c'' _ hs ih =>
      -- the first step of a run from `c'` is the step to `c''`
      have head : ∀ {d d' : List (Ex K) × Prog V K α}, ValueRun d d' → valueStep d = some c'' →
          d' = d ∨ ValueRun c'' d' := by
        intro d d' hd hstep
        induction hd with
        | refl => exact Or.inl rfl
        | @step e e' _ hs' ih' =>
          rcases ih' with rfl | h
          · rw [hstep] at hs'; cases hs'; exact Or.inr .refl
          · exact Or.inr (h.step hs')
      rcases head ih hs with rfl | h
      · rw [hn] at hs; cases hs
      · exact h
  have h := key h1 (valueStep_ofPy _ _) h2
  have stuck : ∀ {c d : List (Ex K) × Prog V K α}, ValueRun c d → valueStep c = none → d = c := by
    intro c d hcd hn
    induction hcd with
    | refl => rfl
    | step _ hs ih => rw [ih, hn] at hs; cases hs
  have := stuck h (valueStep_ofPy _ _)
  simp only [Prod.mk.injEq] at this
  refine ⟨?_, this.1⟩
  have h := this.2
  cases r1 <;> cases r2 <;> simp [Prog.ofPy] at h ⊢ <;> exact h

/-! ### Computing a value -/

variable {A B : Type} {vals : List (Ex K)}

theorem Computes.ret {rel : List (Ex K) → α → A → Prop} {a : α} {b : A} (h : rel vals a b) :
    Computes vals (Prog.ret a : Prog V K α) rel (.ok b) :=
  ⟨.ok a, vals, .refl, List.prefix_refl _, h⟩

theorem Computes.pure {rel : List (Ex K) → α → A → Prop} {a : α} {b : A} (h : rel vals a b) :
    Computes vals (Pure.pure a : Prog V K α) rel (.ok b) := Computes.ret h

theorem Computes.raise {rel : List (Ex K) → α → A → Prop} {e : PyErr} :
    Computes vals (Prog.raise e : Prog V K α) rel (.error e) :=
  ⟨.error e, vals, .refl, List.prefix_refl _, rfl⟩

theorem Computes.step {rel : List (Ex K) → α → A → Prop} {x : PyM A} {p p' : Prog V K α}
    {vals' : List (Ex K)} (hs : valueStep (vals, p) = some (vals', p')) (hp : vals <+: vals')
    (h : Computes vals' p' rel x) : Computes vals p rel x := by
  obtain ⟨r, v, h1, h2, h3⟩ := h
  exact ⟨r, v, (ValueRun.step .refl hs).trans h1, hp.trans h2, h3⟩

theorem Computes.bind {rel : List (Ex K) → α → A → Prop} {rel' : List (Ex K) → β → B → Prop}
    {x : PyM A} {F : A → PyM B} {p : Prog V K α} {f : α → Prog V K β} (h : Computes vals p rel x)
    (hf : ∀ vals' a b, vals <+: vals' → rel vals' a b → Computes vals' (f a) rel' (F b)) :
    Computes vals (p >>= f) rel' (x >>= F) := by
  obtain ⟨r, v, h1, h2, h3⟩ := h
  have hrun := ValueRun.bind h1 f
  cases r with
  | error e =>
    cases x with
    | ok b => exact h3.elim
    | error e' =>
      have h3 : e = e' := h3
      subst h3
      exact ⟨.error e, v, hrun, h2, rfl⟩
  | ok a =>
    cases x with
    | error e' => exact h3.elim
    | ok b =>
      obtain ⟨r', v', g1, g2, g3⟩ := hf v a b h2 h3
      exact ⟨r', v', hrun.trans g1, h2.trans g2, g3⟩

/-- A first part that cannot raise. -/
theorem Computes.bindOk {rel : List (Ex K) → α → A → Prop} {rel' : List (Ex K) → β → B → Prop}
    {b : A} {x : PyM B} {p : Prog V K α} {f : α → Prog V K β} (h : Computes vals p rel (.ok b))
    (hf : ∀ vals' a, vals <+: vals' → rel vals' a b → Computes vals' (f a) rel' x) :
    Computes vals (p >>= f) rel' x := by
  obtain ⟨r, v, h1, h2, h3⟩ := h
  have hrun := ValueRun.bind h1 f
  cases r with
  | error e => exact h3.elim
  | ok a =>
    obtain ⟨r', v', g1, g2, g3⟩ := hf v a h2 h3
    exact ⟨r', v', hrun.trans g1, h2.trans g2, g3⟩

theorem Computes.weaken {rel rel' : List (Ex K) → α → A → Prop} {x : PyM A} {p : Prog V K α}
    (h : Computes vals p rel x) (hr : ∀ vals' a b, vals <+: vals' → rel vals' a b → rel' vals' a b) :
    Computes vals p rel' x := by
  obtain ⟨r, v, h1, h2, h3⟩ := h
  refine ⟨r, v, h1, h2, ?_⟩
  cases r <;> cases x
  · exact h3
  · exact h3.elim
  · exact h3.elim
  · exact hr v _ _ h2 h3

end Verif.Store
