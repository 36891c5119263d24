import Verif.Spec.Client

/-!
# Specification of progress

Which steps of the process are steps of the thread itself, how many of them there are in an execution,
and how many steps the program makes on values.
-/

namespace Verif.Store
variable {V K α : Type}

/-- The handles that the next instruction of the program needs: the arguments of a call, the operands of
a comparison, the object that is read. -/
def Uses : Prog V K α → Nat → Prop
  | .make c _, h => h ∈ c.refs
  | .same a b _, h => h = a ∨ h = b
  | .look a _, h => h = a
  | _, _ => False

variable [DecidableEq K] [PyVal V K]

/-- Any number of steps of a program on values, counted. -/
inductive ValueSteps (c : List (Ex K) × Prog V K α) : Nat → List (Ex K) × Prog V K α → Prop
  | refl : ValueSteps c 0 c
  | step {n c' c''} : ValueSteps c n c' → valueStep c' = some c'' → ValueSteps c (n + 1) c''

/-- The program, run on values, ends after `n` steps with the result or exception `r`. -/
def YieldsIn (n : Nat) (vals : List (Ex K)) (p : Prog V K α) (r : PyM α) (vals' : List (Ex K)) : Prop :=
  ValueSteps (vals, p) n (vals', .ofPy r)

/-- The steps that the thread `me` makes itself: its program goes on, or it gets further inside a
constructor call. -/
inductive Own (me : Nat) : Cfg V K α → Cfg V K α → Prop
  /-- the thread begins a call, or gets further inside one -/
  | inside {s s' hs p} : Step s none s' → s'.pc me ≠ s.pc me →
      (s.pc me = .idle → ∀ r, s'.pc me = .missed r → ∃ c k, p = .make c k ∧ resolve hs c = some r) →
      (∀ h i, held hs h = some i → i ∈ s'.roots) →
      (s.pc me ≠ .idle → s'.pc me ≠ .idle) →
      Own me ⟨s, hs, p⟩ ⟨s', hs, p⟩
  /-- its call returns -/
  | made {s s' hs c k} (r : Obj V) (i : Nat) :
      resolve hs c = some r → Step s (some (.ret me r i)) s' →
      Own me ⟨s, hs, .make c k⟩ ⟨s', hs ++ [some i], k hs.length⟩
  /-- it compares -/
  | same {s hs h h' k} (i j : Nat) :
      held hs h = some i → held hs h' = some j →
      Own me ⟨s, hs, .same h h' k⟩ ⟨s, hs, k (decide (i = j))⟩
  /-- it reads attributes -/
  | look {s hs h k} (i : Nat) (o : Obj V) :
      held hs h = some i → s.heap i = some o →
      Own me ⟨s, hs, .look h k⟩
        ⟨{ s with roots := o.refs ++ s.roots }, hs ++ o.refs.map some, k (o.view hs.length)⟩
  /-- it goes into the body of a loop -/
  | loop {s hs} {σ β : Type} (body : σ → Prog V K (σ ⊕ β)) (x : σ) (k : β → Prog V K α) :
      Own me ⟨s, hs, .loop body x k⟩ ⟨s, hs, (body x).bind (Prog.again body k)⟩

/-- The executions of thread `me` (as in `Exec`), with the number of steps that `me` itself has made. -/
inductive Counted (me : Nat) (P : (Key K → Prop) → Cfg V K α → Prop) (R : Key K → Prop) (c : Cfg V K α) :
    Nat → (Key K → Prop) → Cfg V K α → Prop
  | refl : P R c → Counted me P R c 0 R c
  /-- another thread, the collector, or a variable of `me` goes away -/
  | other {n R' c' c''} : Counted me P R c n R' c' → Run me c' c'' → ¬ Own me c' c'' →
      P (fun k => R' k ∨ Race c''.st k) c'' → Counted me P R c n (fun k => R' k ∨ Race c''.st k) c''
  /-- a step of `me` -/
  | own {n R' c' c''} : Counted me P R c n R' c' → Own me c' c'' →
      P (fun k => R' k ∨ Race c''.st k) c'' → Counted me P R c (n + 1) (fun k => R' k ∨ Race c''.st k) c''

/-- The executions in which only `me` makes steps, counted: all other threads are stopped, wherever they
are, and the collector does not run. -/
inductive Solo (me : Nat) (c : Cfg V K α) : Nat → Cfg V K α → Prop
  | refl : Solo me c 0 c
  | step {n c' c''} : Solo me c n c' → Own me c' c'' → Solo me c (n + 1) c''

/-- An execution that goes on for ever (as in `Exec`, but without an end): the states `f 0`, `f 1`, ... and
the keys for which there has been a race up to each of them. -/
structure Endless (me : Nat) (P : (Key K → Prop) → Cfg V K α → Prop) (R : Key K → Prop) (c : Cfg V K α)
    (f : Nat → Cfg V K α) (Rs : Nat → Key K → Prop) : Prop where
  first : f 0 = c
  race0 : Rs 0 = R
  run : ∀ n, Run me (f n) (f (n + 1))
  races : ∀ n, Rs (n + 1) = fun k => Rs n k ∨ Race (f (n + 1)).st k
  all : ∀ n, P (Rs n) (f n)

/-- The scheduler is fair to the thread: again and again the thread makes a step, or cannot make one. -/
def Fair (me : Nat) (f : Nat → Cfg V K α) : Prop :=
  ∀ n, ∃ m, n ≤ m ∧ (Own me (f m) (f (m + 1)) ∨ ¬ ∃ c, Own me (f m) c)

/-- The variables that the program still needs are not taken from it. -/
def KeepsNeeded (f : Nat → Cfg V K α) : Prop :=
  ∀ n h, Uses (f n).prog h → ∃ i, held (f n).hs h = some i

end Verif.Store
