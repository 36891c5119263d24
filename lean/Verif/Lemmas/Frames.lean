import Verif.Spec.Frames
import Verif.Lemmas.Graph

/-!
# Lemmas for C70: with enough frames the functions of `Model/Frames.lean` do what those without a
limit do
-/

namespace Verif.Spec
open Framed

section Within
variable {α β : Type}

theorem Within.mono {j k : Nat} {x : Framed α} {r : PyM α} (h : Within j x r) (hjk : j ≤ k) :
    Within k x r := ⟨fun n hn => h.enough n (Nat.le_trans hjk hn), h.sound⟩

/-- A computation that ends with `r` whatever the number of frames. -/
theorem within_always {k : Nat} {x : Framed α} {r : PyM α} (h : ∀ n, x n = some r) : Within k x r :=
  ⟨fun n _ => h n, fun n => .inr (h n)⟩

theorem within_ret {k : Nat} (a : α) : Within k (ret a) (.ok a) := within_always fun _ => rfl

theorem within_pure {k : Nat} (a : α) : Within k (pure a : Framed α) (.ok a) :=
  within_always fun _ => rfl

theorem within_throw {k : Nat} (e : PyErr) : Within k (throw e : Framed α) (.error e) :=
  within_always fun _ => rfl

theorem within_here {k : Nat} (p : PyM α) : Within k (here p) p := within_always fun _ => rfl

theorem Within.bind {k : Nat} {x : Framed α} {p : PyM α} {f : α → Framed β} {q : α → PyM β}
    (h : Within k x p) (hf : ∀ a, p = .ok a → Within k (f a) (q a)) :
    Within k (x >>= f) (p >>= q) := by
  constructor
  · intro n hn
    show andThen x f n = _
    unfold andThen
    rw [h.enough n hn]
    cases p with
    | error e => rfl
    | ok a => exact (hf a rfl).enough n hn
  · intro n
    show andThen x f n = _ ∨ andThen x f n = _
    unfold andThen
    rcases h.sound n with h1 | h1
    · rw [h1]; exact .inl rfl
    · rw [h1]
      cases p with
      | error e => exact .inr rfl
      | ok a => exact (hf a rfl).sound n

/-- Binding a computation that returns. -/
theorem Within.bind_ok {k : Nat} {x : Framed α} {a : α} {f : α → Framed β} {q : PyM β}
    (h : Within k x (.ok a)) (hf : Within k (f a) q) : Within k (x >>= f) q :=
  h.bind (q := fun _ => q) (fun b hb => by cases hb; exact hf)

theorem Within.push {j k : Nat} {x : Framed α} {r : PyM α} (h : Within k x r) :
    Within (j + k) (frames j x) r := by
  constructor
  · intro n hn
    unfold Framed.frames
    rw [if_pos (by omega)]
    exact h.enough _ (by omega)
  · intro n
    unfold Framed.frames
    split
    · exact h.sound _
    · exact .inl rfl

theorem Within.push' {i j k : Nat} {x : Framed α} {r : PyM α} (h : Within k x r)
    (hi : j + k ≤ i) : Within i (frames j x) r := (h.push).mono hi

theorem within_outside {j k : Nat} (h : j ≤ k) : Within k (outside j) (.ok ()) :=
  ((within_ret (k := 0) ()).push).mono (by omega)

theorem Within.unique {j k : Nat} {x : Framed α} {r s : PyM α} (h : Within j x r)
    (h' : Within k x s) : r = s :=
  Option.some.inj ((h.enough (max j k) (by omega)).symm.trans (h'.enough (max j k) (by omega)))

end Within

section Exactly
variable {α β : Type}

theorem Exactly.within {k : Nat} {x : Framed α} {r : PyM α} (h : Exactly k x r) : Within k x r :=
  ⟨fun n hn => by rw [h n, if_pos hn], fun n => by
    rw [h n]
    split
    · exact .inr rfl
    · exact .inl rfl⟩

theorem exactly_ret (a : α) : Exactly 0 (ret a) (.ok a) := fun _ => rfl

theorem exactly_here (p : PyM α) : Exactly 0 (here p) p := fun _ => rfl

theorem Exactly.push {j k : Nat} {x : Framed α} {r : PyM α} (h : Exactly k x r) :
    Exactly (j + k) (frames j x) r := by
  intro n
  unfold Framed.frames
  rw [h]
  by_cases h1 : j ≤ n
  · rw [if_pos h1]
    by_cases h2 : k ≤ n - j
    · rw [if_pos h2, if_pos (by omega)]
    · rw [if_neg h2, if_neg (by omega)]
  · rw [if_neg h1, if_neg (by omega)]

/-- Binding a computation that returns. -/
theorem Exactly.bind_ok {j k : Nat} {x : Framed α} {a : α} {f : α → Framed β} {q : PyM β}
    (h : Exactly j x (.ok a)) (hf : Exactly k (f a) q) : Exactly (max j k) (x >>= f) q := by
  intro n
  show andThen x f n = _
  unfold andThen
  rw [h n]
  by_cases h1 : j ≤ n
  · rw [if_pos h1]
    show f a n = _
    rw [hf n]
    by_cases h2 : k ≤ n
    · rw [if_pos h2, if_pos (by omega)]
    · rw [if_neg h2, if_neg (by omega)]
  · rw [if_neg h1, if_neg (by omega)]

theorem Exactly.congr {j k : Nat} {x : Framed α} {r : PyM α} (h : Exactly j x r) (e : j = k) :
    Exactly k x r := e ▸ h

theorem exactly_pure (a : α) : Exactly 0 (pure a : Framed α) (.ok a) := fun _ => rfl

theorem exactly_outside (j : Nat) : Exactly j (outside j) (.ok ()) :=
  ((exactly_ret ()).push).congr (Nat.add_zero j)

theorem Exactly.push' {i j k : Nat} {x : Framed α} {r : PyM α} (h : Exactly k x r)
    (hi : i = j + k) : Exactly i (frames j x) r := hi ▸ h.push

/-- Binding a computation that returns. -/
theorem Exactly.bind' {i j k : Nat} {x : Framed α} {a : α} {f : α → Framed β} {q : PyM β}
    (h : Exactly j x (.ok a)) (hf : Exactly k (f a) q) (hi : i = max j k) :
    Exactly i (x >>= f) q := hi ▸ h.bind_ok hf

end Exactly

end Verif.Spec

namespace Verif.Props
open Spec Framed

section Core
variable {V : Type} (c : FrameUse)

theorem within_tree (children : List (Tree V)) :
    Within (2 + c.weak) (framedTree c children) (.ok (.node children)) := by
  refine Within.push' (k := 1 + c.weak) ?_ (by omega)
  refine (within_outside (by omega)).bind_ok ?_
  refine (within_outside (by omega)).bind_ok ?_
  refine (within_outside (by omega)).bind_ok ?_
  exact within_pure _

theorem within_call (head : Tree V) (args : List (Tree V)) :
    Within (3 + c.weak) (framedCall c head args) (.ok (head.call args)) :=
  Within.push' (within_tree c _) (by omega)

theorem within_tr (a : Atom V) : Within (2 + c.weak) (framedTr c a) (.ok (.atom a)) := by
  refine Within.push' (k := 1 + c.weak) ?_ (by omega)
  refine Within.push' (k := c.weak) ?_ (by omega)
  refine (within_outside (by omega)).bind_ok ?_
  refine (within_outside (by omega)).bind_ok ?_
  exact within_pure _

theorem within_atom (ty : AtomType) (v : V) :
    Within (2 + c.weak) (framedAtom c ty v) (.ok ⟨ty, v⟩) := by
  refine Within.push' (k := 1 + c.weak) ?_ (by omega)
  refine Within.push' (k := c.weak) ?_ (by omega)
  refine (within_outside (by omega)).bind_ok ?_
  refine (within_outside (by omega)).bind_ok ?_
  exact within_pure _

theorem within_sym (t : Tree V) : Within (1 + c.weak) (framedSym c t) (.ok t) := by
  refine Within.push' (k := c.weak) ?_ (by omega)
  refine (within_outside (by omega)).bind_ok ?_
  refine (within_outside (by omega)).bind_ok ?_
  exact within_pure _

variable [DecidableEq V]

theorem within_topoStep (heads : Bool) (s : TopoState V) :
    Within 1 (framedTopoStep heads s) (.ok (topoStep heads s)) := by
  unfold framedTopoStep topoStep
  cases hs : s.stack with
  | nil => exact within_pure _
  | cons p rest =>
    obtain ⟨top, children⟩ := p
    simp only
    cases hp : pyPop children with
    | none => exact within_pure _
    | some q =>
      obtain ⟨child, children'⟩ := q
      simp only
      split
      · exact within_pure _
      · exact (Within.push' (within_ret (k := 0) _) (by omega)).bind_ok (within_pure _)

theorem within_topoRun (heads : Bool) (n : Nat) (k : Nat) : ∀ s : TopoState V,
    topoMeasure s = k →
    (framedTopoRun heads s n = none ∨ framedTopoRun heads s n = some (.ok (topoRun heads s))) ∧
    (1 ≤ n → framedTopoRun heads s n = some (.ok (topoRun heads s))) := by
  induction k using Nat.strongRecOn with
  | ind k ih =>
    intro s hk
    have h1 := (within_topoStep heads s).sound n
    have h2 := (within_topoStep heads s).enough n
    unfold framedTopoRun topoRun
    split
    · rename_i h''
      refine ⟨.inl rfl, fun hn => ?_⟩
      rw [h''] at h2; exact absurd (h2 hn) (by simp)
    · rename_i h''
      rw [h''] at h1
      rcases h1 with h1 | h1 <;> cases h1
    · rename_i h''
      rw [h''] at h1
      rcases h1 with h1 | h1
      · cases h1
      have h3 := Except.ok.inj (Option.some.inj h1)
      split
      · exact ⟨.inr rfl, fun _ => rfl⟩
      · rename_i s' h4; rw [h4] at h3; cases h3
    · rename_i s'' h''
      rw [h''] at h1
      rcases h1 with h1 | h1
      · cases h1
      have h3 := Except.ok.inj (Option.some.inj h1)
      split
      · rename_i h4; rw [h4] at h3; cases h3
      · rename_i s' h4
        rw [h4] at h3
        obtain rfl := Option.some.inj h3
        exact ih _ (hk ▸ topoStep_measure h4) _ rfl

theorem within_sort (heads : Bool) (exclude : List (Tree V)) (e : Tree V) :
    Within 2 (framedSort heads exclude e) (.ok (topologicalSort heads exclude e)) := by
  refine Within.push' (k := 1) ?_ (by omega)
  unfold topologicalSort topoInit
  by_cases he : e ∈ exclude
  · simp only [he, if_true]
    exact ⟨fun n => (within_topoRun heads n _ _ rfl).2, fun n => (within_topoRun heads n _ _ rfl).1⟩
  · simp only [he, if_false]
    refine Within.bind_ok (a := getChildren heads e) ?_ ?_
    · exact Within.push' (within_ret (k := 0) _) (by omega)
    · exact ⟨fun n => (within_topoRun heads n _ _ rfl).2, fun n => (within_topoRun heads n _ _ rfl).1⟩

theorem within_split (exclude : List (Tree V)) (e : Tree V) :
    Within 3 (framedSplit exclude e) (.ok (topologicalSplit exclude e)) :=
  Within.push' (j := 1) ((within_sort false exclude e).bind_ok (within_pure _)) (by omega)

theorem within_forwardLoop (l : List (Tree V)) : ∀ (index : Nat) (indices : Dict (Tree V) Nat)
    (ops : List (Tree V × List Nat)),
    Within c.comp (framedForwardLoop c index indices ops l) (forwardLoop index indices ops l) := by
  induction l with
  | nil => intro index indices ops; exact within_pure _
  | cons t l ih =>
    intro index indices ops
    unfold framedForwardLoop forwardLoop
    refine (within_here _).bind (fun head _ => ?_)
    refine ((within_here (k := 0) _).push' (by omega)).bind (fun args _ => ?_)
    exact ih _ _ _

theorem within_graph (e : Tree V) :
    Within (4 + c.comp) (framedGraph c e) (forwardGraph e) := by
  refine Within.push' (k := 3 + c.comp) ?_ (by omega)
  refine ((within_split [] e).mono (by omega)).bind_ok ?_
  refine ((within_forwardLoop c _ _ _ _).mono (by omega)).bind (fun ops _ => ?_)
  exact Within.push' (within_ret (k := 0) _) (by omega)

theorem within_subsOpsLoop (l : List (Tree V)) : ∀ (index : Nat) (indices : Dict (Tree V) Nat)
    (ops : List (List Nat)),
    Within c.comp (framedSubsOpsLoop c index indices ops l) (subsOpsLoop index indices ops l) := by
  induction l with
  | nil => intro index indices ops; exact within_pure _
  | cons t l ih =>
    intro index indices ops
    unfold framedSubsOpsLoop subsOpsLoop
    refine ((within_here (k := 0) _).push' (by omega)).bind (fun args _ => ?_)
    exact ih _ _ _

theorem within_subsNew (expr : Tree V) (args : List (Tree V)) :
    Within (3 + c.comp) (framedSubsNew c expr args) (SubsFunc.new expr args) := by
  refine Within.push' (k := 2 + c.comp) ?_ (by omega)
  refine ((within_sort true args expr).mono (by omega)).bind_ok ?_
  unfold SubsFunc.new
  dsimp only
  generalize (topologicalSort true args expr).foldl subsStep ⟨[], [], args, []⟩ = s
  have h : Within (2 + c.comp) (if s.atoms ≠ [] ∧ s.nodes = [] then ret [expr]
      else frames c.comp (ret (s.atoms.filter (fun a => a ∈ s.nodeChildren))))
      (.ok (if s.atoms ≠ [] ∧ s.nodes = [] then [expr]
        else s.atoms.filter (fun a => a ∈ s.nodeChildren))) := by
    split
    · exact within_ret _
    · exact Within.push' (within_ret (k := 0) _) (by omega)
  refine h.bind_ok ?_
  refine Within.bind (k := 2 + c.comp) ((within_subsOpsLoop c _ _ _ _).mono (by omega)) ?_
  intro ops _
  exact within_pure _

omit [DecidableEq V] in
theorem within_subsCallLoop (l : List (List Nat)) : ∀ stack : List (Tree V),
    Within (2 + c.weak + c.comp) (framedSubsCallLoop c stack l) (subsCallLoop stack l) := by
  induction l with
  | nil => intro stack; exact within_pure _
  | cons is l ih =>
    intro stack
    unfold framedSubsCallLoop subsCallLoop
    refine ((within_here (k := 0) _).push' (by omega)).bind (fun children _ => ?_)
    refine ((within_tree c children).mono (by omega)).bind_ok ?_
    exact ih _

omit [DecidableEq V] in
theorem within_subsCall (f : SubsFunc V) (args : List (Tree V)) :
    Within (4 + c.weak + c.comp) (framedSubsCall c f args) (f.call args) := by
  refine Within.push' (k := 3 + c.weak + c.comp) ?_ (by omega)
  refine Within.push' (k := 2 + c.weak + c.comp) ?_ (by omega)
  unfold SubsFunc.call
  split
  · exact (within_throw PyErr.typeError).bind (fun _ h => by cases h)
  · refine (within_subsCallLoop c _ _).bind (fun stack _ => ?_)
    exact within_here _

section Eval
variable {T : Type} [HasNone T]

theorem within_leaf {k : Nat} {ev' : Evaluator Framed V T} {ev : Evaluator PyM V T}
    (values : Dict (Tree V) T) (a : Tree V) (h : Within k (ev'.evalAtom a) (ev.evalAtom a)) :
    Within (1 + k) (framedLeaf ev' values a) (ev.evalLeaf values a) := by
  unfold framedLeaf Evaluator.evalLeaf
  cases values.get? a with
  | none => exact Within.push h
  | some v =>
    simp only
    split
    · exact Within.push h
    · exact within_pure _

theorem within_atomsLoop {k : Nat} {ev' : Evaluator Framed V T} {ev : Evaluator PyM V T}
    (values : Dict (Tree V) T) (l : List (Tree V)) : ∀ stack : List T,
    (∀ a ∈ l, Within k (ev'.evalAtom a) (ev.evalAtom a)) →
    Within (1 + k) (framedAtomsLoop ev' values stack l) (ev.evalAtomsLoop values stack l) := by
  induction l with
  | nil => intro stack _; exact within_pure _
  | cons a l ih =>
    intro stack h
    unfold framedAtomsLoop Evaluator.evalAtomsLoop
    refine (within_leaf values a (h a (by simp))).bind (fun v _ => ?_)
    exact ih _ (fun b hb => h b (by simp [hb]))

theorem framed_liftPy {α : Type} (p : PyM α) : (liftPy p : PyM α) = p := by
  cases p <;> rfl

omit [HasNone T] in
theorem within_opsLoop {k : Nat} {ev' : Evaluator Framed V T} {ev : Evaluator PyM V T}
    (l : List (Tree V × List Nat)) : ∀ stack : List T,
    (∀ p ∈ l, ∀ vals, Within k (ev'.evalOperation p.1 vals) (ev.evalOperation p.1 vals)) →
    Within (1 + k + c.comp) (framedOpsLoop c ev' stack l) (ev.evalOpsLoop stack l) := by
  induction l with
  | nil => intro stack _; exact within_pure _
  | cons p l ih =>
    intro stack h
    obtain ⟨head, is⟩ := p
    unfold framedOpsLoop Evaluator.evalOpsLoop
    rw [framed_liftPy]
    refine ((within_here (k := 0) _).push' (by omega)).bind (fun vals _ => ?_)
    refine (Within.push' (h (head, is) (by simp) vals) (by omega)).bind (fun v _ => ?_)
    exact ih _ (fun q hq => h q (by simp [hq]))

end Eval
end Core

end Verif.Props
