import Verif.Lemmas.FramesRules
import Verif.Props.SymPy

/-!
# Lemmas for C70: expressions that are too deep
-/

namespace Verif.Spec
open Framed
variable {α β : Type}

theorem Exceeds.mono {j k : Nat} {x : Framed α} (h : Exceeds k x) (hj : j ≤ k) : Exceeds j x :=
  fun m hm => h m (Nat.le_trans hm hj)

theorem Exactly.exceeds {k n : Nat} {x : Framed α} {r : PyM α} (h : Exactly k x r) (hn : n < k) :
    Exceeds n x := fun m hm => by rw [h m, if_neg (by omega)]

theorem exceeds_frame (x : Framed α) : Exceeds 0 (frame x) := fun m hm => by
  unfold Framed.frame Framed.frames
  rw [if_neg (by omega)]

theorem Exceeds.push {j n : Nat} {x : Framed α} (h : Exceeds n x) : Exceeds (j + n) (frames j x) :=
  fun m hm => by
    unfold Framed.frames
    split
    · exact h _ (by omega)
    · rfl

theorem Exceeds.push_le {j n : Nat} {x : Framed α} (h : Exceeds n x) : Exceeds n (frames j x) :=
  h.push.mono (by omega)

theorem Exceeds.bind_left {n : Nat} {x : Framed α} (h : Exceeds n x) (f : α → Framed β) :
    Exceeds n (x >>= f) := fun m hm => by
  show Framed.andThen x f m = none
  unfold Framed.andThen
  rw [h m hm]

theorem Exceeds.bind_right {k n : Nat} {x : Framed α} {a : α} {f : α → Framed β}
    (hx : Within k x (.ok a)) (h : Exceeds n (f a)) : Exceeds n (x >>= f) := fun m hm => by
  show Framed.andThen x f m = none
  unfold Framed.andThen
  rcases hx.sound m with h1 | h1 <;> rw [h1]
  exact h m hm

end Verif.Spec

namespace Verif.Props
open Spec Framed

variable (c : FrameUse)

theorem depth_tower {f x : Expr} (hf : depth f = 0) (hx : depth x = 0) (n : Nat) :
    depth (tower f x n) = n := by
  induction n with
  | zero => exact hx
  | succ n ih =>
    unfold tower
    rw [depth, depthList, depthList, depthList, ih, hf]
    omega

theorem argDepth_tower {f x : Expr} (hx : argDepth x = 0) (n : Nat) :
    argDepth (tower f x n) = n := by
  induction n with
  | zero => exact hx
  | succ n ih =>
    unfold tower
    rw [argDepth, argDepthArgs, argDepthArgs, ih]
    omega

theorem proper_tower {f x : Expr} (hf : Proper f) (hx : Proper x) (n : Nat) :
    Proper (tower f x n) := by
  induction n with
  | zero => exact hx
  | succ n ih =>
    intro hr
    cases hr with
    | down _ hc hr =>
      have hc' : _ ∈ [f, tower f x n] := hc
      rw [List.mem_cons, List.mem_singleton] at hc'
      rcases hc' with rfl | rfl
      · exact hf hr
      · exact ih hr

theorem argSub_of_leaf {x t : Expr} (hx : x.children = []) (h : ArgSub x t) : t = x := by
  cases h with
  | refl _ => rfl
  | down _ hc _ =>
    cases x with
    | atom a => cases hc
    | node cs => cases cs with
      | nil => cases hc
      | cons _ _ => cases hx

theorem argSub_tower {f x t : Expr} (hx : x.children = []) {n : Nat} (h : ArgSub (tower f x n) t) :
    ∃ m, t = tower f x m := by
  induction n with
  | zero => exact ⟨0, argSub_of_leaf hx h⟩
  | succ n ih =>
    unfold tower at h
    rcases argSub_node.1 h with rfl | ⟨d, hd, h⟩
    · exact ⟨n + 1, rfl⟩
    · simp only [List.mem_cons, List.not_mem_nil, or_false] at hd
      subst hd
      exact ih h

theorem treeStr_proper {t : Expr} (h : Proper t) : ∃ s, treeStr t = .ok s := by
  obtain ⟨s, hs⟩ := shows_total t h
  exact ⟨s, treeStr_iff.2 hs⟩

/-! ### A call without arguments -/

section Nullary
variable {V T : Type} [DecidableEq V] [HasNone T]

theorem graph_nullary (hd : Tree V) :
    forwardGraph (.node [hd]) = .ok ⟨[], [hd], [(hd, [])]⟩ := by
  have h : topologicalSort false [] (.node [hd] : Tree V) = [.node [hd]] := by
    rw [topologicalSort_eq]
    simp [postorder, postorderList, keepFirst]
  rw [forwardGraph_eq, h]
  rfl

theorem evalForward_nullary (ev : Evaluator PyM V T) (hd : Tree V) (values : Dict (Tree V) T) :
    ev.evalForward (.node [hd]) values = ev.evalOperation hd [] := by
  unfold Evaluator.evalForward
  simp only [framed_liftPy, graph_nullary]
  show (ev.evalOpsLoop [] [(hd, [])] >>= fun st => pyLast st) = _
  unfold Evaluator.evalOpsLoop
  simp only [framed_liftPy]
  show ((ev.evalOperation hd [] >>= fun v => ev.evalOpsLoop [v] []) >>= fun st => pyLast st) = _
  cases ev.evalOperation hd [] <;> rfl

theorem exceeds_evaluate {n : Nat} {ev : Evaluator Framed V T} {hd : Tree V}
    (values : Dict (Tree V) T) (h : Exceeds n (ev.evalOperation hd [])) :
    Exceeds n (framedEvaluate c ev (.node [hd]) values) := by
  refine Exceeds.push_le (Exceeds.push_le (Exceeds.push_le ?_))
  have hg := within_graph c (.node [hd] : Tree V)
  rw [graph_nullary] at hg
  refine Exceeds.bind_right hg ?_
  refine Exceeds.bind_right (k := 0) (a := ([] : List T)) (within_pure _) ?_
  refine Exceeds.bind_left ?_ _
  unfold framedOpsLoop
  refine Exceeds.bind_right (k := c.comp) (a := ([] : List T))
    (Within.push' (within_here (k := 0) _) (by omega)) ?_
  exact Exceeds.bind_left (Exceeds.push_le h) _

end Nullary

theorem exceeds_symEval {T : Type} [HasNone T] {n : Nat} {ev : Evaluator Framed Val T} {hd : Expr}
    (values : Option (Dict Expr T)) (h : Exceeds n (ev.evalOperation hd [])) :
    Exceeds n (framedSymEval c ev (.node [hd]) values) := by
  refine Exceeds.push_le (Exceeds.push_le ?_)
  cases values with
  | none => exact Exceeds.bind_right (within_ret (k := 0) _) (exceeds_evaluate c _ h)
  | some v =>
    exact Exceeds.bind_right (k := c.comp) (Within.push' (within_ret (k := 0) _) (by omega))
      (exceeds_evaluate c _ h)

/-! ### SymPy -/

theorem exceeds_sympyTower (N : Nat) :
    Exceeds ((2 + c.comp) * N) (framedFromSympyCache c (sympyTower N) Dict.empty) := by
  induction N with
  | zero =>
    unfold sympyTower framedFromSympyCache
    exact exceeds_frame _
  | succ N ih =>
    unfold sympyTower framedFromSympyCache
    have e : (2 + c.comp) * (N + 1) = 1 + (1 + (c.comp + (2 + c.comp) * N)) := by
      rw [Nat.mul_add]; omega
    rw [e]
    refine Exceeds.push ?_
    unfold framedWithCache
    refine Exceeds.bind_left ?_ _
    refine Exceeds.push ?_
    refine Exceeds.bind_left ?_ _
    refine Exceeds.push ?_
    unfold framedFromSympyCacheList
    exact Exceeds.bind_left ih _

theorem converts_tower (N : Nat) :
    Converts (sympyTower N) (tower Expr.sinH Expr.zero N) := by
  induction N with
  | zero => exact .int
  | succ N ih => exact .sin (by simp) (.cons ih .nil)

end Verif.Props
