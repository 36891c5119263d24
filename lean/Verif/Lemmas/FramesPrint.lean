import Verif.Lemmas.FramesOps
import Verif.Props.Repr
import Verif.Props.LLVMErrors
import Verif.Props.Print

/-!
# Lemmas for C70: the functions that recurse, printing, evaluators, code generation
-/

namespace Verif.Props
open Spec Framed

/-! ### Thresholds -/

/-- A bound that grows by `a` with every level. -/
def linear (a b d : Nat) : Nat := a * d + b

theorem linear_succ (a b d : Nat) : linear a b (1 + d) = a + linear a b d := by
  unfold linear; rw [Nat.mul_add, Nat.mul_one, Nat.add_assoc]

theorem linear_mono {a b d d' : Nat} (h : d ≤ d') : linear a b d ≤ linear a b d' :=
  Nat.add_le_add_right (Nat.mul_le_mul_left a h) b

theorem linear_max (a b d d' : Nat) : linear a b (max d d') = max (linear a b d) (linear a b d') := by
  rcases Nat.le_total d d' with h | h
  · rw [Nat.max_eq_right h, Nat.max_eq_right (linear_mono h)]
  · rw [Nat.max_eq_left h, Nat.max_eq_left (linear_mono h)]

theorem bind_ok_inv {α β : Type} {p : PyM α} {q : α → PyM β} {b : β} (h : (p >>= q) = .ok b) :
    ∃ a, p = .ok a ∧ q a = .ok b := by
  cases p with
  | error e => cases h
  | ok a => exact ⟨a, rfl, h⟩

/-- The largest threshold in a list, 0 for the empty list. -/
theorem list_threshold {a b : Nat} {V : Type} (t : Tree V) (ts : List (Tree V)) (k : Nat)
    (h1 : k ≤ linear a b (depthList ts)) (h2 : ts = [] ∨ k = linear a b (depthList ts)) :
    max (linear a b (depth t)) k = linear a b (depthList (t :: ts)) := by
  rw [depthList, linear_max]
  rcases h2 with rfl | h2
  · rw [depthList] at *
    have := linear_mono (a := a) (b := b) (Nat.zero_le (depth t))
    omega
  · rw [h2]

/-! ### `str` and `repr` of trees -/

variable (c : FrameUse)

/-- The frames that `str` needs for a tree of depth `d`. -/
def strBound (c : FrameUse) (d : Nat) : Nat := linear (c.slot + 1) (3 * c.slot + 2) d
/-- The frames that `repr` needs for a tree of depth `d`. -/
def reprBound (c : FrameUse) (d : Nat) : Nat := linear (c.slot + 1) (3 * c.slot + 3) d

mutual
theorem exactly_str (t : Tree Val) (s : String) (h : treeStr t = .ok s) :
    Exactly (strBound c (depth t)) (framedStr c t) (.ok s) := by
  match t with
  | .atom a =>
    rw [treeStr] at h; cases h
    unfold framedStr
    refine Exactly.push' (k := 1 + (c.slot + (1 + c.slot))) ?_
      (by unfold strBound linear depth; omega)
    refine Exactly.push' (k := c.slot + (1 + c.slot)) ?_ rfl
    refine Exactly.push' (k := 1 + c.slot) ?_ rfl
    refine Exactly.push' (k := c.slot) ?_ rfl
    exact (exactly_outside _).bind' (exactly_ret _) (by omega)
  | .node [] => rw [treeStr] at h; cases h
  | .node (hd :: args) =>
    rw [treeStr] at h
    obtain ⟨argstrs, h1, h⟩ := bind_ok_inv h
    obtain ⟨hs, h2, h⟩ := bind_ok_inv h
    cases h
    obtain ⟨k, hk, hk1, hk2⟩ := exactly_strList args argstrs h1
    unfold framedStr
    have h3 := list_threshold hd args k hk1 hk2
    rw [depth, strBound, linear_succ, ← h3]
    refine Exactly.push' (k := 1 + max k (strBound c (depth hd))) ?_ (by unfold strBound; omega)
    refine Exactly.push' (k := max k (strBound c (depth hd))) ?_ rfl
    refine hk.bind' (k := strBound c (depth hd)) ?_ rfl
    exact (exactly_str hd hs h2).bind' (exactly_pure _) (by omega)
theorem exactly_strList (ts : List (Tree Val)) (ss : List String) (h : treeStrList ts = .ok ss) :
    ∃ k, Exactly k (framedStrList c ts) (.ok ss) ∧ k ≤ strBound c (depthList ts) ∧
      (ts = [] ∨ k = strBound c (depthList ts)) := by
  match ts with
  | [] =>
    rw [treeStrList] at h; cases h
    exact ⟨0, by unfold framedStrList; exact exactly_ret [], Nat.zero_le _, .inl rfl⟩
  | t :: ts =>
    rw [treeStrList] at h
    obtain ⟨s, h1, h⟩ := bind_ok_inv h
    obtain ⟨ss', h2, h⟩ := bind_ok_inv h
    cases h
    obtain ⟨k, hk, hk1, hk2⟩ := exactly_strList ts ss' h2
    have h3 := list_threshold t ts k hk1 hk2
    refine ⟨strBound c (depthList (t :: ts)), ?_, Nat.le_refl _, .inr rfl⟩
    unfold framedStrList
    exact (exactly_str t s h1).bind' (hk.bind' (exactly_pure _) rfl)
      (by rw [strBound, ← h3]; unfold strBound; omega)
end

mutual
theorem exactly_repr (printable : Char → Bool) (t : Tree Val) (s : String)
    (h : treeRepr printable t = .ok s) :
    Exactly (reprBound c (depth t)) (framedRepr c printable t) (.ok s) := by
  match t with
  | .atom a =>
    rw [treeRepr] at h; cases h
    unfold framedRepr
    refine Exactly.push' (k := 1 + (c.slot + (1 + (c.slot + 1)))) ?_
      (by unfold reprBound linear depth; omega)
    refine Exactly.push' (k := c.slot + (1 + (c.slot + 1))) ?_ rfl
    refine Exactly.push' (k := 1 + (c.slot + 1)) ?_ rfl
    refine Exactly.push' (k := c.slot + 1) ?_ rfl
    refine Exactly.bind' (j := c.slot + 1) (a := ()) ?_ ((exactly_outside c.slot).bind' (exactly_pure _) rfl)
      (by omega)
    exact Exactly.push' (k := 1) (Exactly.push' (exactly_ret ()) rfl) rfl
  | .node [] => rw [treeRepr] at h; cases h
  | .node (hd :: args) =>
    rw [treeRepr] at h
    obtain ⟨argstrs, h1, h⟩ := bind_ok_inv h
    cases h
    obtain ⟨k, hk, hk1, hk2⟩ := exactly_reprList printable (hd :: args) argstrs h1
    rcases hk2 with hk2 | rfl
    · cases hk2
    unfold framedRepr
    rw [depth, reprBound, linear_succ]
    refine Exactly.push' (k := 1 + reprBound c (depthList (hd :: args))) ?_
      (by unfold reprBound; omega)
    refine Exactly.push' (k := reprBound c (depthList (hd :: args))) ?_ rfl
    exact hk.bind' (exactly_pure _) (by omega)
theorem exactly_reprList (printable : Char → Bool) (ts : List (Tree Val)) (ss : List String)
    (h : treeReprList printable ts = .ok ss) :
    ∃ k, Exactly k (framedReprList c printable ts) (.ok ss) ∧ k ≤ reprBound c (depthList ts) ∧
      (ts = [] ∨ k = reprBound c (depthList ts)) := by
  match ts with
  | [] =>
    rw [treeReprList] at h; cases h
    exact ⟨0, by unfold framedReprList; exact exactly_ret [], Nat.zero_le _, .inl rfl⟩
  | t :: ts =>
    rw [treeReprList] at h
    obtain ⟨s, h1, h⟩ := bind_ok_inv h
    obtain ⟨ss', h2, h⟩ := bind_ok_inv h
    cases h
    obtain ⟨k, hk, hk1, hk2⟩ := exactly_reprList printable ts ss' h2
    have h3 := list_threshold t ts k hk1 hk2
    refine ⟨reprBound c (depthList (t :: ts)), ?_, Nat.le_refl _, .inr rfl⟩
    unfold framedReprList
    exact (exactly_repr printable t s h1).bind' (hk.bind' (exactly_pure _) rfl)
      (by rw [reprBound, ← h3]; unfold reprBound; omega)
end

mutual
/-- With that many frames `str` also ends if it raises an exception. -/
theorem within_str (t : Tree Val) : Within (strBound c (depth t)) (framedStr c t) (treeStr t) := by
  match t with
  | .atom a => exact (exactly_str c (.atom a) _ (by rw [treeStr])).within
  | .node [] =>
    unfold framedStr; rw [treeStr]
    refine Within.push' (k := 1) (Within.push' (within_throw (k := 0) _) (by omega)) ?_
    unfold strBound linear; omega
  | .node (hd :: args) =>
    unfold framedStr; rw [treeStr]
    rw [depth, strBound, linear_succ, depthList, linear_max]
    change Within (c.slot + 1 + max (strBound c (depth hd)) (strBound c (depthList args))) _ _
    refine Within.push' (k := 1 + max (strBound c (depth hd)) (strBound c (depthList args))) ?_ (by omega)
    refine Within.push' (k := max (strBound c (depth hd)) (strBound c (depthList args))) ?_ (by omega)
    refine ((within_strList args).mono (by omega)).bind (fun _ _ => ?_)
    exact ((within_str hd).mono (by omega)).bind (fun _ _ => within_pure _)
theorem within_strList (ts : List (Tree Val)) :
    Within (strBound c (depthList ts)) (framedStrList c ts) (treeStrList ts) := by
  match ts with
  | [] => unfold framedStrList; rw [treeStrList]; exact within_pure _
  | t :: ts =>
    unfold framedStrList; rw [treeStrList, depthList, strBound, linear_max]
    change Within (max (strBound c (depth t)) (strBound c (depthList ts))) _ _
    refine ((within_str t).mono (by omega)).bind (fun _ _ => ?_)
    exact ((within_strList ts).mono (by omega)).bind (fun _ _ => within_pure _)
end

/-! ### `eval_recursive` -/

section Recursive
variable {V T : Type} [DecidableEq V]

/-- The frames that the arguments need, which are evaluated in a comprehension. -/
def argsBound (c : FrameUse) (k : Nat) : Nat → Nat
  | 0 => 0
  | d + 1 => linear (1 + c.comp) (2 + k) d

theorem argsBound_mono (k : Nat) {d d' : Nat} (h : d ≤ d') : argsBound c k d ≤ argsBound c k d' := by
  match d, d' with
  | 0, _ => exact Nat.zero_le _
  | d + 1, 0 => omega
  | d + 1, d' + 1 => exact linear_mono (by omega)

theorem argsBound_max (k d d' : Nat) :
    argsBound c k (max d d') = max (argsBound c k d) (argsBound c k d') := by
  rcases Nat.le_total d d' with h | h
  · rw [Nat.max_eq_right h, Nat.max_eq_right (argsBound_mono c k h)]
  · rw [Nat.max_eq_left h, Nat.max_eq_left (argsBound_mono c k h)]

theorem argsBound_eq (k d : Nat) (hc : c.comp ≤ 1) :
    linear (1 + c.comp) (2 + k) d = 1 + max (c.comp + argsBound c k d) (1 + k) := by
  cases d with
  | zero => rw [argsBound]; unfold linear; omega
  | succ d => rw [argsBound, Nat.add_comm d 1, linear_succ]; unfold linear; omega

mutual
theorem within_evalRecursive {k : Nat} {ev' : Evaluator Framed V T} {ev : Evaluator PyM V T}
    (values : Dict (Tree V) T) (e : Tree V) (h : RulesNeed k e ev' ev) (hc : c.comp ≤ 1) :
    Within (linear (1 + c.comp) (2 + k) (argDepth e)) (framedEvalRecursive c ev' values e)
      (ev.evalRecursive values e) := by
  match e with
  | .atom a =>
    unfold framedEvalRecursive Evaluator.evalRecursive
    rw [argDepth]
    refine Within.push' (k := 1 + k) ?_ (by unfold linear; omega)
    cases values.get? (.atom a) with
    | some v => exact within_ret _
    | none => exact (h.atom _ (.refl (by simp)) rfl).push
  | .node [] =>
    unfold framedEvalRecursive Evaluator.evalRecursive
    rw [argDepth]
    refine Within.push' (k := 1 + k) ?_ (by unfold linear; omega)
    cases values.get? (.node []) with
    | some v => exact within_ret _
    | none => exact (h.atom _ (.refl (by simp)) rfl).push
  | .node (hd :: args) =>
    unfold framedEvalRecursive Evaluator.evalRecursive
    rw [argDepth, argsBound_eq c k _ hc]
    have h1 := within_evalRecursiveList values args (fun t ht => ⟨fun a ha => h.atom a
      (.down (by simp) (by simpa [kids] using ht) ha), fun hd' args' vals ha => h.operation hd' args' vals
      (.down (by simp) (by simpa [kids] using ht) ha)⟩) hc
    refine Within.push' (k := max (c.comp + argsBound c k (argDepthArgs args)) (1 + k)) ?_ (by omega)
    cases values.get? (.node (hd :: args)) with
    | some v => exact within_ret _
    | none =>
      refine (Within.push' h1 (by omega)).bind (fun vals _ => ?_)
      exact Within.push' (h.operation hd args vals (.refl (by simp))) (by omega)
theorem within_evalRecursiveList {k : Nat} {ev' : Evaluator Framed V T} {ev : Evaluator PyM V T}
    (values : Dict (Tree V) T) (ts : List (Tree V)) (h : ∀ t ∈ ts, RulesNeed k t ev' ev)
    (hc : c.comp ≤ 1) :
    Within (argsBound c k (argDepthArgs ts)) (framedEvalRecursiveList c ev' values ts)
      (ev.evalRecursiveList values ts) := by
  match ts with
  | [] => unfold framedEvalRecursiveList Evaluator.evalRecursiveList; exact within_pure _
  | t :: ts =>
    unfold framedEvalRecursiveList Evaluator.evalRecursiveList
    rw [argDepthArgs, argsBound_max, Nat.add_comm 1]
    refine ((within_evalRecursive values t (h t (by simp)) hc).mono
      (Nat.le_max_left _ _)).bind (fun v _ => ?_)
    exact ((within_evalRecursiveList values ts (fun u hu => h u (by simp [hu])) hc).mono
      (Nat.le_max_right _ _)).bind (fun vs _ => within_pure _)
end

mutual
/-- The frames are needed if no value is given and the rules need `k` frames and return. -/
theorem exactly_evalRecursive {k : Nat} {ev' : Evaluator Framed V T} {ev : Evaluator PyM V T}
    (values : Dict (Tree V) T) (e : Tree V) (h : RulesExactly k e ev' ev) (hc : c.comp ≤ 1)
    (hv : ∀ t, ArgSub e t → values.get? t = none) (v : T) (hr : ev.evalRecursive values e = .ok v) :
    Exactly (linear (1 + c.comp) (2 + k) (argDepth e)) (framedEvalRecursive c ev' values e) (.ok v) := by
  match e with
  | .atom a =>
    unfold Evaluator.evalRecursive at hr
    unfold framedEvalRecursive
    rw [hv _ (.refl (by simp))] at hr ⊢
    rw [argDepth]
    have h1 := h.atom _ (.refl (by simp)) rfl
    rw [show ev.evalAtom _ = .ok v from hr] at h1
    exact Exactly.push' (k := 1 + k) h1.push (by unfold linear; omega)
  | .node [] =>
    unfold Evaluator.evalRecursive at hr
    unfold framedEvalRecursive
    rw [hv _ (.refl (by simp))] at hr ⊢
    rw [argDepth]
    have h1 := h.atom _ (.refl (by simp)) rfl
    rw [show ev.evalAtom _ = .ok v from hr] at h1
    exact Exactly.push' (k := 1 + k) h1.push (by unfold linear; omega)
  | .node (hd :: args) =>
    unfold Evaluator.evalRecursive at hr
    unfold framedEvalRecursive
    rw [hv _ (.refl (by simp))] at hr ⊢
    obtain ⟨vals, hr1, hr2⟩ := bind_ok_inv hr
    rw [argDepth, argsBound_eq c k _ hc]
    have h1 := exactly_evalRecursiveList values args (fun t ht => ⟨fun a ha => h.atom a
      (.down (by simp) (by simpa [kids] using ht) ha), fun hd' args' vals ha => h.operation hd' args' vals
      (.down (by simp) (by simpa [kids] using ht) ha)⟩) hc
      (fun t ht u hu => hv u (.down (by simp) (by simpa [kids] using ht) hu)) vals hr1
    refine Exactly.push' (k := max (c.comp + argsBound c k (argDepthArgs args)) (1 + k)) ?_ rfl
    refine Exactly.bind' (Exactly.push' h1 rfl) (k := 1 + k) ?_ rfl
    have h2 := h.operation hd args vals (.refl (by simp))
    rw [hr2] at h2
    exact h2.push
theorem exactly_evalRecursiveList {k : Nat} {ev' : Evaluator Framed V T} {ev : Evaluator PyM V T}
    (values : Dict (Tree V) T) (ts : List (Tree V)) (h : ∀ t ∈ ts, RulesExactly k t ev' ev)
    (hc : c.comp ≤ 1) (hv : ∀ t ∈ ts, ∀ u, ArgSub t u → values.get? u = none) (vs : List T)
    (hr : ev.evalRecursiveList values ts = .ok vs) :
    Exactly (argsBound c k (argDepthArgs ts)) (framedEvalRecursiveList c ev' values ts) (.ok vs) := by
  match ts with
  | [] =>
    unfold Evaluator.evalRecursiveList at hr
    cases hr
    unfold framedEvalRecursiveList; exact exactly_pure _
  | t :: ts =>
    unfold Evaluator.evalRecursiveList at hr
    obtain ⟨v, hr1, hr⟩ := bind_ok_inv hr
    obtain ⟨vs', hr2, hr⟩ := bind_ok_inv hr
    cases hr
    unfold framedEvalRecursiveList
    rw [argDepthArgs, argsBound_max, Nat.add_comm 1]
    refine (exactly_evalRecursive values t (h t (by simp)) hc (hv t (by simp)) v hr1).bind'
      (k := argsBound c k (argDepthArgs ts)) ?_ rfl
    exact (exactly_evalRecursiveList values ts (fun u hu => h u (by simp [hu])) hc
      (fun u hu => hv u (by simp [hu])) vs' hr2).bind' (exactly_pure _) (by omega)
end

end Recursive
end Verif.Props
