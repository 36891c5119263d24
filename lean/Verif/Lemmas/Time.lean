import Verif.Spec.Time
import Verif.Lemmas.Size
import Verif.Lemmas.Log
import Verif.Lemmas.Diff
import Verif.Lemmas.Subs

/-!
# Step counts: helper lemmas
-/
set_option linter.unusedSectionVars false

namespace Verif
open Spec Timed
variable {V T : Type} [DecidableEq V]

/-! ### The monad -/

theorem Timed.ext' {α : Type} {x y : Timed α} (h1 : x.result = y.result) (h2 : x.steps = y.steps) :
    x = y := by
  cases x; cases y; simp_all

@[simp] theorem timed_pure {α : Type} (a : α) : (pure a : Timed α) = ⟨.ok a, 0⟩ := rfl

theorem timed_bind {α β : Type} (x : Timed α) (f : α → Timed β) :
    x >>= f = Timed.andThen x f := rfl

@[simp] theorem timed_bind_ok {α β : Type} (a : α) (n : Nat) (f : α → Timed β) :
    ((⟨.ok a, n⟩ : Timed α) >>= f) = ⟨(f a).result, n + (f a).steps⟩ := rfl

@[simp] theorem timed_bind_error {α β : Type} (e : PyErr) (n : Nat) (f : α → Timed β) :
    ((⟨.error e, n⟩ : Timed α) >>= f) = ⟨.error e, n⟩ := rfl

@[simp] theorem timed_tick_bind {β : Type} (n : Nat) (f : Unit → Timed β) :
    (tick n >>= f) = ⟨(f ()).result, n + (f ()).steps⟩ := rfl

@[simp] theorem timed_throw {α : Type} (e : PyErr) : (throw e : Timed α) = ⟨.error e, 0⟩ := rfl

@[simp] theorem timed_free_ok {α : Type} (a : α) : free (.ok a : PyM α) = ⟨.ok a, 0⟩ := rfl
@[simp] theorem timed_free_error {α : Type} (e : PyErr) : free (.error e : PyM α) = ⟨.error e, 0⟩ := rfl

@[simp] theorem timed_bind_result {α β : Type} (x : Timed α) (f : α → Timed β) :
    (x >>= f).result = x.result >>= fun a => (f a).result := by
  cases x with
  | mk r n => cases r <;> rfl

@[simp] theorem free_result {α : Type} (x : PyM α) : (free x).result = x := rfl
@[simp] theorem free_steps {α : Type} (x : PyM α) : (free x).steps = 0 := rfl

theorem timed_bind_steps_le {α β : Type} (x : Timed α) (f : α → Timed β) (n m : Nat)
    (hx : x.steps ≤ n) (hf : ∀ a, x.result = .ok a → (f a).steps ≤ m) :
    (x >>= f).steps ≤ n + m := by
  cases x with
  | mk r k =>
    cases r with
    | error e => exact Nat.le_trans hx (Nat.le_add_right _ _)
    | ok a => exact Nat.add_le_add hx (hf a rfl)

/-! ### topological_sort -/

/-- steps already accounted for in a state -/
def timePotential (heads : Bool) (s : TopoState V) : Nat :=
  (s.out.map (fun t => 2 * ((kids heads t).length + 1))).sum +
    (s.stack.map (fun f => 1 + (kids heads f.1).length + ((kids heads f.1).length - f.2.length))).sum

theorem timedTopoStep_potential {heads : Bool} {s s' : TopoState V} {n : Nat}
    (h : timedTopoStep heads s = some (s', n)) (hok : FramesOk heads s) :
    FramesOk heads s' ∧ timePotential heads s' = timePotential heads s + n := by
  have hstep : topoStep heads s = some s' := by rw [← timedTopoStep_fst, h]; rfl
  refine ⟨(topoStep_potential hstep hok).1, ?_⟩
  unfold timedTopoStep at h
  split at h
  · cases h
  · rename_i top children rest hstack
    have ht : children.length ≤ (kids heads top).length :=
      hok (top, children) (by rw [hstack]; simp)
    split at h
    · rename_i child children' hpop
      have hc := pyPop_some hpop
      have hl : children.length = children'.length + 1 := by rw [hc]; simp
      split at h
      · cases h
        simp [timePotential, hstack]; omega
      · cases h
        simp [timePotential, hstack, getChildren_eq]; omega
    · rename_i hpop
      have hnil : children = [] := by
        unfold pyPop at hpop
        cases hg : children.getLast? with
        | none => simpa using hg
        | some a => simp [hg] at hpop
      cases h
      simp [timePotential, hstack, hnil]; omega

theorem timedTopoRun_eq (heads : Bool) (s : TopoState V) (hok : FramesOk heads s) :
    (timedTopoRun heads s).1 = topoRun heads s ∧
    timePotential heads s + (timedTopoRun heads s).2 =
      ((topoRun heads s).map (fun t => 2 * ((kids heads t).length + 1))).sum + 1 := by
  fun_induction timedTopoRun heads s with
  | case1 s h =>
    have h' : topoStep heads s = none := by rw [← timedTopoStep_fst, h]; rfl
    rw [topoRun_done h']
    have : s.stack = [] := by
      unfold topoStep at h'
      split at h'
      · assumption
      · split at h'
        · split at h' <;> cases h'
        · cases h'
    simp [timePotential, this]
  | case2 s s' n h out steps hrec ih =>
    have h' : topoStep heads s = some s' := by rw [← timedTopoStep_fst, h]; rfl
    obtain ⟨h1, h2⟩ := timedTopoStep_potential h hok
    obtain ⟨i1, i2⟩ := ih h1
    rw [hrec] at i1 i2
    rw [topoRun_step h']
    exact ⟨i1, by simp only at i2 ⊢; rw [← i2, h2]; omega⟩

theorem sum_two (l : List (Tree V)) (g : Tree V → Nat) :
    (l.map (fun t => 2 * (g t + 1))).sum = 2 * (l.length + (l.map g).sum) := by
  induction l with
  | nil => rfl
  | cons t l ih => simp only [List.map_cons, List.sum_cons, List.length_cons, ih]; omega

theorem timedSort_eq (heads : Bool) (exclude : List (Tree V)) (e : Tree V) :
    timedSort heads exclude e = ⟨.ok (topologicalSort heads exclude e),
      exclude.length + 1 + 2 * ((topologicalSort heads exclude e).length +
        ((topologicalSort heads exclude e).map (fun t => (kids heads t).length)).sum)⟩ := by
  unfold timedSort topologicalSort topoInit
  by_cases he : e ∈ exclude
  · have h := timedTopoRun_eq heads (⟨exclude, [], []⟩ : TopoState V) (by intro f hf; cases hf)
    simp only [he, if_true]
    rw [← sum_two, ← h.1] at *
    obtain ⟨h1, h2⟩ := h
    simp [timePotential] at h2
    simp [Timed.mk.injEq]
    omega
  · have h := timedTopoRun_eq heads (⟨exclude, [(e, getChildren heads e)], []⟩ : TopoState V) (by
      intro f hf
      simp only [List.mem_singleton] at hf
      subst hf
      simp [getChildren_eq])
    simp only [he, if_false]
    rw [← sum_two]
    obtain ⟨h1, h2⟩ := h
    simp [timePotential, getChildren_eq] at h1 h2
    simp [timedGetChildren, getChildren_eq, h1]
    omega

/-! ### topological_split, forward_graph -/

theorem timedSplitLoop_eq (l : List (Tree V)) (s : Split V) :
    timedSplitLoop s l = ⟨.ok (l.foldl splitStep s), l.length⟩ := by
  induction l generalizing s with
  | nil => rfl
  | cons t l ih => simp [timedSplitLoop, ih]; omega

theorem timedSplit_eq (exclude : List (Tree V)) (e : Tree V) :
    timedSplit exclude e = ⟨.ok (topologicalSplit exclude e),
      exclude.length + 1 + 3 * (topologicalSort false exclude e).length +
        2 * ((topologicalSort false exclude e).map (fun t => (kids false t).length)).sum⟩ := by
  simp [timedSplit, timedSort_eq, timedSplitLoop_eq, topologicalSplit]
  omega

theorem timedForwardLoop_result (l : List (Tree V)) (index : Nat) (indices : Dict (Tree V) Nat)
    (ops : List (Tree V × List Nat)) :
    (timedForwardLoop index indices ops l).result = forwardLoop index indices ops l := by
  induction l generalizing index indices ops with
  | nil => rfl
  | cons t l ih =>
    simp only [timedForwardLoop, forwardLoop, timed_bind_result, timed_tick_bind, free_result, ih]

theorem timedForwardLoop_steps (l : List (Tree V)) (index : Nat) (indices : Dict (Tree V) Nat)
    (ops : List (Tree V × List Nat)) (h : ∃ r, forwardLoop index indices ops l = .ok r) :
    (timedForwardLoop index indices ops l).steps =
      l.length + 2 * (l.map (fun t => (kids false t).length)).sum := by
  induction l generalizing index indices ops with
  | nil => rfl
  | cons t l ih =>
    obtain ⟨r, hr⟩ := h
    simp only [forwardLoop] at hr
    simp only [timedForwardLoop]
    cases h1 : pyGet t.children 0 with
    | error err => rw [h1] at hr; cases hr
    | ok head =>
      rw [h1] at hr
      simp only [bind, Except.bind] at hr
      cases h2 : (t.children.drop 1).mapM (fun e => indices.getItem e) with
      | error err => rw [h2] at hr; cases hr
      | ok is =>
        rw [h2] at hr
        simp only [timed_free_ok, timed_tick_bind, timed_bind_ok,
          ih _ _ _ ⟨r, hr⟩, List.length_cons, List.map_cons, List.sum_cons, kids_false_eq, argsOf]
        omega

theorem leaves_add (l : List (Tree V)) :
    (l.filter isLeaf).length + (l.filter (fun t => !isLeaf t)).length = l.length := by
  induction l with
  | nil => rfl
  | cons t l ih => cases h : isLeaf t <;> simp [h] <;> omega

theorem leaves_sum (l : List (Tree V)) :
    ((l.filter (fun t => !isLeaf t)).map (fun t => (kids false t).length)).sum =
      (l.map (fun t => (kids false t).length)).sum := by
  induction l with
  | nil => rfl
  | cons t l ih =>
    cases h : isLeaf t
    · simp [h, ih]
    · have h0 : (kids false t).length = 0 := by rw [kids_false_eq, argsOf_leaf h]; rfl
      simp [h, ih, h0]

theorem timedGraph_eq (e : Tree V) :
    (timedGraph e).result = forwardGraph e ∧
    (timedGraph e).steps = 4 * (nodes e + edges e) + 1 := by
  have hr : (timedGraph e).result = forwardGraph e := by
    unfold timedGraph forwardGraph
    rw [timedSplit_eq]
    simp [timedForwardLoop_result]
    rfl
  refine ⟨hr, ?_⟩
  obtain ⟨g, hg⟩ : ∃ g, forwardGraph e = .ok g := ⟨_, forwardGraph_eq e⟩
  have hl : ∃ r, forwardLoop (topologicalSplit [] e).atoms.length
      (Dict.ofPairs ((topologicalSplit [] e).atoms.zip
        (List.range (topologicalSplit [] e).atoms.length))) []
      (topologicalSplit [] e).nodes = .ok r := by
    unfold forwardGraph at hg
    cases h : forwardLoop (topologicalSplit [] e).atoms.length
      (Dict.ofPairs ((topologicalSplit [] e).atoms.zip
        (List.range (topologicalSplit [] e).atoms.length))) []
      (topologicalSplit [] e).nodes with
    | ok r => exact ⟨r, rfl⟩
    | error err => simp only [h] at hg; cases hg
  have hst := timedForwardLoop_steps _ _ _ _ hl
  obtain ⟨r, hr⟩ := hl
  have hres := timedForwardLoop_result (topologicalSplit [] e).nodes
    (topologicalSplit [] e).atoms.length
    (Dict.ofPairs ((topologicalSplit [] e).atoms.zip
        (List.range (topologicalSplit [] e).atoms.length))) []
  rw [hr] at hres
  unfold timedGraph
  rw [timedSplit_eq]
  simp only [timed_bind_ok, timed_tick_bind]
  rw [timed_bind, Timed.andThen, hres]
  simp only [timed_pure, hst]
  rw [topologicalSplit_eq]
  simp only [leaves_sum]
  have h1 := leaves_add (topologicalSort false [] e)
  unfold nodes edges
  rw [distinct_eq]
  simp only [List.length_nil]
  omega

theorem graph_shape {e : Tree V} {g : ForwardGraph V} (h : forwardGraph e = .ok g) :
    g.atoms.length + g.operations.length = nodes e ∧
    (g.operations.map (fun o => o.2.length)).sum = edges e := by
  rw [forwardGraph_eq] at h
  cases h
  unfold nodes edges
  rw [distinct_eq]
  refine ⟨by simpa using leaves_add _, ?_⟩
  rw [← leaves_sum, List.map_map]
  congr 1
  apply List.map_congr_left
  intro t _
  simp [opOf, kids_false_eq]

/-! ### eval_forward -/

theorem untimed_atom (ev : Evaluator Timed V T) (t : Tree V) :
    (ev.evalAtom t).result = (untimed ev).evalAtom t := by
  unfold Evaluator.evalAtom
  cases t with
  | node cs => rfl
  | atom a =>
    simp only [Tree.value]
    have hl : (untimed ev).atoms.get? a.atomType =
        (ev.atoms.get? a.atomType).map (fun f v => (f v).result) := by
      unfold Dict.get? untimed
      exact lookup_map (fun (_ : AtomType) (f : V → Timed T) (v : V) => (f v).result) _ _
    rw [hl]
    cases ev.atoms.get? a.atomType <;> rfl

theorem untimed_op (ev : Evaluator Timed V T) (h : Tree V) (vs : List T) :
    (ev.evalOperation h vs).result = (untimed ev).evalOperation h vs := by
  unfold Evaluator.evalOperation
  have hl : (untimed ev).operations.get? h = (ev.operations.get? h).map
      (fun o => match o with
        | .star f => .star (fun vs => (f vs).result)
        | .seq f => .seq (fun vs => (f vs).result)) := by
    unfold Dict.get? untimed
    exact lookup_map (fun (_ : Tree V) (o : OpFunc Timed T) => (match o with
        | .star f => OpFunc.star (fun vs => (f vs).result)
        | .seq f => OpFunc.seq (fun vs => (f vs).result) : OpFunc PyM T)) _ _
  rw [hl]
  cases ev.operations.get? h with
  | none => rfl
  | some o => cases o <;> rfl

theorem untimed_leaf [HasNone T] (ev : Evaluator Timed V T) (values : Dict (Tree V) T) (t : Tree V) :
    (ev.evalLeaf values t).result = (untimed ev).evalLeaf values t := by
  unfold Evaluator.evalLeaf
  cases values.get? t with
  | none => exact untimed_atom ev t
  | some v =>
    simp only
    split
    · exact untimed_atom ev t
    · rfl

theorem leaf_within [HasNone T] {k : Nat} {ev : Evaluator Timed V T} (hk : RulesWithin k ev)
    (values : Dict (Tree V) T) (t : Tree V) : (ev.evalLeaf values t).steps ≤ k := by
  unfold Evaluator.evalLeaf
  cases values.get? t with
  | none => exact hk.atom t
  | some v =>
    simp only
    split
    · exact hk.atom t
    · exact Nat.zero_le _

theorem timedAtomsLoop_result [HasNone T] (ev : Evaluator Timed V T) (values : Dict (Tree V) T)
    (l : List (Tree V)) (stack : List T) :
    (timedAtomsLoop ev values stack l).result = (untimed ev).evalAtomsLoop values stack l := by
  induction l generalizing stack with
  | nil => rfl
  | cons t l ih =>
    simp only [timedAtomsLoop, Evaluator.evalAtomsLoop, timed_bind_result, timed_tick_bind, untimed_leaf,
      ih]

theorem timedAtomsLoop_steps [HasNone T] {k : Nat} {ev : Evaluator Timed V T} (hk : RulesWithin k ev)
    (values : Dict (Tree V) T) (l : List (Tree V)) (stack : List T) :
    (timedAtomsLoop ev values stack l).steps ≤ (k + 1) * l.length := by
  induction l generalizing stack with
  | nil => exact Nat.zero_le _
  | cons t l ih =>
    simp only [timedAtomsLoop, timed_tick_bind]
    have := timed_bind_steps_le (ev.evalLeaf values t)
      (fun value => timedAtomsLoop ev values (stack ++ [value]) l) k ((k + 1) * l.length)
      (leaf_within hk values t) (fun a _ => ih _)
    rw [List.length_cons, Nat.mul_succ]
    omega

theorem liftPy_py {α : Type} (x : PyM α) : (liftPy x : PyM α) = x := by cases x <;> rfl

theorem timedOpsLoop_result (ev : Evaluator Timed V T) (l : List (Tree V × List Nat)) (stack : List T) :
    (timedOpsLoop ev stack l).result = (untimed ev).evalOpsLoop stack l := by
  induction l generalizing stack with
  | nil => rfl
  | cons o l ih =>
    obtain ⟨h, is⟩ := o
    simp only [timedOpsLoop, Evaluator.evalOpsLoop, timed_bind_result, timed_tick_bind, untimed_op,
      ih, free_result, liftPy_py]

theorem timedOpsLoop_steps {k : Nat} {ev : Evaluator Timed V T} (hk : RulesWithin k ev)
    (l : List (Tree V × List Nat)) (stack : List T) :
    (timedOpsLoop ev stack l).steps ≤
      (k + 1) * l.length + (k + 2) * (l.map (fun o => o.2.length)).sum := by
  induction l generalizing stack with
  | nil => exact Nat.zero_le _
  | cons o l ih =>
    obtain ⟨h, is⟩ := o
    simp only [timedOpsLoop, timed_tick_bind, List.length_cons, List.map_cons, List.sum_cons]
    cases hv : is.mapM (fun i => pyGet stack i) with
    | error err =>
      simp only [timed_free_error, timed_bind_error, Nat.mul_succ, Nat.mul_add, Nat.add_mul]
      omega
    | ok vs =>
      have hlen := mapM_length _ _ _ hv
      have := timed_bind_steps_le (ev.evalOperation h vs)
        (fun value => timedOpsLoop ev (stack ++ [value]) l) _ _
        (hk.operation h vs) (fun a _ => ih _)
      simp only [timed_free_ok, timed_bind_ok]
      rw [hlen]
      simp only [Nat.mul_add, Nat.add_mul, Nat.mul_one, Nat.one_mul] at this ⊢
      omega

/-! ### SubsFunc -/

theorem timedSubsLoop_result (l : List (Tree V)) (s : SubsState V) :
    (timedSubsLoop s l).result = .ok (l.foldl subsStep s) := by
  induction l generalizing s with
  | nil => rfl
  | cons t l ih =>
    simp only [timedSubsLoop, timed_tick_bind, List.foldl_cons]
    split <;> simp [ih]

theorem timedSubsLoop_steps (l : List (Tree V)) (s : SubsState V) :
    (timedSubsLoop s l).steps ≤ l.length + 3 * (l.map (fun t => (kids true t).length)).sum := by
  induction l generalizing s with
  | nil => exact Nat.zero_le _
  | cons t l ih =>
    have := ih (subsStep s t)
    simp only [timedSubsLoop, timed_tick_bind, List.length_cons, List.map_cons, List.sum_cons,
      kids_true_eq] at *
    split
    · show 1 + (_ + (_ + (_ + _))) ≤ _; omega
    · omega

theorem timedSubsOpsLoop_result (l : List (Tree V)) (index : Nat) (indices : Dict (Tree V) Nat)
    (ops : List (List Nat)) :
    (timedSubsOpsLoop index indices ops l).result = subsOpsLoop index indices ops l := by
  induction l generalizing index indices ops with
  | nil => rfl
  | cons t l ih =>
    simp only [timedSubsOpsLoop, subsOpsLoop, timed_bind_result, timed_tick_bind, free_result, ih]

theorem timedSubsOpsLoop_steps (l : List (Tree V)) (index : Nat) (indices : Dict (Tree V) Nat)
    (ops : List (List Nat)) :
    (timedSubsOpsLoop index indices ops l).steps ≤
      l.length + (l.map (fun t => (kids true t).length)).sum := by
  induction l generalizing index indices ops with
  | nil => exact Nat.zero_le _
  | cons t l ih =>
    simp only [timedSubsOpsLoop, timed_tick_bind, List.length_cons, List.map_cons, List.sum_cons,
      kids_true_eq]
    cases h : t.children.mapM (fun c => (indices.set t index).getItem c) with
    | error err => simp only [timed_free_error, timed_bind_error]; omega
    | ok is =>
      have := ih (index + 1) (indices.set t index) (ops ++ [is])
      simp only [kids_true_eq] at this
      simp only [timed_free_ok, timed_bind_ok]; omega

theorem timedSubsCallLoop_result (l : List (List Nat)) (stack : List (Tree V)) :
    (timedSubsCallLoop stack l).result = subsCallLoop stack l := by
  induction l generalizing stack with
  | nil => rfl
  | cons is l ih =>
    simp only [timedSubsCallLoop, subsCallLoop, timed_bind_result, timed_tick_bind, free_result, ih]

/-- The price of calling a rule. -/
def callCost (f : SubsFunc V) : Nat :=
  1 + f.nargs + f.atoms.length + (f.operations.map (fun is => 2 + 2 * is.length)).sum

theorem timedSubsCallLoop_steps (l : List (List Nat)) (stack : List (Tree V)) :
    (timedSubsCallLoop stack l).steps ≤ (l.map (fun is => 2 + 2 * is.length)).sum := by
  induction l generalizing stack with
  | nil => exact Nat.zero_le _
  | cons is l ih =>
    simp only [timedSubsCallLoop, timed_tick_bind, List.map_cons, List.sum_cons]
    cases h : is.mapM (fun i => pyGet stack i) with
    | error err => simp only [timed_free_error, timed_bind_error]; omega
    | ok cs =>
      have hlen := mapM_length _ _ _ h
      have := ih (stack ++ [Tree.node cs])
      simp only [timed_free_ok, timed_bind_ok]; omega

theorem timedSubsCall_result (f : SubsFunc V) (args : List (Tree V)) :
    (timedSubsCall f args).result = f.call args := by
  unfold timedSubsCall SubsFunc.call
  simp only [timed_tick_bind]
  split
  · simp; rfl
  · simp only [timed_bind_result, timedSubsCallLoop_result,
      free_result]

theorem timedSubsCall_steps (f : SubsFunc V) (args : List (Tree V)) :
    (timedSubsCall f args).steps ≤ callCost f := by
  unfold timedSubsCall callCost
  simp only [timed_tick_bind]
  split
  · simp only [timed_throw, timed_bind_error]; omega
  · rename_i h
    have h : args.length = f.nargs := by simpa using h
    have := timed_bind_steps_le (timedSubsCallLoop (args ++ f.atoms) f.operations)
      (fun stack => free (pyLast stack)) _ 0 (timedSubsCallLoop_steps _ _) (fun a _ => Nat.le_refl _)
    show 1 + (_ + _) ≤ _
    omega

theorem subsFold_sizes (l : List (Tree V)) (s : SubsState V) :
    (l.foldl subsStep s).atoms.length + (l.foldl subsStep s).nodes.length =
      s.atoms.length + s.nodes.length + l.length ∧
    ((l.foldl subsStep s).nodes.map (fun t => (kids true t).length)).sum ≤
      (s.nodes.map (fun t => (kids true t).length)).sum +
        (l.map (fun t => (kids true t).length)).sum := by
  induction l generalizing s with
  | nil => simp
  | cons t l ih =>
    obtain ⟨h1, h2⟩ := ih (subsStep s t)
    rw [List.foldl_cons]
    have h3 : (subsStep s t).atoms.length + (subsStep s t).nodes.length =
        s.atoms.length + s.nodes.length + 1 ∧
        ((subsStep s t).nodes.map (fun t => (kids true t).length)).sum ≤
          (s.nodes.map (fun t => (kids true t).length)).sum + (kids true t).length := by
      unfold subsStep
      simp only
      split
      · split
        · simp; omega
        · simp; omega
      · simp; omega
    simp only [List.length_cons, List.map_cons, List.sum_cons]
    omega

theorem subsOpsLoop_shape (l : List (Tree V)) (index : Nat) (indices : Dict (Tree V) Nat)
    (ops r : List (List Nat)) (h : subsOpsLoop index indices ops l = .ok r) :
    (r.map (fun is => 2 + 2 * is.length)).sum = (ops.map (fun is => 2 + 2 * is.length)).sum +
      2 * (l.length + (l.map (fun t => (kids true t).length)).sum) := by
  induction l generalizing index indices ops with
  | nil =>
    simp only [subsOpsLoop] at h
    cases h
    simp
  | cons t l ih =>
    simp only [subsOpsLoop] at h
    cases hm : t.children.mapM (fun c => (indices.set t index).getItem c) with
    | error err => rw [hm] at h; cases h
    | ok is =>
      rw [hm] at h
      have hlen := mapM_length _ _ _ hm
      rw [ih _ _ _ h]
      simp [kids_true_eq, hlen]
      omega

theorem outside_eq (params : List (Tree V)) (e : Tree V) :
    outside params e = topologicalSort true params e := by
  rw [topologicalSort_eq]; rfl

theorem timedSubsNew_result (e : Tree V) (params : List (Tree V)) :
    (timedSubsNew e params).result = SubsFunc.new e params := by
  unfold timedSubsNew SubsFunc.new
  simp only [timed_bind_result, timedSort_eq, timedSubsLoop_result, timedSubsOpsLoop_result]
  rfl

/-- The atoms and nodes of `SubsFunc.__new__`. -/
theorem pruned_length (e : Tree V) (s : SubsState V) :
    (if s.atoms ≠ [] ∧ s.nodes = [] then [e]
      else s.atoms.filter (fun a => a ∈ s.nodeChildren)).length ≤ s.atoms.length := by
  split
  · rename_i h
    cases hs : s.atoms with
    | nil => exact absurd hs h.1
    | cons a as => simp
  · exact List.length_filter_le _ _

theorem timedSubsNew_steps (e : Tree V) (params : List (Tree V)) :
    (timedSubsNew e params).steps ≤ 4 * params.length + 1 + 7 * outsideSize params e := by
  unfold timedSubsNew outsideSize
  rw [outside_eq]
  simp only [timed_tick_bind, timedSort_eq, timed_bind_ok]
  have hl := timedSubsLoop_result (topologicalSort true params e) ⟨[], [], params, []⟩
  have hs := timedSubsLoop_steps (topologicalSort true params e) ⟨[], [], params, []⟩
  have hz := subsFold_sizes (topologicalSort true params e) ⟨[], [], params, []⟩
  generalize hx : timedSubsLoop ⟨[], [], params, []⟩ (topologicalSort true params e) = x at *
  obtain ⟨r, n⟩ := x
  simp only at hl
  subst hl
  generalize (topologicalSort true params e).foldl subsStep ⟨[], [], params, []⟩ = s at *
  simp only [timed_bind_ok]
  have hp := pruned_length e s
  generalize (if s.atoms ≠ [] ∧ s.nodes = [] then [e]
      else s.atoms.filter (fun a => a ∈ s.nodeChildren)) = atoms at *
  have hb := timed_bind_steps_le _ (fun operations => (⟨.ok ⟨params.length, atoms, operations⟩, 0⟩ :
    Timed (SubsFunc V))) _ 0 (timedSubsOpsLoop_steps s.nodes (params.length + atoms.length)
      ((Dict.ofPairs (params.zip (List.range params.length))).update
        (atoms.zip (List.range' params.length atoms.length))) []) (fun _ _ => Nat.le_refl _)
  simp only [List.length_nil, List.map_nil, List.sum_nil] at hz
  simp only [timed_pure]
  simp only at hs
  omega

theorem callCost_new (e : Tree V) (params : List (Tree V)) (f : SubsFunc V)
    (h : SubsFunc.new e params = .ok f) :
    callCost f ≤ 1 + params.length + 2 * outsideSize params e := by
  unfold SubsFunc.new at h
  unfold outsideSize
  rw [outside_eq]
  have hz := subsFold_sizes (topologicalSort true params e) ⟨[], [], params, []⟩
  simp only at h
  generalize (topologicalSort true params e).foldl subsStep ⟨[], [], params, []⟩ = s at *
  have hp := pruned_length e s
  generalize (if s.atoms ≠ [] ∧ s.nodes = [] then [e]
      else s.atoms.filter (fun a => a ∈ s.nodeChildren)) = atoms at *
  generalize hi : (Dict.ofPairs (params.zip (List.range params.length))).update
        (atoms.zip (List.range' params.length atoms.length)) = ind at *
  cases ho : subsOpsLoop (params.length + atoms.length) ind [] s.nodes with
  | error err => rw [ho] at h; cases h
  | ok ops =>
    rw [ho] at h
    cases h
    have := subsOpsLoop_shape _ _ _ _ _ ho
    simp only [callCost, List.length_nil, List.map_nil, List.sum_nil] at *
    omega

/-! ### diff_forward -/

theorem timedProductLoop_result (args : List (Tree V)) (zero mul : Tree V) (l : List (Tree V)) (n : Nat)
    (terms : List (Tree V)) :
    (timedProductLoop args zero mul n terms l).result = .ok (productRuleLoop args zero mul n terms l) := by
  induction l generalizing n terms with
  | nil => rfl
  | cons d l ih =>
    simp only [timedProductLoop, productRuleLoop, timed_tick_bind]
    split <;> simp [ih]

theorem productRuleLoop_len (args : List (Tree V)) (zero mul : Tree V) (l : List (Tree V)) (n : Nat)
    (terms : List (Tree V)) :
    (productRuleLoop args zero mul n terms l).length ≤ terms.length + l.length := by
  induction l generalizing n terms with
  | nil => simp [productRuleLoop]
  | cons d l ih =>
    simp only [productRuleLoop, List.length_cons]
    split
    · have := ih (n + 1) (terms ++ [mul.call (args.take n ++ [d] ++ args.drop (n + 1))])
      rw [List.length_append, List.length_singleton] at this
      omega
    · have := ih (n + 1) terms
      omega

theorem timedProductLoop_steps (args : List (Tree V)) (zero mul : Tree V) (l : List (Tree V)) (n : Nat)
    (terms : List (Tree V)) (h : n + l.length ≤ args.length) :
    (timedProductLoop args zero mul n terms l).steps ≤ l.length * (2 * args.length + 3) := by
  induction l generalizing n terms with
  | nil => exact Nat.zero_le _
  | cons d l ih =>
    simp only [List.length_cons] at h
    simp only [timedProductLoop, timed_tick_bind, List.length_cons]
    rw [Nat.succ_mul l.length]
    split
    · have := ih (n + 1) (terms ++ [mul.call (args.take n ++ [d] ++ args.drop (n + 1))]) (by omega)
      simp only [List.length_append, List.length_take, List.length_drop, List.length_singleton]
      omega
    · have := ih (n + 1) terms (by omega)
      omega

theorem timedChainLoop_result (func : Tree V) (args : List (Tree V)) (zero one mul : Tree V)
    (rules : Dict (Tree V × Nat) (SubsFunc V)) (l : List (Tree V)) (n : Nat) (terms : List (Tree V)) :
    (timedChainLoop func args zero one mul rules n terms l).result =
      chainRuleLoop func args zero one mul rules n terms l := by
  induction l generalizing n terms with
  | nil => rfl
  | cons d l ih =>
    simp only [timedChainLoop, chainRuleLoop, timed_tick_bind]
    split
    · simp only [timed_bind_result, free_result, timedSubsCall_result, ih]
    · simp only [ih]

theorem chainRuleLoop_len (func : Tree V) (args : List (Tree V)) (zero one mul : Tree V)
    (rules : Dict (Tree V × Nat) (SubsFunc V)) (l : List (Tree V)) (n : Nat)
    (terms r : List (Tree V)) (h : chainRuleLoop func args zero one mul rules n terms l = .ok r) :
    r.length ≤ terms.length + l.length := by
  induction l generalizing n terms with
  | nil =>
    simp only [chainRuleLoop] at h
    cases h
    simp
  | cons d l ih =>
    simp only [chainRuleLoop] at h
    split at h
    · cases h1 : rules.getItem (func, n) with
      | error err => rw [h1] at h; cases h
      | ok f =>
        rw [h1] at h
        simp only [bind, Except.bind] at h
        cases h2 : f.call args with
        | error err => rw [h2] at h; cases h
        | ok t =>
          rw [h2] at h
          have := ih _ _ h
          simp only [List.length_append, List.length_cons, List.length_nil] at this ⊢
          omega
    · have := ih _ _ h
      simp only [List.length_cons]
      omega

theorem timedChainLoop_steps (func : Tree V) (args : List (Tree V)) (zero one mul : Tree V)
    (rules : Dict (Tree V × Nat) (SubsFunc V)) (R : Nat)
    (hR : ∀ n f, rules.get? (func, n) = some f → callCost f ≤ R) (l : List (Tree V)) (n : Nat)
    (terms : List (Tree V)) :
    (timedChainLoop func args zero one mul rules n terms l).steps ≤
      l.length * (args.length + R + 5) := by
  induction l generalizing n terms with
  | nil => exact Nat.zero_le _
  | cons d l ih =>
    simp only [timedChainLoop, timed_tick_bind, List.length_cons, Nat.succ_mul]
    split
    · cases hf : rules.get? (func, n) with
      | none =>
        simp only [Dict.getItem, hf, timed_free_error, timed_bind_error]
        omega
      | some f =>
        simp only [Dict.getItem, hf, timed_free_ok, timed_bind_ok]
        have := timed_bind_steps_le (timedSubsCall f args) (fun diffTerm => (tick (1 + 3) >>= fun _ =>
            timedChainLoop func args zero one mul rules (n + 1)
              (terms ++ [if d ≠ one then mul.call [diffTerm, d] else diffTerm]) l))
            R (4 + l.length * (args.length + R + 5))
            (Nat.le_trans (timedSubsCall_steps f args) (hR n f hf)) (fun a _ => by
              simp only [timed_tick_bind]
              have := ih (n + 1) (terms ++ [if d ≠ one then mul.call [a, d] else a])
              omega)
        simp only [timed_tick_bind] at this
        omega
    · have := ih (n + 1) terms
      omega

theorem finish_result (p : DiffProps V) (x : PyM (List (Tree V))) (y : Timed (List (Tree V)))
    (h : y.result = x) :
    (y >>= fun diffTerms => match diffTerms with
    | [] => pure p.zero
    | [t] => pure t
    | ts => do
      tick (1 + (ts.length + 1))
      return p.add.call ts).result = (x >>= fun diffTerms => match diffTerms with
    | [] => pure p.zero
    | [t] => pure t
    | ts => pure (p.add.call ts)) := by
  obtain ⟨r, n⟩ := y
  simp only at h
  subst h
  cases r with
  | error err => rfl
  | ok ts =>
    match ts with
    | [] => rfl
    | [t] => rfl
    | t :: u :: ts => rfl

theorem timedDiffStep_result (p : DiffProps V) (func : Tree V) (args ds : List (Tree V)) :
    (timedDiffStep p func args ds).result = diffStep p func args ds := by
  unfold timedDiffStep diffStep
  refine (finish_result p _ _ rfl).trans ?_
  unfold timedDiffTerms chainRuleForward productRuleForward
  split
  · rfl
  · simp only [timed_tick_bind]
    split
    · rfl
    · split
      · rfl
      · split
        · rw [timedProductLoop_result]; rfl
        · rw [timedChainLoop_result]; rfl

theorem diffTerms_len (p : DiffProps V) (func : Tree V) (args ds r : List (Tree V))
    (h : (timedDiffTerms p func args ds).result = .ok r) : r.length ≤ 1 + ds.length := by
  unfold timedDiffTerms at h
  split at h
  · cases h; simp
  · simp only [timed_tick_bind] at h
    split at h
    · cases h; simp
    · split at h
      · cases h
        have := List.length_filter_le (fun da => decide (da ≠ p.zero)) ds
        omega
      · split at h
        · rw [timedProductLoop_result] at h
          cases h
          have := productRuleLoop_len args p.zero p.mul ds 0 []
          simp only [List.length_nil] at this
          omega
        · rw [timedChainLoop_result] at h
          have := chainRuleLoop_len _ _ _ _ _ _ _ _ _ _ h
          simp only [List.length_nil] at this
          omega

theorem timedDiffTerms_steps (p : DiffProps V) (func : Tree V) (args ds : List (Tree V)) (R k : Nat)
    (hR : ∀ n f, p.diffRules.get? (func, n) = some f → callCost f ≤ R)
    (hl : args.length = ds.length)
    (hk : func ∈ p.distributive ∨ func = p.add ∨ ds.length ≤ k) :
    (timedDiffTerms p func args ds).steps ≤ 2 + ds.length * (2 * k + R + 6) := by
  have e1 : ds.length * (2 * k + R + 6) =
      ds.length * (2 * k) + ds.length * R + ds.length * 6 := by
    rw [Nat.mul_add, Nat.mul_add]
  unfold timedDiffTerms
  split
  · show 1 + (ds.length + 1) + 0 ≤ _
    omega
  · rename_i hd
    simp only [timed_tick_bind]
    split
    · show ds.length + 0 ≤ _
      omega
    · split
      · show ds.length + (ds.length + 0) ≤ _
        omega
      · rename_i ha
        have hk : ds.length ≤ k := (hk.resolve_left hd).resolve_left ha
        have e4 : ds.length * ds.length ≤ ds.length * k := Nat.mul_le_mul (Nat.le_refl _) hk
        have e3 : ds.length * (2 * k) = 2 * (ds.length * k) := Nat.mul_left_comm ..
        split
        · have h := timedProductLoop_steps args p.zero p.mul ds 0 [] (by omega)
          rw [hl] at h
          have e2 : ds.length * (2 * ds.length + 3) = ds.length * (2 * ds.length) + ds.length * 3 := by
            rw [Nat.mul_add]
          have e5 : ds.length * (2 * ds.length) = 2 * (ds.length * ds.length) := Nat.mul_left_comm ..
          omega
        · have h := timedChainLoop_steps func args p.zero p.one p.mul p.diffRules R hR ds 0 []
          rw [hl] at h
          have e2 : ds.length * (ds.length + R + 5) = ds.length * ds.length + ds.length * R + ds.length * 5 := by
            rw [Nat.mul_add, Nat.mul_add]
          omega

theorem timedDiffStep_steps (p : DiffProps V) (func : Tree V) (args ds : List (Tree V)) (R k : Nat)
    (hR : ∀ n f, p.diffRules.get? (func, n) = some f → callCost f ≤ R)
    (hl : args.length = ds.length)
    (hk : func ∈ p.distributive ∨ func = p.add ∨ ds.length ≤ k) :
    (timedDiffStep p func args ds).steps ≤ 5 + ds.length * (2 * k + R + 7) := by
  unfold timedDiffStep
  have h := timed_bind_steps_le (timedDiffTerms p func args ds) (fun diffTerms =>
    match diffTerms with
    | [] => pure p.zero
    | [t] => pure t
    | ts => do
      tick (1 + (ts.length + 1))
      return p.add.call ts) _ (3 + ds.length) (timedDiffTerms_steps p func args ds R k hR hl hk) (by
        intro a ha
        have := diffTerms_len p func args ds a ha
        split
        · exact Nat.zero_le _
        · exact Nat.zero_le _
        · show 1 + (_ + 1) + 0 ≤ _
          omega)
  have e1 : ds.length * (2 * k + R + 7) = ds.length * (2 * k + R + 6) + ds.length :=
    Nat.mul_succ ..
  refine Nat.le_trans h ?_
  omega

theorem timedDiffLoop_result (p : DiffProps V) (ops : List (Tree V × List Nat))
    (stack diffStack : List (Tree V)) :
    (timedDiffLoop p stack diffStack ops).result = diffLoop p stack diffStack ops := by
  induction ops generalizing stack diffStack with
  | nil => rfl
  | cons o ops ih =>
    obtain ⟨func, is⟩ := o
    simp only [timedDiffLoop, diffLoop, timed_bind_result, timed_tick_bind, free_result,
      timedDiffStep_result, ih]

theorem timedDiffLoop_steps (p : DiffProps V) (R k : Nat)
    (hR : ∀ q f, p.diffRules.get? q = some f → callCost f ≤ R)
    (ops : List (Tree V × List Nat))
    (hk : ∀ o ∈ ops, o.1 ∈ p.distributive ∨ o.1 = p.add ∨ o.2.length ≤ k) (stack diffStack : List (Tree V)) :
    (timedDiffLoop p stack diffStack ops).steps ≤
      8 * ops.length + (2 * k + R + 10) * (ops.map (fun o => o.2.length)).sum := by
  induction ops generalizing stack diffStack with
  | nil => exact Nat.zero_le _
  | cons o ops ih =>
    obtain ⟨func, is⟩ := o
    have hk1 : func ∈ p.distributive ∨ func = p.add ∨ is.length ≤ k := hk (func, is) (by simp)
    have ih := ih (fun o ho => hk o (List.mem_cons_of_mem _ ho))
    simp only [timedDiffLoop, timed_tick_bind, List.length_cons, List.map_cons, List.sum_cons]
    have e0 : (2 * k + R + 10) * is.length =
        is.length * (2 * k + R + 7) + 3 * is.length := by
      rw [Nat.mul_comm is.length, ← Nat.add_mul]
    have e1 : (2 * k + R + 10) * (is.length + (ops.map (fun o => o.2.length)).sum) =
        (2 * k + R + 10) * is.length + (2 * k + R + 10) * (ops.map (fun o => o.2.length)).sum :=
      Nat.mul_add ..
    cases h1 : is.mapM (fun i => pyGet stack i) with
    | error err => simp only [timed_free_error, timed_bind_error]; omega
    | ok args =>
      simp only [timed_free_ok, timed_bind_ok]
      have hl1 := mapM_length _ _ _ h1
      cases h2 : is.mapM (fun i => pyGet diffStack i) with
      | error err => simp only [timed_free_error, timed_bind_error]; omega
      | ok ds =>
        have hl2 := mapM_length _ _ _ h2
        simp only [timed_free_ok, timed_bind_ok]
        have hs := timedDiffStep_steps p func args ds R k (fun n f => hR (func, n) f) (by omega)
          (by rw [← hl2]; exact hk1)
        have := timed_bind_steps_le (timedDiffStep p func args ds) (fun derivative =>
          timedDiffLoop p (stack ++ [func.call args]) (diffStack ++ [derivative]) ops) _ _ hs
          (fun a _ => ih _ _)
        rw [← hl2] at this
        omega

theorem timedDiff_result (e x : Tree V) (p : DiffProps V) :
    (timedDiff e x p).result = diffForward e x p := by
  unfold timedDiff diffForward
  simp only [timed_bind_result, (timedGraph_eq e).1, timedDiffLoop_result, free_result]
  rfl

theorem timedDiff_steps (e x : Tree V) (p : DiffProps V) (R k : Nat)
    (hk : ∀ h args, ArgSub e (.node (h :: args)) →
      h ∈ p.distributive ∨ h = p.add ∨ args.length ≤ k)
    (hR : ∀ q f, p.diffRules.get? q = some f → callCost f ≤ R) :
    (timedDiff e x p).steps ≤ 1 + 12 * nodes e + (2 * k + R + 14) * edges e := by
  unfold timedDiff
  obtain ⟨h1, h2⟩ := timedGraph_eq e
  obtain ⟨g, hg⟩ : ∃ g, forwardGraph e = .ok g := ⟨_, forwardGraph_eq e⟩
  obtain ⟨h3, h4⟩ := graph_shape hg
  generalize timedGraph e = y at *
  obtain ⟨r, n⟩ := y
  simp only at h1 h2
  rw [hg] at h1
  subst h1
  simp only [timed_bind_ok, timed_tick_bind]
  have hops : ∀ o ∈ g.operations, o.1 ∈ p.distributive ∨ o.1 = p.add ∨ o.2.length ≤ k := by
    rw [forwardGraph_eq] at hg
    cases hg
    intro o ho
    simp only [List.mem_map, List.mem_filter] at ho
    obtain ⟨t, ⟨ht, hl⟩, rfl⟩ := ho
    cases t with
    | atom a => simp [isLeaf, Tree.children] at hl
    | node cs =>
      cases cs with
      | nil => simp [isLeaf, Tree.children] at hl
      | cons h args =>
        have := hk h args (reach_topo.1 ht)
        simpa [opOf, headOf, argsOf, Tree.children] using this
  have := timed_bind_steps_le _ (fun ds : List (Tree V) => free (pyLast ds)) _ 0
    (timedDiffLoop_steps p R k hR g.operations hops g.atoms
      (g.atoms.map (fun expr => if expr = x then p.one else p.zero))) (fun _ _ => Nat.le_refl _)
  rw [h4] at this
  have e1 : (2 * k + R + 14) * edges e = (2 * k + R + 10) * edges e + 4 * edges e := by
    rw [← Nat.add_mul]
  omega

end Verif
