import Verif.Lemmas.Client
import Verif.Lemmas.ClientDiff
import Verif.Props.Subs
import Verif.Props.DiffExact

/-!
# C67: the algorithms on objects

What the functions on values of `Model/Tree.lean` and `Model/Diff.lean` say is what the code on objects
does, in a process with any number of threads and a garbage collector.
-/

set_option linter.unusedSectionVars false

namespace Verif.Props
open Verif.Store Spec
variable {V K : Type} [DecidableEq K] [PyVal V K] {R R' : Key K → Prop} {α : Type}

/-! ### What a held object stands for -/

/-- Whatever has happened in the process, every object that a program holds stands for exactly one
value: the hypothesis `Mean` of the theorems below can always be met, and in one way only. -/
theorem C67_objects_have_values (s : St V K) (hs : List (Option Nat)) (hist : History R s)
    (holds : Holds s hs) :
    (∃ vals : List (Ex K), Mean s.heap hs vals) ∧
    ∀ h i, held hs h = some i → ∃ x : Ex K, Is s.heap i x ∧ ∀ y, Is s.heap i y → y = x := by
  obtain ⟨hi, _⟩ := hist.inv
  have key : ∀ h i, held hs h = some i → ∃ x : Ex K, Is s.heap i x := by
    intro h i hh
    obtain ⟨o, ho⟩ := Option.isSome_iff_exists.1 (hi.roots i (holds h i hh))
    cases o with
    | atom ty v => exact ⟨.atom ⟨ty, PyVal.key v⟩, v, ho, rfl⟩
    | treeAtom a =>
      obtain ⟨t, ht⟩ := Stands.exists hi (i + 1) i (Nat.lt_succ_self i) (Or.inl ⟨a, ho⟩)
      exact ⟨.tree t, ht⟩
    | tree cs =>
      obtain ⟨t, ht⟩ := Stands.exists hi (i + 1) i (Nat.lt_succ_self i) (Or.inr ⟨cs, ho⟩)
      exact ⟨.tree t, ht⟩
    | sym c j =>
      obtain ⟨t, ht⟩ := Stands.exists hi (j + 1) j (Nat.lt_succ_self j) (hi.typed i _ ho)
      exact ⟨.sym c t, j, ho, ht⟩
  refine ⟨?_, fun h i hh => ?_⟩
  · have : ∀ l : List (Option Nat), (∀ i, some i ∈ l → ∃ x : Ex K, Is s.heap i x) →
        ∃ vals : List (Ex K), Mean s.heap l vals := by
      intro l
      induction l with
      | nil => intro _; exact ⟨[], rfl, by simp [held]⟩
      | cons a l ih =>
        intro hl
        obtain ⟨vals, h1, h2⟩ := ih (fun i hi => hl i (by simp [hi]))
        have hx : ∃ x : Ex K, ∀ i, a = some i → Is s.heap i x := by
          cases a with
          | none => exact ⟨.tree (.node []), by simp⟩
          | some i =>
            obtain ⟨x, hx⟩ := hl i (by simp)
            exact ⟨x, fun j hj => by cases hj; exact hx⟩
        obtain ⟨x, hx⟩ := hx
        refine ⟨x :: vals, by simp [h1], ?_⟩
        intro h i hh
        cases h with
        | zero => exact ⟨x, rfl, hx i (by simpa [held] using hh)⟩
        | succ h => exact h2 h i hh
    refine this hs (fun i hi' => ?_)
    obtain ⟨n, hn, he⟩ := List.mem_iff_getElem.1 hi'
    exact key n i (by simp [held, List.getElem?_eq_getElem hn, he])
  · obtain ⟨x, hx⟩ := key h i hh
    exact ⟨x, hx, fun y hy => hy.unique hx⟩

/-! ### Any program -/

/-- **C67.** Thread `me` of a process runs a program on objects while the other threads and the
collector do as they please (`Exec`).  If at no time there has been a race for an object that `me` has
got or for one that such an object is made of (`Clean`), the program ends with the result that it has on
values, and the objects it has got stand for the values that it has got. -/
theorem C67_programs (me : Nat) (s s' : St V K) (hs hs' : List (Option Nat)) (vals : List (Ex K))
    (p : Prog V K α) (r : PyM α) (hist : History R s) (holds : Holds s hs)
    (mean : Mean s.heap hs vals) (ex : Exec me Clean R ⟨s, hs, p⟩ R' ⟨s', hs', .ofPy r⟩) :
    ∃ vals', Yields vals p r vals' ∧ Mean s'.heap hs' vals' ∧
      ∀ r'' vals'', Yields vals p r'' vals'' → r'' = r ∧ vals'' = vals' := by
  obtain ⟨_, _, _, vals', h1, h2⟩ := exec_sim hist holds mean ex
  exact ⟨vals', h1, h2, fun r'' vals'' h => h.unique h1⟩

/-- **C67, no races at all.** The same for the executions in which no two threads are ever inside
`setdefault` for the same key, in particular all single-threaded ones: this is a condition on the
schedule, not on the objects. -/
theorem C67_programs_exclusive (me : Nat) (s s' : St V K) (hs hs' : List (Option Nat))
    (vals : List (Ex K)) (p : Prog V K α) (r : PyM α) (hist : History (fun _ => False) s)
    (holds : Holds s hs) (mean : Mean s.heap hs vals)
    (ex : Exec me (fun _ c => Exclusive c.st) (fun _ => False) ⟨s, hs, p⟩ R' ⟨s', hs', .ofPy r⟩) :
    ∃ vals', Yields vals p r vals' ∧ Mean s'.heap hs' vals' ∧
      ∀ r'' vals'', Yields vals p r'' vals'' → r'' = r ∧ vals'' = vals' := by
  exact C67_programs me s s' hs hs' vals p r hist holds mean (ex.quiet (fun _ h => h)).2

/-- **C67, schedules do not matter.** Two runs of a program, in any two processes, by any two threads,
with any objects that stand for the same values: the results are the same and the objects in them stand
for the same values. -/
theorem C67_deterministic (me₁ me₂ : Nat) {R₁ R₁' R₂ R₂' : Key K → Prop} (s₁ s₁' s₂ s₂' : St V K)
    (hs₁ hs₁' hs₂ hs₂' : List (Option Nat)) (vals : List (Ex K)) (p : Prog V K α) (r₁ r₂ : PyM α)
    (hist₁ : History R₁ s₁) (holds₁ : Holds s₁ hs₁) (mean₁ : Mean s₁.heap hs₁ vals)
    (hist₂ : History R₂ s₂) (holds₂ : Holds s₂ hs₂) (mean₂ : Mean s₂.heap hs₂ vals)
    (ex₁ : Exec me₁ Clean R₁ ⟨s₁, hs₁, p⟩ R₁' ⟨s₁', hs₁', .ofPy r₁⟩)
    (ex₂ : Exec me₂ Clean R₂ ⟨s₂, hs₂, p⟩ R₂' ⟨s₂', hs₂', .ofPy r₂⟩) :
    r₁ = r₂ ∧ ∃ vals', Mean s₁'.heap hs₁' vals' ∧ Mean s₂'.heap hs₂' vals' := by
  obtain ⟨v, h1, h2, h3⟩ := C67_programs me₁ s₁ s₁' hs₁ hs₁' vals p r₁ hist₁ holds₁ mean₁ ex₁
  obtain ⟨w, g1, g2, _⟩ := C67_programs me₂ s₂ s₂' hs₂ hs₂' vals p r₂ hist₂ holds₂ mean₂ ex₂
  obtain ⟨rfl, rfl⟩ := h3 r₂ w g1
  exact ⟨rfl, w, h2, g2⟩

/-- **C67, programs that do not compare.** A program that never compares two objects computes what it
computes on values in every execution, whatever races there are or have been. -/
theorem C67_no_compare (me : Nat) (s s' : St V K) (hs hs' : List (Option Nat)) (vals : List (Ex K))
    (p : Prog V K α) (r : PyM α) (np : NoCompare p) (hist : History R s) (holds : Holds s hs)
    (mean : Mean s.heap hs vals)
    (ex : Exec me (fun _ _ => True) R ⟨s, hs, p⟩ R' ⟨s', hs', .ofPy r⟩) :
    ∃ vals', Yields vals p r vals' ∧ Mean s'.heap hs' vals' := by
  obtain ⟨_, _, _, vals', h1, h2⟩ := exec_noCompare hist holds mean np ex
  exact ⟨vals', h1, h2⟩

/-- **C67, completion.** What a program does on values it can do in the process: from any state in
which no thread is inside a constructor and there have been no races, thread `me` can run it to the
end. -/
theorem C67_completes (me : Nat) (s : St V K) (hs : List (Option Nat)) (vals vals' : List (Ex K))
    (p : Prog V K α) (r : PyM α) (hist : History (fun _ => False) s) (idle : ∀ t, s.pc t = .idle)
    (holds : Holds s hs) (mean : Mean s.heap hs vals) (alive : ∀ h, h < hs.length → ∃ i, held hs h = some i)
    (y : Yields vals p r vals') :
    ∃ s' hs', Exec me (fun _ c => Exclusive c.st) (fun _ => False) ⟨s, hs, p⟩ (fun _ => False)
        ⟨s', hs', .ofPy r⟩ ∧ Mean s'.heap hs' vals' ∧
      ∀ h, h < hs'.length → ∃ i, held hs' h = some i := by
  obtain ⟨s', hs', h1, _, _, _, h5, h6⟩ := completes_run (me := me) hist idle holds mean alive y
  exact ⟨s', hs', h1, h5, h6⟩

/-! ### The algorithms -/

theorem outcome_of {me : Nat} {s s' : St V K} {hs hs' : List (Option Nat)} {vals : List (Ex K)}
    {A : Type} {p : Prog V K α} {r : PyM α} {rel : List (Ex K) → α → A → Prop} {x : PyM A}
    (hist : History R s) (holds : Holds s hs) (mean : Mean s.heap hs vals)
    (hc : Computes vals p rel x) (ex : Exec me Clean R ⟨s, hs, p⟩ R' ⟨s', hs', .ofPy r⟩) :
    ∃ vals', Mean s'.heap hs' vals' ∧ Agree (rel vals') r x := by
  obtain ⟨v, h1, h2, h3⟩ := C67_programs me s s' hs hs' vals p r hist holds mean ex
  obtain ⟨r', v', g1, _, g3⟩ := hc
  obtain ⟨rfl, rfl⟩ := h3 r' v' g1
  exact ⟨v', h2, g3⟩

theorem standsAt_of {s' : St V K} {hs' : List (Option Nat)} {vals' : List (Ex K)} {h : Nat}
    {t : Tree K} (hm : Mean s'.heap hs' vals') (ha : At vals' h t) : StandsAt s'.heap hs' h t := by
  intro i hi
  obtain ⟨x, h1, h2⟩ := hm.2 h i hi
  unfold At at ha
  rw [ha] at h1
  cases h1
  exact h2

theorem agree_outcome {s' : St V K} {hs' : List (Option Nat)} {vals' : List (Ex K)} {r : PyM Nat}
    {x : PyM (Tree K)} (hm : Mean s'.heap hs' vals') (h : Agree (At vals') r x) :
    Outcome s'.heap hs' r x := by
  cases r <;> cases x
  · exact h
  · exact h.elim
  · exact h.elim
  · exact standsAt_of hm h

/-- **C67, `topological_sort`.** On objects: it returns objects that stand, in this order, for the
expressions that C05–C07 are about. -/
theorem C67_topological_sort (me : Nat) (s s' : St V K) (hs hs' : List (Option Nat))
    (vals : List (Ex K)) (heads : Bool) (exclude : List Nat) (Exclude : List (Tree K)) (e : Nat)
    (E : Tree K) (r : PyM (List Nat)) (hist : History R s) (holds : Holds s hs)
    (mean : Mean s.heap hs vals) (hx : Ats vals exclude Exclude) (he : At vals e E)
    (ex : Exec me Clean R ⟨s, hs, Prog.sort heads exclude e⟩ R' ⟨s', hs', .ofPy r⟩) :
    ∃ out, r = .ok out ∧
      List.Forall₂ (StandsAt s'.heap hs') out (topologicalSort heads Exclude E) := by
  obtain ⟨v, h1, h2⟩ := outcome_of hist holds mean (computes_sort heads hx he) ex
  cases r with
  | error => exact h2.elim
  | ok out => exact ⟨out, rfl, h2.imp (fun _ _ h => standsAt_of h1 h)⟩

/-- **C67, `forward_graph`.** On objects: atoms, heads and operations are those of the graph of the
expression, with objects that stand for the expressions and with the same indices. -/
theorem C67_forward_graph (me : Nat) (s s' : St V K) (hs hs' : List (Option Nat))
    (vals : List (Ex K)) (e : Nat) (E : Tree K) (r : PyM Prog.GraphH) (hist : History R s)
    (holds : Holds s hs) (mean : Mean s.heap hs vals) (he : At vals e E)
    (ex : Exec me Clean R ⟨s, hs, Prog.graph e⟩ R' ⟨s', hs', .ofPy r⟩) :
    ∃ g G, r = .ok g ∧ forwardGraph E = .ok G ∧
      List.Forall₂ (StandsAt s'.heap hs') g.atoms G.atoms ∧
      List.Forall₂ (StandsAt s'.heap hs') g.heads G.heads ∧
      List.Forall₂ (fun o O => StandsAt s'.heap hs' o.1 O.1 ∧ o.2 = O.2) g.operations G.operations := by
  obtain ⟨v, h1, h2⟩ := outcome_of hist holds mean (computes_graph he) ex
  obtain ⟨G, hG⟩ : ∃ G, forwardGraph E = .ok G := ⟨_, forwardGraph_eq E⟩
  rw [hG] at h2
  cases r with
  | error => exact h2.elim
  | ok g =>
    exact ⟨g, G, rfl, hG, h2.atoms.imp (fun _ _ h => standsAt_of h1 h),
      h2.heads.imp (fun _ _ h => standsAt_of h1 h),
      h2.operations.imp (fun _ _ h => ⟨standsAt_of h1 h.1, h.2⟩)⟩

/-- **C67, substitution.** On objects, in the case of C11: the object returned by
`SubsFunc(expr, params)(*args)` stands for the simultaneous substitution in the expression. -/
theorem C67_subs (me : Nat) (s s' : St V K) (hs hs' : List (Option Nat)) (vals : List (Ex K))
    (e : Nat) (E : Tree K) (params args : List Nat) (Params Args : List (Tree K)) (r : PyM Nat)
    (hist : History R s) (holds : Holds s hs) (mean : Mean s.heap hs vals) (he : At vals e E)
    (hp : Ats vals params Params) (ha : Ats vals args Args) (hlen : Args.length = Params.length)
    (hE : E ∉ Params ∨ Params.getLast? = some E)
    (ex : Exec me Clean R ⟨s, hs, Prog.subs e params args⟩ R' ⟨s', hs', .ofPy r⟩) :
    ∃ h, r = .ok h ∧ StandsAt s'.heap hs' h (subst (pairing Params Args) E) := by
  obtain ⟨f, h1, h2⟩ := C11_subs_simultaneous_partial E Params hE
  have hc : Computes vals (Prog.subs e params args : Prog V K Nat) At
      (SubsFunc.new E Params >>= fun f => f.call Args) :=
    Computes.bind (computes_subsNew he hp) (fun v f F hv hf => computes_subsCall hf (ha.mono hv))
  obtain ⟨v, g1, g2⟩ := outcome_of hist holds mean hc ex
  have hrun : (SubsFunc.new E Params >>= fun f => f.call Args) =
      .ok (subst (pairing Params Args) E) := by
    rw [h1]; exact h2 Args hlen
  rw [hrun] at g2
  cases r with
  | error => exact g2.elim
  | ok h => exact ⟨h, rfl, standsAt_of g1 g2⟩

/-- **C67, `diff_forward`.** On objects: it returns an object that stands for the derivative of
`Model/Diff.lean`, or raises what that raises. -/
theorem C67_diff_forward (me : Nat) (s s' : St V K) (hs hs' : List (Option Nat)) (vals : List (Ex K))
    (p : Prog.DiffH) (P : DiffProps K) (e sym : Nat) (E Sym : Tree K) (r : PyM Nat)
    (hist : History R s) (holds : Holds s hs) (mean : Mean s.heap hs vals) (hP : DiffAt vals p P)
    (he : At vals e E) (hsym : At vals sym Sym)
    (ex : Exec me Clean R ⟨s, hs, Prog.diff p e sym⟩ R' ⟨s', hs', .ofPy r⟩) :
    Outcome s'.heap hs' r (diffForward E Sym P) := by
  obtain ⟨v, h1, h2⟩ := outcome_of hist holds mean (computes_diff hP he hsym) ex
  exact agree_outcome h1 h2

/-- **C67, derivatives.** On objects, for any differentiator made by a table of rules (C52): the object
that `expr.diff(sym)` returns stands for the derivative that the rules of the table derive; if it
raises, the table derives none. -/
theorem C67_diff {V : Type} [PyVal V Val] {R R' : Key Val → Prop} (me : Nat) (s s' : St V Val)
    (hs hs' : List (Option Nat)) (vals : List (Ex Val)) (p : Prog.DiffH) (T : DiffTable)
    (P : DiffProps Val) (e sym : Nat) (E Sym : Expr) (r : PyM Nat) (hist : History R s)
    (holds : Holds s hs) (mean : Mean s.heap hs vals) (hm : Made T P) (hP : DiffAt vals p P)
    (he : At vals e E) (hsym : At vals sym Sym)
    (ex : Exec me Clean R ⟨s, hs, Prog.diff p e sym⟩ R' ⟨s', hs', .ofPy r⟩) :
    (∀ h, r = .ok h → ∃ D, Derives T Sym E D ∧ StandsAt s'.heap hs' h D) ∧
    (∀ err, r = .error err → (Expr.diff E Sym 1 P = .error err) ∧ ∀ D, ¬ Derives T Sym E D) := by
  have h := C67_diff_forward me s s' hs hs' vals p P e sym E Sym r hist holds mean hP he hsym ex
  rw [← diff_one E Sym P] at h
  constructor
  · rintro h' rfl
    cases hd : Expr.diff E Sym 1 P with
    | error e => rw [hd] at h; exact h.elim
    | ok D => rw [hd] at h; exact ⟨D, (C52_diff_exact T P hm E Sym D).1 hd, h⟩
  · rintro err rfl
    cases hd : Expr.diff E Sym 1 P with
    | ok D => rw [hd] at h; exact h.elim
    | error e =>
      rw [hd] at h
      have : err = e := h
      subst this
      refine ⟨rfl, fun D hD => ?_⟩
      rw [(C52_diff_exact T P hm E Sym D).2 hD] at hd
      cases hd

/-- **C67, higher derivatives.** `diff` applied `n` times on objects. -/
theorem C67_diff_times (me : Nat) (s s' : St V K) (hs hs' : List (Option Nat)) (vals : List (Ex K))
    (p : Prog.DiffH) (P : DiffProps K) (e sym n : Nat) (E Sym : Tree K) (r : PyM Nat)
    (hist : History R s) (holds : Holds s hs) (mean : Mean s.heap hs vals) (hP : DiffAt vals p P)
    (he : At vals e E) (hsym : At vals sym Sym)
    (ex : Exec me Clean R ⟨s, hs, Prog.diffTimes p sym n e⟩ R' ⟨s', hs', .ofPy r⟩) :
    Outcome s'.heap hs' r (iterPy (fun d => diffForward d Sym P) n E) := by
  obtain ⟨v, h1, h2⟩ := outcome_of hist holds mean (computes_diffTimes n e E vals hP he hsym) ex
  exact agree_outcome h1 h2

theorem noCompare_ofPy {α : Type} (r : PyM α) : NoCompare (Prog.ofPy r : Prog V K α) := by
  cases r
  · exact .raise _
  · exact .ret _

theorem noCompare_each {α β : Type} {f : α → Prog V K β} (h : ∀ a, NoCompare (f a)) :
    ∀ l, NoCompare (Prog.each f l) := by
  intro l
  induction l with
  | nil => exact .ret _
  | cons a l ih => exact (h a).bind (fun b => ih.bind (fun bs => .ret _))

theorem noCompare_subsCallLoop : ∀ (ops : List (List Nat)) (stack : List Nat),
    NoCompare (Prog.subsCallLoop stack ops : Prog V K (List Nat)) := by
  intro ops
  induction ops with
  | nil => intro stack; exact .ret _
  | cons i ops ih =>
    intro stack
    exact (noCompare_each (fun i => noCompare_ofPy _) i).bind
      (fun cs => NoCompare.bind (.make _ (fun h => .ret _)) (fun t => ih _))

/-- **C67, calling a `SubsFunc`.** A call of a `SubsFunc` compares nothing: in every execution, whatever
races there are or have been, the object it returns stands for what the call returns on values. -/
theorem C67_subs_call_races (me : Nat) (s s' : St V K) (hs hs' : List (Option Nat))
    (vals : List (Ex K)) (f : Prog.SubsH) (F : SubsFunc K) (args : List Nat) (Args : List (Tree K))
    (r : PyM Nat) (hist : History R s) (holds : Holds s hs) (mean : Mean s.heap hs vals)
    (hf : SubsAt vals f F) (ha : Ats vals args Args)
    (ex : Exec me (fun _ _ => True) R ⟨s, hs, Prog.subsCall f args⟩ R' ⟨s', hs', .ofPy r⟩) :
    Outcome s'.heap hs' r (F.call Args) := by
  have np : NoCompare (Prog.subsCall f args : Prog V K Nat) := by
    unfold Prog.subsCall
    split
    · exact .raise _
    · exact (noCompare_subsCallLoop _ _).bind (fun _ => noCompare_ofPy _)
  obtain ⟨v, h1, h2⟩ := C67_no_compare me s s' hs hs' vals _ r np hist holds mean ex
  obtain ⟨r', v', g1, _, g3⟩ := computes_subsCall (V := V) hf ha
  obtain ⟨rfl, rfl⟩ := g1.unique h1
  exact agree_outcome h2 g3

/-! ### The hypotheses can be met, for all inputs -/

/-- There is a process without races in which no thread is inside a constructor, and in which a program
holds objects with these values. -/
def Ready (V : Type) [PyVal V K] (vals : List (Ex K)) : Prop :=
  ∃ (s : St V K) (hs : List (Option Nat)), History (fun _ => False) s ∧ (∀ t, s.pc t = .idle) ∧
    Holds s hs ∧ Mean s.heap hs vals ∧ Alive hs

theorem ready_nil : Ready V ([] : List (Ex K)) :=
  ⟨.init, [], .start, fun _ => rfl, by intro h i hh; simp [held] at hh,
    ⟨rfl, by intro h i hh; simp [held] at hh⟩, by intro h hh; simp at hh⟩

theorem ready_of_yields {vals vals' : List (Ex K)} (h : Ready V vals) {p : Prog V K α} {r : PyM α}
    (hy : Yields vals p r vals') : Ready V vals' := by
  obtain ⟨s, hs, h1, h2, h3, h4, h5⟩ := h
  obtain ⟨s', hs', _, g2, g3, g4, g5, g6⟩ := completes_run (me := 0) h1 h2 h3 h4 h5 hy
  exact ⟨s', hs', g2, g3, g4, g5, g6⟩

theorem ready_tree (hk : ∀ k : K, ∃ v : V, PyVal.key v = k) (t : Tree K) :
    ∀ vals : List (Ex K), Ready V vals →
      ∃ vals' h, vals <+: vals' ∧ Ready V vals' ∧ At vals' h t := by
  induction t using Tree.cases with
  | atom a =>
    intro vals hr
    obtain ⟨ty, k⟩ := a
    obtain ⟨v, rfl⟩ := hk k
    let p : Prog V K Nat := .make (.atom ty v) (fun h => .make (.treeAtom h) .ret)
    have hy : Yields vals p (.ok (vals.length + 1))
        (vals ++ [.atom ⟨ty, PyVal.key v⟩] ++ [.tree (.atom ⟨ty, PyVal.key v⟩)]) := by
      refine .step (.step .refl rfl) ?_
      simp [valueStep, valueOf, Prog.ofPy]
    refine ⟨_, vals.length + 1, ?_, ready_of_yields hr hy, ?_⟩
    · rw [List.append_assoc]; exact List.prefix_append _ _
    · simp [At]
  | node ts ih =>
    intro vals hr
    have : ∃ vals' cs, vals <+: vals' ∧ Ready V vals' ∧ Ats vals' cs ts := by
      clear hk
      induction ts generalizing vals with
      | nil => exact ⟨vals, [], List.prefix_refl _, hr, .nil⟩
      | cons t ts iht =>
        obtain ⟨v1, h, p1, r1, a1⟩ := ih t (by simp) vals hr
        obtain ⟨v2, cs, p2, r2, a2⟩ := iht (fun t ht => ih t (by simp [ht])) v1 r1
        exact ⟨v2, h :: cs, p1.trans p2, r2, .cons (a1.mono p2) a2⟩
    obtain ⟨v1, cs, p1, r1, a1⟩ := this
    obtain ⟨r, v2, hy, p2, ha⟩ := computes_tree (V := V) a1
    cases r with
    | error => exact ha.elim
    | ok h => exact ⟨v2, h, p1.trans p2, ready_of_yields r1 hy, ha⟩

theorem ready_trees (hk : ∀ k : K, ∃ v : V, PyVal.key v = k) (ts : List (Tree K)) :
    ∀ vals : List (Ex K), Ready V vals →
      ∃ vals' cs, vals <+: vals' ∧ Ready V vals' ∧ Ats vals' cs ts := by
  induction ts with
  | nil => intro vals hr; exact ⟨vals, [], List.prefix_refl _, hr, .nil⟩
  | cons t ts iht =>
    intro vals hr
    obtain ⟨v1, h, p1, r1, a1⟩ := ready_tree hk t vals hr
    obtain ⟨v2, cs, p2, r2, a2⟩ := iht v1 r1
    exact ⟨v2, h :: cs, p1.trans p2, r2, .cons (a1.mono p2) a2⟩

theorem ready_rules (hk : ∀ k : K, ∃ v : V, PyVal.key v = k)
    (rules : List ((Tree K × Nat) × SubsFunc K)) :
    ∀ vals : List (Ex K), Ready V vals → ∃ vals' rs, vals <+: vals' ∧ Ready V vals' ∧
      List.Forall₂ (fun (r : Nat × Nat × Prog.SubsH) (Q : (Tree K × Nat) × SubsFunc K) =>
        At vals' r.1 Q.1.1 ∧ r.2.1 = Q.1.2 ∧ SubsAt vals' r.2.2 Q.2) rs rules := by
  induction rules with
  | nil => intro vals hr; exact ⟨vals, [], List.prefix_refl _, hr, .nil⟩
  | cons Q rules ih =>
    intro vals hr
    obtain ⟨v1, h, p1, r1, a1⟩ := ready_tree hk Q.1.1 vals hr
    obtain ⟨v2, as, p2, r2, a2⟩ := ready_trees hk Q.2.atoms v1 r1
    obtain ⟨v3, rs, p3, r3, a3⟩ := ih v2 r2
    refine ⟨v3, (h, Q.1.2, ⟨Q.2.nargs, as, Q.2.operations⟩) :: rs, (p1.trans p2).trans p3, r3, .cons ?_ a3⟩
    exact ⟨a1.mono (p2.trans p3), rfl, rfl, a2.mono p3, rfl⟩

theorem ready_props (hk : ∀ k : K, ∃ v : V, PyVal.key v = k) (P : DiffProps K)
    (vals : List (Ex K)) (hr : Ready V vals) :
    ∃ vals' p, vals <+: vals' ∧ Ready V vals' ∧ DiffAt vals' p P := by
  obtain ⟨v1, z, p1, r1, a1⟩ := ready_tree hk P.zero vals hr
  obtain ⟨v2, o, p2, r2, a2⟩ := ready_tree hk P.one v1 r1
  obtain ⟨v3, a, p3, r3, a3⟩ := ready_tree hk P.add v2 r2
  obtain ⟨v4, m, p4, r4, a4⟩ := ready_tree hk P.mul v3 r3
  obtain ⟨v5, ds, p5, r5, a5⟩ := ready_trees hk P.distributive v4 r4
  obtain ⟨v6, rs, p6, r6, a6⟩ := ready_rules hk P.diffRules.items v5 r5
  have q5 := p5.trans p6
  have q4 := p4.trans q5
  have q3 := p3.trans q4
  have q2 := p2.trans q3
  exact ⟨v6, ⟨z, o, a, m, ds, rs⟩, p1.trans q2, r6,
    a1.mono q2, a2.mono q3, a3.mono q4, a4.mono q5, a5.mono p6, _, a6, fun _ => rfl⟩

/-- An expression, a variable and a differentiator, whichever: some process can make them all and
differentiate, so that the hypotheses of `C67_diff_forward` (with `me`, without races) are met; the
result is the one the theorem says. -/
theorem C67_diff_runs (hk : ∀ k : K, ∃ v : V, PyVal.key v = k) (me : Nat) (E Sym : Tree K)
    (P : DiffProps K) :
    ∃ (s s' : St V K) (hs hs' : List (Option Nat)) (vals : List (Ex K)) (p : Prog.DiffH)
      (e sym : Nat) (r : PyM Nat), History (fun _ => False) s ∧ Holds s hs ∧ Mean s.heap hs vals ∧
      DiffAt vals p P ∧ At vals e E ∧ At vals sym Sym ∧
      Exec me Clean (fun _ => False) ⟨s, hs, Prog.diff p e sym⟩ (fun _ => False) ⟨s', hs', .ofPy r⟩ ∧
      Outcome s'.heap hs' r (diffForward E Sym P) ∧ ∀ h, r = .ok h → ∃ i, held hs' h = some i := by
  obtain ⟨v1, p, p1, r1, a1⟩ := ready_props hk P [] ready_nil
  obtain ⟨v2, e, p2, r2, a2⟩ := ready_tree hk E v1 r1
  obtain ⟨v3, sym, p3, r3, a3⟩ := ready_tree hk Sym v2 r2
  have b1 := a1.mono (p2.trans p3)
  have b2 := a2.mono p3
  obtain ⟨s, hs, h1, h2, h3, h4, h5⟩ := r3
  obtain ⟨r, v, hy, _, ha⟩ := computes_diff (V := V) b1 b2 a3
  obtain ⟨s', hs', g1, g2, g3⟩ := C67_completes me s hs v3 v _ r h1 h2 h3 h4 h5 hy
  have g1' := (g1.quiet (fun _ h => h)).2
  refine ⟨s, s', hs, hs', v3, p, e, sym, r, h1, h3, h4, b1, b2, a3, g1', agree_outcome g2 ha, ?_⟩
  rintro h rfl
  refine g3 h ?_
  cases hd : diffForward E Sym P with
  | error => rw [hd] at ha; exact ha.elim
  | ok D =>
    rw [hd] at ha
    have ha : At v h D := ha
    unfold At at ha
    rw [g2.1]
    exact (List.getElem?_eq_some_iff.1 ha).1

/-- Likewise for `topological_sort`, `forward_graph` and `SubsFunc`: any expression, any lists of
expressions; the programs run to the end. -/
theorem C67_others_run (hk : ∀ k : K, ∃ v : V, PyVal.key v = k) (me : Nat) (heads : Bool) (E : Tree K)
    (Exclude Params Args : List (Tree K)) :
    ∃ (s : St V K) (hs : List (Option Nat)) (vals : List (Ex K)) (e : Nat)
      (exclude params args : List Nat), History (fun _ => False) s ∧ Holds s hs ∧ Mean s.heap hs vals ∧
      At vals e E ∧ Ats vals exclude Exclude ∧ Ats vals params Params ∧ Ats vals args Args ∧
      (∃ s' hs' r, Exec me Clean (fun _ => False) ⟨s, hs, Prog.sort heads exclude e⟩ (fun _ => False)
        ⟨s', hs', .ofPy r⟩) ∧
      (∃ s' hs' r, Exec me Clean (fun _ => False) ⟨s, hs, Prog.graph e⟩ (fun _ => False)
        ⟨s', hs', .ofPy r⟩) ∧
      (∃ s' hs' r, Exec me Clean (fun _ => False) ⟨s, hs, Prog.subs e params args⟩ (fun _ => False)
        ⟨s', hs', .ofPy r⟩) := by
  obtain ⟨v1, e, p1, r1, a1⟩ := ready_tree hk E [] ready_nil
  obtain ⟨v2, xs, p2, r2, a2⟩ := ready_trees hk Exclude v1 r1
  obtain ⟨v3, ps, p3, r3, a3⟩ := ready_trees hk Params v2 r2
  obtain ⟨v4, as, p4, r4, a4⟩ := ready_trees hk Args v3 r3
  have b1 := a1.mono (p2.trans (p3.trans p4))
  have b2 := a2.mono (p3.trans p4)
  have b3 := a3.mono p4
  obtain ⟨s, hs, h1, h2, h3, h4, h5⟩ := r4
  have run : ∀ {α A : Type} {p : Prog V K α} {rel : List (Ex K) → α → A → Prop} {x : PyM A},
      Computes v4 p rel x → ∃ s' hs' r, Exec me Clean (fun _ => False) ⟨s, hs, p⟩ (fun _ => False)
        ⟨s', hs', .ofPy r⟩ := by
    rintro α A p rel x ⟨r, v, hy, _, _⟩
    obtain ⟨s', hs', g1, _, _⟩ := C67_completes me s hs v4 v _ r h1 h2 h3 h4 h5 hy
    exact ⟨s', hs', r, (g1.quiet (fun _ h => h)).2⟩
  refine ⟨s, hs, v4, e, xs, ps, as, h1, h3, h4, b1, b2, b3, a4, run (computes_sort heads b2 b1),
    run (computes_graph b1), run (p := Prog.subs e ps as) (rel := At)
      (x := SubsFunc.new E Params >>= fun f => f.call Args) ?_⟩
  exact Computes.bind (computes_subsNew b1 b3) (fun v f F hv hf => computes_subsCall hf (a4.mono hv))

/-- And for a call of any `SubsFunc` with any values: the hypotheses of `C67_subs_call_races`,
`C67_no_compare`, `C67_completes` and `C67_programs_exclusive` (two executions of one program meet those
of `C67_deterministic`). -/
example (hk : ∀ k : K, ∃ v : V, PyVal.key v = k) (me : Nat) (F : SubsFunc K) (Args : List (Tree K)) :
    ∃ (s s' : St V K) (hs hs' : List (Option Nat)) (vals vals' : List (Ex K)) (f : Prog.SubsH)
      (args : List Nat) (r : PyM Nat), History (fun _ => False) s ∧ (∀ t, s.pc t = .idle) ∧ Holds s hs ∧
      Mean s.heap hs vals ∧ (∀ h, h < hs.length → ∃ i, held hs h = some i) ∧ SubsAt vals f F ∧
      Ats vals args Args ∧ Yields vals (Prog.subsCall f args : Prog V K Nat) r vals' ∧
      Exec me (fun _ c => Exclusive c.st) (fun _ => False) ⟨s, hs, Prog.subsCall f args⟩ (fun _ => False)
        ⟨s', hs', .ofPy r⟩ ∧
      Exec me (fun _ _ => True) (fun _ => False) ⟨s, hs, Prog.subsCall f args⟩ (fun _ => False)
        ⟨s', hs', .ofPy r⟩ := by
  obtain ⟨v1, as, p1, r1, a1⟩ := ready_trees (V := V) hk F.atoms [] ready_nil
  obtain ⟨v2, args, p2, r2, a2⟩ := ready_trees hk Args v1 r1
  have hf : SubsAt v2 ⟨F.nargs, as, F.operations⟩ F := ⟨rfl, a1.mono p2, rfl⟩
  obtain ⟨s, hs, h1, h2, h3, h4, h5⟩ := r2
  obtain ⟨r, v, hy, _, _⟩ := computes_subsCall (V := V) hf a2
  obtain ⟨s', hs', g1, _, _⟩ := C67_completes me s hs v2 v _ r h1 h2 h3 h4 h5 hy
  exact ⟨s, s', hs, hs', v2, v, _, args, r, h1, h2, h3, h4, h5, hf, a2, hy, g1, g1.mono (fun _ _ _ => trivial)⟩

/-- Values that are equal only to themselves. -/
@[reducible] def plainVal : PyVal K K := ⟨id⟩

/-- `sin(x).diff(x)` with the differentiator of simplecas, on objects: the object returned stands for
`cos(x)`. -/
example : letI : PyVal Val Val := plainVal
    ∃ (s s' : St Val Val) (hs hs' : List (Option Nat)) (vals : List (Ex Val)) (p : Prog.DiffH)
      (e sym h i : Nat), History (fun _ => False) s ∧ Holds s hs ∧ Mean s.heap hs vals ∧
      DiffAt vals p builtinDiff ∧ At vals e (Expr.sin (Expr.symbol "x")) ∧
      At vals sym (Expr.symbol "x") ∧
      Exec 0 Clean (fun _ => False) ⟨s, hs, Prog.diff p e sym⟩ (fun _ => False) ⟨s', hs', .ret h⟩ ∧
      held hs' h = some i ∧ Stands s'.heap i (Expr.cos (Expr.symbol "x")) := by
  let _ : PyVal Val Val := plainVal
  obtain ⟨s, s', hs, hs', vals, p, e, sym, r, h1, h2, h3, h4, h5, h6, h7, h8, h9⟩ :=
    C67_diff_runs (V := Val) (fun k => ⟨k, rfl⟩) 0 (Expr.sin (Expr.symbol "x")) (Expr.symbol "x")
      builtinDiff
  have hd : diffForward (Expr.sin (Expr.symbol "x")) (Expr.symbol "x") builtinDiff =
      .ok (Expr.cos (Expr.symbol "x")) := by decide +kernel
  rw [hd] at h8
  cases r with
  | error => exact h8.elim
  | ok h =>
    obtain ⟨i, hi⟩ := h9 h rfl
    exact ⟨s, s', hs, hs', vals, p, e, sym, h, i, h1, h2, h3, h4, h5, h6, h7, hi, h8 i hi⟩

/-! ### With a race -/

/-- The process has the objects of the list, all of them held by the program, and no thread is inside a
constructor. -/
structure Snap (s : St V K) (l : List (Obj V)) : Prop where
  pc : ∀ t, s.pc t = .idle
  next : s.next = l.length
  heap : ∀ i, s.heap i = l[i]?
  table : ∀ k, (∀ o ∈ l, o.key ≠ k) → s.table k = none
  roots : ∀ i, i < l.length → i ∈ s.roots

/-- One thread makes an object that is not there yet, in four steps. -/
theorem snap_make {s : St V K} {l : List (Obj V)} (h : History R s) (hl : Snap s l) (r : Obj V)
    (hargs : ∀ j ∈ r.refs, j < l.length) (hty : s.WellTyped r) (hd : ∀ o ∈ l, o.key ≠ r.key) :
    ∃ R' s', History R' s' ∧ Snap s' (l ++ [r]) := by
  have hd := hl.table _ hd
  have r1 := h.step (.getMiss s 0 r (hl.pc 0) (fun j hj => hl.roots j (hargs j hj)) hty
    (deref_none_iff.2 (by simp [hd])))
  have r2 := r1.step (.alloc _ 0 r rfl)
  have r3 := r2.step (.setdefaultMiss _ 0 r _ rfl (deref_none_iff.2 (by simp [hd])))
  have r4 := r3.step (.setdefaultStore _ 0 r _ rfl)
  refine ⟨_, _, r4, ⟨?_, ?_, ?_, ?_, ?_⟩⟩
  · intro t
    show upd _ _ _ t = _
    by_cases ht : t = 0
    · rw [ht]; rfl
    · simp [upd, ht, hl.pc t]
  · simp [hl.next]
  · intro i
    show upd s.heap s.next (some r) i = _
    rw [hl.next]
    by_cases hi : i = l.length
    · rw [hi, upd_same]; simp
    · rw [upd_ne _ _ hi, hl.heap]
      rcases Nat.lt_or_gt_of_ne hi with h | h
      · rw [List.getElem?_append_left h]
      · rw [List.getElem?_eq_none (by omega), List.getElem?_eq_none (by simp; omega)]
  · intro k hk
    show upd s.table r.key (some s.next) k = none
    rw [upd_ne _ _ (fun h => hk r (by simp) h.symm)]
    exact hl.table k (fun o ho => hk o (by simp [ho]))
  · intro i hi
    show i ∈ s.next :: s.roots
    simp only [List.length_append, List.length_singleton] at hi
    by_cases h : i = l.length
    · simp [h, hl.next]
    · simp [hl.roots i (by omega)]

theorem exec_next {me : Nat} {c c' c'' : Cfg V K α} (h : ∃ R', Exec me (fun _ _ => True) R c R' c')
    (hr : Run me c' c'') : ∃ R', Exec me (fun _ _ => True) R c R' c'' := by
  obtain ⟨R', h⟩ := h
  exact ⟨_, h.step hr trivial⟩

/-- Two threads make `Symbol('x')` at the same time. -/
theorem race_two : letI : PyVal Val Val := plainVal
    ∃ (R : Key Val → Prop) (s : St Val Val), History R s ∧
      Snap s [.atom Ty.symbol (.str "x"), .atom Ty.symbol (.str "x")] := by
  let _ : PyVal Val Val := plainVal
  let sx : Obj Val := .atom Ty.symbol (.str "x")
  have r0 : History (fun _ => False) (St.init : St Val Val) := .start
  have r1 := r0.step (.getMiss _ 0 sx rfl (by simp [sx, Obj.refs]) trivial rfl)
  have r2 := r1.step (.getMiss _ 1 sx rfl (by simp [sx, Obj.refs]) trivial rfl)
  have r3 := r2.step (.alloc _ 0 _ rfl)
  have r4 := r3.step (.alloc _ 1 _ rfl)
  have r5 := r4.step (.setdefaultMiss _ 0 _ _ rfl rfl)
  have r6 := r5.step (.setdefaultMiss _ 1 _ _ rfl rfl)
  have r7 := r6.step (.setdefaultStore _ 0 _ _ rfl)
  have r8 := r7.step (.setdefaultStore _ 1 _ _ rfl)
  refine ⟨_, _, r8, ⟨?_, rfl, ?_, ?_, ?_⟩⟩
  · intro t
    simp only [upd]
    split
    · rfl
    · split
      · rfl
      · simp [St.init]
  · intro i
    match i with
    | 0 => rfl
    | 1 => rfl
    | n + 2 => rfl
  · intro k hk
    have hne : k ≠ sx.key := fun h => hk sx (by simp [sx]) h.symm
    simp only [upd, hne, if_false]
    rfl
  · intro i hi
    have : i = 0 ∨ i = 1 := by simp at hi; omega
    show i ∈ [1, 0]
    rcases this with rfl | rfl <;> simp

/-- The state after a race for `Symbol('x')`: two atoms, and a `Tree` of each; and the constants. -/
theorem race_state : letI : PyVal Val Val := plainVal
    ∃ (R : Key Val → Prop) (s : St Val Val), History R s ∧
      Snap s [.atom Ty.symbol (.str "x"), .atom Ty.symbol (.str "x"), .treeAtom 0, .treeAtom 1, .atom Ty.integer (.int 0), .treeAtom 4, .atom Ty.integer (.int 1), .treeAtom 6, .atom Ty.function (.str "Add"), .treeAtom 8, .atom Ty.function (.str "Mul"), .treeAtom 10] := by
  let _ : PyVal Val Val := plainVal
  obtain ⟨_, _, p0, q0⟩ := race_two
  obtain ⟨_, _, p1, q1⟩ := snap_make p0 q0 (.treeAtom 0) (by simp [Obj.refs]) ⟨_, _, by rw [q0.heap]; rfl⟩
    (by simp [Obj.key, PyVal.key, Ty.symbol, Ty.integer, Ty.function])
  obtain ⟨_, _, p2, q2⟩ := snap_make p1 q1 (.treeAtom 1) (by simp [Obj.refs]) ⟨_, _, by rw [q1.heap]; rfl⟩
    (by simp [Obj.key, PyVal.key, Ty.symbol, Ty.integer, Ty.function])
  obtain ⟨_, _, p3, q3⟩ := snap_make p2 q2 (.atom Ty.integer (.int 0)) (by simp [Obj.refs]) trivial
    (by simp [Obj.key, PyVal.key, Ty.symbol, Ty.integer, Ty.function])
  obtain ⟨_, _, p4, q4⟩ := snap_make p3 q3 (.treeAtom 4) (by simp [Obj.refs]) ⟨_, _, by rw [q3.heap]; rfl⟩
    (by simp [Obj.key, PyVal.key, Ty.symbol, Ty.integer, Ty.function])
  obtain ⟨_, _, p5, q5⟩ := snap_make p4 q4 (.atom Ty.integer (.int 1)) (by simp [Obj.refs]) trivial
    (by simp [Obj.key, PyVal.key, Ty.symbol, Ty.integer, Ty.function])
  obtain ⟨_, _, p6, q6⟩ := snap_make p5 q5 (.treeAtom 6) (by simp [Obj.refs]) ⟨_, _, by rw [q5.heap]; rfl⟩
    (by simp [Obj.key, PyVal.key, Ty.symbol, Ty.integer, Ty.function])
  obtain ⟨_, _, p7, q7⟩ := snap_make p6 q6 (.atom Ty.function (.str "Add")) (by simp [Obj.refs]) trivial
    (by simp [Obj.key, PyVal.key, Ty.symbol, Ty.integer, Ty.function])
  obtain ⟨_, _, p8, q8⟩ := snap_make p7 q7 (.treeAtom 8) (by simp [Obj.refs]) ⟨_, _, by rw [q7.heap]; rfl⟩
    (by simp [Obj.key, PyVal.key, Ty.symbol, Ty.integer, Ty.function])
  obtain ⟨_, _, p9, q9⟩ := snap_make p8 q8 (.atom Ty.function (.str "Mul")) (by simp [Obj.refs]) trivial
    (by simp [Obj.key, PyVal.key, Ty.symbol, Ty.integer, Ty.function])
  obtain ⟨_, _, p10, q10⟩ := snap_make p9 q9 (.treeAtom 10) (by simp [Obj.refs]) ⟨_, _, by rw [q9.heap]; rfl⟩
    (by simp [Obj.key, PyVal.key, Ty.symbol, Ty.integer, Ty.function])
  exact ⟨_, _, p10, q10⟩

/-- **C67 needs the condition on races.** Two threads make `Symbol('x')` at the same time and get
different atoms, so that a program comes to hold two `Tree`s for `x`.  Then `diff` of the one by the
other is `0`, although the derivative of `x` by `x` is `1`. -/
theorem C67_race_false : letI : PyVal Val Val := plainVal
    ∃ (R R' : Key Val → Prop) (s s' : St Val Val) (hs hs' : List (Option Nat)) (vals : List (Ex Val))
      (p : Prog.DiffH) (e sym h i : Nat), History R s ∧ Holds s hs ∧ Mean s.heap hs vals ∧
      DiffAt vals p (SymDifferentiator.new Expr.addH Expr.mulH Expr.zero Expr.one) ∧
      At vals e Expr.x ∧ At vals sym Expr.x ∧
      Exec 0 (fun _ _ => True) R ⟨s, hs, Prog.diff p e sym⟩ R' ⟨s', hs', .ret h⟩ ∧
      held hs' h = some i ∧ Stands s'.heap i Expr.zero ∧
      diffForward Expr.x Expr.x (SymDifferentiator.new Expr.addH Expr.mulH Expr.zero Expr.one) =
        .ok Expr.one := by
  let _ : PyVal Val Val := plainVal
  obtain ⟨R, s, hist, sn⟩ := race_state
  have hx : ∀ i, i = 2 ∨ i = 3 → Stands s.heap i Expr.x := by
    rintro i (rfl | rfl)
    · exact ⟨0, .str "x", by rw [sn.heap]; rfl, by rw [sn.heap]; rfl, rfl⟩
    · exact ⟨1, .str "x", by rw [sn.heap]; rfl, by rw [sn.heap]; rfl, rfl⟩
  have hz : Stands s.heap 5 Expr.zero := ⟨4, .int 0, by rw [sn.heap]; rfl, by rw [sn.heap]; rfl, rfl⟩
  have ho : Stands s.heap 7 Expr.one := ⟨6, .int 1, by rw [sn.heap]; rfl, by rw [sn.heap]; rfl, rfl⟩
  have ha : Stands s.heap 9 Expr.addH := ⟨8, .str "Add", by rw [sn.heap]; rfl, by rw [sn.heap]; rfl, rfl⟩
  have hm : Stands s.heap 11 Expr.mulH := ⟨10, .str "Mul", by rw [sn.heap]; rfl, by rw [sn.heap]; rfl, rfl⟩
  have h2 : s.heap 2 = some (.treeAtom 0) := by rw [sn.heap]; rfl
  let p : Prog.DiffH := ⟨2, 3, 4, 5, [], []⟩
  have e0 : ∃ R', Exec 0 (fun _ _ => True) R ⟨s, [some 2, some 3, some 5, some 7, some 9, some 11],
      (Prog.diff p 0 1 : Prog Val Val Nat)⟩ R' ⟨s, [some 2, some 3, some 5, some 7, some 9, some 11],
      (Prog.diff p 0 1 : Prog Val Val Nat)⟩ := ⟨_, .refl trivial⟩
  have e1 := exec_next e0 (.look 2 _ rfl h2)
  have e2 := exec_next e1 (.loop _ _ _)
  have e3 := exec_next e2 (.loop _ _ _)
  have e4 := exec_next e3 (.look 2 _ rfl h2)
  have e5 := exec_next e4 (.same 2 3 rfl rfl)
  obtain ⟨R', e5⟩ := e5
  refine ⟨R, R', s, _, [some 2, some 3, some 5, some 7, some 9, some 11], _,
    [.tree Expr.x, .tree Expr.x, .tree Expr.zero, .tree Expr.one, .tree Expr.addH, .tree Expr.mulH],
    p, 0, 1, 2, 5, hist, ?_, ⟨rfl, ?_⟩, ⟨rfl, rfl, rfl, rfl, .nil, [], .nil, fun _ => rfl⟩, rfl, rfl, e5, rfl, hz,
    by decide +kernel⟩
  · intro h i hh
    refine sn.roots i ?_
    match h, hh with
    | 0, hh | 1, hh | 2, hh | 3, hh | 4, hh | 5, hh => cases hh; decide
  · intro h i hh
    match h, hh with
    | 0, hh => cases hh; exact ⟨_, rfl, hx 2 (Or.inl rfl)⟩
    | 1, hh => cases hh; exact ⟨_, rfl, hx 3 (Or.inr rfl)⟩
    | 2, hh => cases hh; exact ⟨_, rfl, hz⟩
    | 3, hh => cases hh; exact ⟨_, rfl, ho⟩
    | 4, hh => cases hh; exact ⟨_, rfl, ha⟩
    | 5, hh => cases hh; exact ⟨_, rfl, hm⟩

end Verif.Props
