import Verif.Lemmas.ClientLogic
import Verif.Lemmas.Client
import Verif.Props.Client
import Verif.Spec.Progress

/-!
# Progress
-/

set_option linter.unusedSectionVars false

namespace Verif.Store
open Verif.Props
variable {V K α : Type} [DecidableEq K] [PyVal V K] {G R : Key K → Prop}

/-! ### Steps on values -/

theorem ValueRun.counted {c d : List (Ex K) × Prog V K α} (h : ValueRun c d) :
    ∃ n, ValueSteps c n d := by
  induction h with
  | refl => exact ⟨0, .refl⟩
  | step _ hs ih => obtain ⟨n, hn⟩ := ih; exact ⟨n + 1, hn.step hs⟩

theorem ValueSteps.run {c d : List (Ex K) × Prog V K α} {n : Nat} (h : ValueSteps c n d) :
    ValueRun c d := by
  induction h with
  | refl => exact .refl
  | step _ hs ih => exact ih.step hs

theorem ValueSteps.head {d d' c : List (Ex K) × Prog V K α} {n : Nat} (h : ValueSteps d n d')
    (hs : valueStep d = some c) : (n = 0 ∧ d' = d) ∨ ∃ m, n = m + 1 ∧ ValueSteps c m d' := by
  induction h with
  | refl => exact Or.inl ⟨rfl, rfl⟩
  | @step n e e' _ hs' ih =>
    rcases ih with ⟨rfl, rfl⟩ | ⟨m, rfl, h⟩
    · rw [hs] at hs'; cases hs'; exact Or.inr ⟨0, rfl, .refl⟩
    · exact Or.inr ⟨m + 1, rfl, h.step hs'⟩

/-- A finished run goes through every state that the program reaches. -/
theorem ValueSteps.through {c c1 c2 : List (Ex K) × Prog V K α} {n m : Nat} (h : ValueSteps c n c1)
    (hn : valueStep c1 = none) (h2 : ValueSteps c m c2) : ∃ d, n = m + d ∧ ValueSteps c2 d c1 := by
  induction h2 with
  | refl => exact ⟨n, by omega, h⟩
  | @step m c' c'' _ hs ih =>
    obtain ⟨d, rfl, hd⟩ := ih
    rcases hd.head hs with ⟨rfl, rfl⟩ | ⟨e, rfl, he⟩
    · rw [hn] at hs; cases hs
    · exact ⟨e, by omega, he⟩

/-! ### The calls of the thread -/

/-- A call that the thread is in is the call that its program has come to. -/
def InCall (me : Nat) (c : Cfg V K α) : Prop :=
  ∀ r, (c.st.pc me).req = some r → ∃ c0 k, c.prog = .make c0 k ∧
    ∀ r', resolve c.hs c0 = some r' → r' = r

theorem mapM_held_set {hs : List (Option Nat)} {g : Nat} : ∀ (cs is : List Nat),
    cs.mapM (held (hs.set g none)) = some is → cs.mapM (held hs) = some is := by
  intro cs
  induction cs with
  | nil => intro is h; exact h
  | cons c cs ih =>
    intro is h
    rw [List.mapM_cons] at h ⊢
    cases hc : held (hs.set g none) c with
    | none => rw [hc] at h; simp at h
    | some i =>
      cases hcs : cs.mapM (held (hs.set g none)) with
      | none => rw [hc, hcs] at h; simp at h
      | some js =>
        rw [hc, hcs] at h
        rw [held_set hc, ih js hcs]
        exact h

theorem resolve_set {hs : List (Option Nat)} {g : Nat} {c r : Obj V}
    (h : resolve (hs.set g none) c = some r) : resolve hs c = some r := by
  cases c with
  | atom => exact h
  | treeAtom a =>
    simp only [resolve, Option.map_eq_some_iff] at h ⊢
    obtain ⟨i, h1, h2⟩ := h
    exact ⟨i, held_set h1, h2⟩
  | tree cs =>
    simp only [resolve, Option.map_eq_some_iff] at h ⊢
    obtain ⟨i, h1, h2⟩ := h
    exact ⟨i, mapM_held_set _ _ h1, h2⟩
  | sym c t =>
    simp only [resolve, Option.map_eq_some_iff] at h ⊢
    obtain ⟨i, h1, h2⟩ := h
    exact ⟨i, held_set h1, h2⟩

/-- How far a thread is inside a call. -/
def PC.phase : PC V → Nat
  | .idle => 0
  | .missed _ => 1
  | .fresh _ _ => 2
  | .inSetdefault _ _ => 3

theorem phase_zero {p : PC V} : p.phase = 0 ↔ p = .idle := by
  cases p <;> simp [PC.phase]

/-- What a silent step does to the thread. -/
theorem step_pc {s s' : St V K} (h : Step s none s') (me : Nat)
    (hstay : s.pc me ≠ .idle → s'.pc me ≠ .idle) :
    s'.pc me = s.pc me ∨ ((s'.pc me).phase = (s.pc me).phase + 1 ∧
      ((s.pc me = .idle ∧ ∃ r, s'.pc me = .missed r) ∨
        ∃ r, (s.pc me).req = some r ∧ (s'.pc me).req = some r)) := by
  have aux : ∀ (t : Nat) (q : PC V), me ≠ t → upd s.pc t q me = s.pc me := fun t q h => upd_ne _ _ h
  cases h with
  | getMiss t r hpc hargs hty hd =>
    by_cases ht : me = t
    · subst ht
      right
      show (upd s.pc me _ me).phase = _ ∧ _
      simp only [upd_same, hpc, PC.phase, true_and]
      exact Or.inl ⟨r, rfl⟩
    · exact Or.inl (aux t _ ht)
  | alloc t r hpc =>
    by_cases ht : me = t
    · subst ht
      right
      show (upd s.pc me _ me).phase = _ ∧ _
      simp only [upd_same, hpc, PC.phase, true_and]
      exact Or.inr ⟨r, rfl, rfl⟩
    · exact Or.inl (aux t _ ht)
  | setdefaultMiss t r i hpc hd =>
    by_cases ht : me = t
    · subst ht
      right
      show (upd s.pc me _ me).phase = _ ∧ _
      simp only [upd_same, hpc, PC.phase, true_and]
      exact Or.inr ⟨r, rfl, rfl⟩
    · exact Or.inl (aux t _ ht)
  | interrupt t hpc =>
    by_cases ht : me = t
    · subst ht; exact absurd (upd_same _ _ _) (hstay hpc)
    · exact Or.inl (aux t _ ht)
  | load => exact Or.inl rfl
  | drop => exact Or.inl rfl
  | collect => exact Or.inl rfl
  | callback => exact Or.inl rfl

/-- The end of a call of another thread. -/
theorem ret_pc_other {s s' : St V K} {t : Nat} {r : Obj V} {i : Nat}
    (h : Step s (some (.ret t r i)) s') {me : Nat} (ht : me ≠ t) : s'.pc me = s.pc me := by
  cases h with
  | getHit => rfl
  | setdefaultHit => exact upd_ne _ _ ht
  | setdefaultStore => exact upd_ne _ _ ht

/-- The end of a call. -/
theorem ret_pc {s s' : St V K} {t : Nat} {r : Obj V} {i : Nat}
    (h : Step s (some (.ret t r i)) s') : s'.pc t = .idle := by
  cases h with
  | getHit _ _ _ hpc => exact hpc
  | setdefaultHit => exact upd_same _ _ _
  | setdefaultStore => exact upd_same _ _ _

/-- The steps of the thread are steps of the process. -/
theorem Own.run {me : Nat} {c c' : Cfg V K α} (h : Own me c c') : Run me c c' := by
  cases h with
  | inside hs hne hcall hroots hstay => exact .store none hs (by simp) hcall hroots hstay
  | made r i hr hs => exact .made r i hr hs
  | same i j h1 h2 => exact .same i j h1 h2
  | look i o h1 h2 => exact .look i o h1 h2
  | loop body x k => exact .loop body x k

theorem Run.inCall {me : Nat} {c c' : Cfg V K α} (h : InCall me c) (run : Run me c c') :
    InCall me c' := by
  cases run with
  | @store s s' hs p e hs' hne hcall hroots hstay =>
    have unchanged : s'.pc me = s.pc me → InCall me ⟨s', hs, p⟩ := by
      intro he r hr
      exact h r (by rw [← he]; exact hr)
    cases e with
    | some e =>
      obtain ⟨t, r, i⟩ := e
      have ht : me ≠ t := by rintro rfl; exact hne r i rfl
      exact unchanged (ret_pc_other hs' ht)
    | none =>
      rcases step_pc hs' me hstay with he | ⟨_, ⟨h1, r, h2⟩ | ⟨r, h1, h2⟩⟩
      · exact unchanged he
      · intro r' hr'
        have hr' : (s'.pc me).req = some r' := hr'
        rw [h2] at hr'
        cases hr'
        obtain ⟨c0, k, g1, g2⟩ := hcall h1 r h2
        refine ⟨c0, k, g1, fun r' hr' => ?_⟩
        have hr' : resolve hs c0 = some r' := hr'
        rw [g2] at hr'; cases hr'; rfl
      · intro r' hr'
        have hr' : (s'.pc me).req = some r' := hr'
        rw [h2] at hr'
        cases hr'
        exact h r h1
  | made r i hr hs =>
    intro r' hr'
    have := ret_pc hs
    have hr' : (_ : PC V).req = some r' := hr'
    rw [this] at hr'; cases hr'
  | same i j h1 h2 =>
    intro r hr
    obtain ⟨_, _, g, _⟩ := h r hr
    cases g
  | look i o h1 h2 =>
    intro r hr
    obtain ⟨_, _, g, _⟩ := h r hr
    cases g
  | loop body x k =>
    intro r hr
    obtain ⟨_, _, g, _⟩ := h r hr
    cases g
  | @forget s hs p g =>
    intro r hr
    obtain ⟨c0, k, g1, g2⟩ := h r hr
    exact ⟨c0, k, g1, fun r' hr' => g2 r' (resolve_set hr')⟩

theorem inCall_idle {me : Nat} {c : Cfg V K α} (h : c.st.pc me = .idle) : InCall me c := by
  intro r hr
  rw [h] at hr
  cases hr

/-! ### The next step -/

theorem resolve_used {s : St V K} {hs : List (Option Nat)} {vals : List (Ex K)} {c : Obj V} {x : Ex K}
    (hh : Holds s hs) (hm : Mean s.heap hs vals) (ha : ∀ h ∈ c.refs, ∃ i, held hs h = some i)
    (hx : valueOf vals c = some x) :
    ∃ r, resolve hs c = some r ∧ s.WellTyped r ∧ ∀ j ∈ r.refs, j ∈ s.roots := by
  have hget : ∀ n y, n ∈ c.refs → vals[n]? = some y → ∃ i, held hs n = some i ∧ Is s.heap i y := by
    intro n y hc hn
    obtain ⟨i, hi⟩ := ha n hc
    obtain ⟨z, h1, h2⟩ := hm.2 n i hi
    rw [hn] at h1; cases h1
    exact ⟨i, hi, h2⟩
  have htree : ∀ n t, n ∈ c.refs → treeAt vals n = some t →
      ∃ i, held hs n = some i ∧ Stands s.heap i t := by
    intro n t hc hn
    unfold treeAt at hn
    split at hn
    · rename_i t' h'
      cases hn
      exact hget n _ hc h'
    · cases hn
  cases c with
  | atom ty v => exact ⟨_, rfl, trivial, by simp [Obj.refs]⟩
  | treeAtom a =>
    simp only [valueOf] at hx
    split at hx
    · rename_i a' ha'
      obtain ⟨i, h1, v, h2, _⟩ := hget a _ (by simp [Obj.refs]) ha'
      refine ⟨.treeAtom i, by simp [resolve, h1], ⟨_, v, h2⟩, ?_⟩
      intro j hj
      simp [Obj.refs] at hj
      subst hj
      exact hh a _ h1
    · cases hx
  | tree cs =>
    simp only [valueOf, Option.map_eq_some_iff] at hx
    obtain ⟨ts, hts, _⟩ := hx
    have : ∀ (ds : List Nat) (ts : List (Tree K)), (∀ d ∈ ds, d ∈ cs) →
        ds.mapM (treeAt vals) = some ts →
        ∃ is, ds.mapM (held hs) = some is ∧ ∀ j ∈ is, j ∈ s.roots ∧
          ((∃ a, s.heap j = some (.treeAtom a)) ∨ (∃ ds, s.heap j = some (.tree ds))) := by
      intro ds
      induction ds with
      | nil => intro ts _ _; exact ⟨[], rfl, by simp⟩
      | cons c ds ih =>
        intro ts hsub h
        rw [List.mapM_cons] at h
        cases hc : treeAt vals c with
        | none => rw [hc] at h; simp at h
        | some t =>
          cases hcs : ds.mapM (treeAt vals) with
          | none => rw [hc, hcs] at h; simp at h
          | some ts' =>
            obtain ⟨is, h1, h2⟩ := ih ts' (fun d hd => hsub d (by simp [hd])) hcs
            obtain ⟨i, h3, h4⟩ := htree c t (hsub c (by simp)) hc
            refine ⟨i :: is, by rw [List.mapM_cons, h3, h1]; rfl, ?_⟩
            intro j hj
            simp at hj
            rcases hj with rfl | hj
            · exact ⟨hh c _ h3, stands_isTree h4⟩
            · exact h2 j hj
    obtain ⟨is, h1, h2⟩ := this cs ts (fun _ h => h) hts
    exact ⟨.tree is, by simp [resolve, h1], fun j hj => (h2 j hj).2, fun j hj => (h2 j hj).1⟩
  | sym c t =>
    simp only [valueOf, Option.map_eq_some_iff] at hx
    obtain ⟨t', ht', _⟩ := hx
    obtain ⟨i, h1, h2⟩ := htree t t' (by simp [Obj.refs]) ht'
    refine ⟨.sym c i, by simp [resolve, h1], stands_isTree h2, ?_⟩
    intro j hj
    simp [Obj.refs] at hj
    subst hj
    exact hh t _ h1

/-- As long as the program is not finished the thread itself can make a step. -/
theorem own_step {me : Nat} {c : Cfg V K α} {vals : List (Ex K)} {d : List (Ex K) × Prog V K α}
    (hist : History R c.st) (holds : Holds c.st c.hs) (mean : Mean c.st.heap c.hs vals)
    (call : InCall me c) (used : ∀ h, Uses c.prog h → ∃ i, held c.hs h = some i)
    (hv : valueStep (vals, c.prog) = some d) : ∃ c', Own me c c' := by
  obtain ⟨hi, hex⟩ := hist.inv
  obtain ⟨s, hs, p⟩ := c
  cases p with
  | ret a => cases hv
  | raise e => cases hv
  | make c k =>
    simp only [valueStep, Option.map_eq_some_iff] at hv
    obtain ⟨x, h1, _⟩ := hv
    obtain ⟨r, hr, hty, hargs⟩ := resolve_used holds mean used h1
    have hcall : ∀ r', (s.pc me).req = some r' → r' = r := by
      intro r' hr'
      obtain ⟨c0, k0, g1, g2⟩ := call r' hr'
      cases g1
      exact (g2 r hr).symm
    cases hpc : s.pc me with
    | idle =>
      cases hd : s.deref r.key with
      | some i => exact ⟨_, .made r i hr (.getHit s me r i hpc hargs hty hd)⟩
      | none =>
        refine ⟨_, .inside (.getMiss s me r hpc hargs hty hd) ?_ ?_ holds (fun _ => by show upd _ me _ me ≠ PC.idle; rw [upd_same]; simp)⟩
        · show upd _ _ _ me ≠ _
          rw [upd_same, hpc]; simp
        · intro _ r' hr'
          have h : upd s.pc me (.missed r) me = .missed r' := hr'
          rw [upd_same] at h
          cases h
          exact ⟨c, k, rfl, hr⟩
    | missed r' =>
      have := hcall r' (by rw [hpc]; rfl)
      subst this
      refine ⟨_, .inside (.alloc s me r' hpc) ?_ ?_ holds (fun _ => by show upd _ me _ me ≠ PC.idle; rw [upd_same]; simp)⟩
      · show upd _ _ _ me ≠ _
        rw [upd_same, hpc]; simp
      · intro h0; rw [hpc] at h0; cases h0
    | fresh r' i =>
      have := hcall r' (by rw [hpc]; rfl)
      subst this
      cases hd : s.deref r'.key with
      | some j => exact ⟨_, .made r' j hr (.setdefaultHit s me r' i j hpc hd)⟩
      | none =>
        refine ⟨_, .inside (.setdefaultMiss s me r' i hpc hd) ?_ ?_ holds (fun _ => by show upd _ me _ me ≠ PC.idle; rw [upd_same]; simp)⟩
        · show upd _ _ _ me ≠ _
          rw [upd_same, hpc]; simp
        · intro h0; rw [hpc] at h0; cases h0
    | inSetdefault r' i =>
      have := hcall r' (by rw [hpc]; rfl)
      subst this
      exact ⟨_, .made r' i hr (.setdefaultStore s me r' i hpc)⟩
  | same h h' k =>
    obtain ⟨i, hi⟩ := used h (Or.inl rfl)
    obtain ⟨j, hj⟩ := used h' (Or.inr rfl)
    exact ⟨_, .same i j hi hj⟩
  | look h k =>
    obtain ⟨i, hh⟩ := used h rfl
    obtain ⟨o, ho⟩ := Option.isSome_iff_exists.1 (hi.roots i (holds h i hh))
    exact ⟨_, .look i o hh ho⟩
  | loop body x k => exact ⟨_, .loop body x k⟩

/-! ### Counting -/

/-- The number of steps of a thread is bounded by what its program has done on values. -/
structure Budget (me : Nat) (start : List (Ex K) × Prog V K α) (n : Nat) (c : Cfg V K α)
    (vals : List (Ex K)) : Prop where
  call : InCall me c
  steps : ∃ m, ValueSteps start m (vals, c.prog) ∧ m ≤ n ∧ n ≤ 4 * m + (c.st.pc me).phase

theorem noCall_idle {me : Nat} {c : Cfg V K α} (h : InCall me c) (hp : ∀ c0 k, c.prog ≠ .make c0 k) :
    c.st.pc me = .idle := by
  cases hpc : c.st.pc me with
  | idle => rfl
  | missed r => obtain ⟨c0, k, g, _⟩ := h r (by rw [hpc]; rfl); exact absurd g (hp c0 k)
  | fresh r => obtain ⟨c0, k, g, _⟩ := h r (by rw [hpc]; rfl); exact absurd g (hp c0 k)
  | inSetdefault r => obtain ⟨c0, k, g, _⟩ := h r (by rw [hpc]; rfl); exact absurd g (hp c0 k)

theorem phase_le (p : PC V) : p.phase ≤ 3 := by cases p <;> simp [PC.phase]

/-- A step of the thread itself. -/
theorem Budget.own {me : Nat} {start : List (Ex K) × Prog V K α} {n : Nat} {c c' : Cfg V K α}
    {vals : List (Ex K)} (b : Budget me start n c vals) (hist : History R c.st)
    (holds : Holds c.st c.hs) (mean : Mean c.st.heap c.hs vals)
    (clean : ∀ h h' k, c.prog = .same h h' k → Clean R c) (h : Own me c c') :
    History (fun k => R k ∨ Race c'.st k) c'.st ∧ Holds c'.st c'.hs ∧
    ∃ vals', Mean c'.st.heap c'.hs vals' ∧ Budget me start (n + 1) c' vals' := by
  have hin := h.run.inCall b.call
  obtain ⟨g1, g2, vals', g3, g4⟩ := run_sim hist holds mean clean h.run
  obtain ⟨m, hm, hle, hn⟩ := b.steps
  have hph := phase_le (c.st.pc me)
  cases h with
  | @inside s s' hs p hs' hne hcall hroots hstay =>
    obtain ⟨hi, _⟩ := hist.inv
    have hist' := hist.step hs'
    refine ⟨g1, g2, vals, mean.mono (step_heap hi hs') hist'.inv.1 hroots, hin, m, hm, by omega, ?_⟩
    rcases step_pc hs' me hstay with he | ⟨he, _⟩
    · exact absurd he hne
    · show n + 1 ≤ 4 * m + (s'.pc me).phase
      have hn : n ≤ 4 * m + (s.pc me).phase := hn
      omega
  | @made s s' hs c k r i hr hs' =>
    obtain ⟨_, _, x, k3, k4⟩ := made_mean hist holds mean hr hs'
    refine ⟨g1, g2, vals ++ [x], k4, hin, m + 1, hm.step ?_, by omega, by omega⟩
    have := mean.1
    simp only [valueStep, k3, Option.map_some]
    rw [this]
  | same i j h1 h2 =>
    have hidle := noCall_idle b.call (fun c0 k e => by cases e)
    rw [hidle] at hn
    rcases g3 with g3 | g3
    · exact ⟨g1, g2, vals', g4, hin, m + 1, by
        simp only [Prod.mk.injEq] at g3
        obtain ⟨x, e1, e2⟩ := mean.2 _ i h1
        obtain ⟨y, e3, e4⟩ := mean.2 _ j h2
        exact hm.step (by
          have hd : decide (x = y) = decide (i = j) := by
            by_cases hij : i = j
            · subst hij; simp [e2.unique e4]
            · have : x ≠ y := by
                rintro rfl
                exact hij (Is.injective hist.inv.1 (Or.inl (holds _ i h1)) (Or.inl (holds _ j h2)) e2 e4
                  (fun d o hd ho => clean _ _ _ rfl _ i d o h1 hd ho))
              simp [hij, this]
          simp only [valueStep, e1, e3, hd]
          rw [g3.1]), by omega, by simp [PC.phase] at hn; omega⟩
    · exact ⟨g1, g2, vals', g4, hin, m + 1, hm.step g3, by omega, by simp [PC.phase] at hn; omega⟩
  | look i o h1 h2 =>
    have hidle := noCall_idle b.call (fun c0 k e => by cases e)
    rw [hidle] at hn
    obtain ⟨_, _, x, k3, k4, k5⟩ := look_mean hist holds mean h1 h2
    refine ⟨g1, g2, vals ++ x.parts, k5, hin, m + 1, hm.step ?_, by omega,
      by simp [PC.phase] at hn; omega⟩
    simp only [valueStep, k3, Option.map_some, k4]
  | loop body x k =>
    have hidle := noCall_idle b.call (fun c0 k e => by cases e)
    rw [hidle] at hn
    exact ⟨g1, g2, vals, mean, hin, m + 1, hm.step rfl, by omega, by simp [PC.phase] at hn; omega⟩

/-- A step that is not one of the thread. -/
theorem Budget.other {me : Nat} {start : List (Ex K) × Prog V K α} {n : Nat} {c c' : Cfg V K α}
    {vals : List (Ex K)} (b : Budget me start n c vals) (hist : History R c.st)
    (holds : Holds c.st c.hs) (mean : Mean c.st.heap c.hs vals) (h : Run me c c') (hno : ¬ Own me c c') :
    History (fun k => R k ∨ Race c'.st k) c'.st ∧ Holds c'.st c'.hs ∧
    Mean c'.st.heap c'.hs vals ∧ Budget me start n c' vals ∧ c'.prog = c.prog := by
  have hin := h.inCall b.call
  obtain ⟨m, hm, hle, hn⟩ := b.steps
  cases h with
  | @store s s' hs p e hs' hne hcall hroots hstay =>
    obtain ⟨hi, _⟩ := hist.inv
    have hist' := hist.step hs'
    refine ⟨hist', hroots, mean.mono (step_heap hi hs') hist'.inv.1 hroots, ⟨hin, m, hm, hle, ?_⟩, rfl⟩
    have hpc : s'.pc me = s.pc me := by
      cases e with
      | some e =>
        obtain ⟨t, r, i⟩ := e
        exact ret_pc_other hs' (by rintro rfl; exact hne r i rfl)
      | none =>
        cases Classical.em (s'.pc me = s.pc me) with
        | inl h => exact h
        | inr h => exact absurd (Own.inside hs' h hcall hroots hstay) hno
    show n ≤ 4 * m + (s'.pc me).phase
    rw [hpc]
    exact hn
  | made r i hr hs => exact absurd (Own.made r i hr hs) hno
  | same i j h1 h2 => exact absurd (Own.same i j h1 h2) hno
  | look i o h1 h2 => exact absurd (Own.look i o h1 h2) hno
  | loop body x k => exact absurd (Own.loop body x k) hno
  | @forget s hs p g =>
    have := hist.race
    refine ⟨by show History (fun k => R k ∨ Race s k) s; rw [this]; exact hist,
      fun n i hn => holds n i (held_set hn), ⟨?_, fun n i hn => mean.2 n i (held_set hn)⟩,
      ⟨hin, m, hm, hle, hn⟩, rfl⟩
    have := mean.1
    simp [this]

/-- Counted executions, where comparisons are decided by the values. -/
theorem counted_budget {me : Nat} {c c' : Cfg V K α} {R' : Key K → Prop} {vals : List (Ex K)} {n : Nat}
    {P : (Key K → Prop) → Cfg V K α → Prop}
    (hist : History R c.st) (idle : c.st.pc me = .idle) (holds : Holds c.st c.hs)
    (mean : Mean c.st.heap c.hs vals)
    (good : ∀ R' c', P R' c' → ∀ h h' k, c'.prog = .same h h' k → Clean R' c')
    (ex : Counted me P R c n R' c') :
    History R' c'.st ∧ Holds c'.st c'.hs ∧ P R' c' ∧
    ∃ vals', Mean c'.st.heap c'.hs vals' ∧ Budget me (vals, c.prog) n c' vals' := by
  induction ex with
  | refl h =>
    exact ⟨hist, holds, h, vals, mean, inCall_idle idle, 0, .refl, Nat.le_refl _, by omega⟩
  | other _ hrun hno hP ih =>
    obtain ⟨h1, h2, h3, vals', h4, h5⟩ := ih
    obtain ⟨g1, g2, g3, g4, _⟩ := h5.other h1 h2 h4 hrun hno
    exact ⟨g1, g2, hP, vals', g3, g4⟩
  | own _ hrun hP ih =>
    obtain ⟨h1, h2, h3, vals', h4, h5⟩ := ih
    obtain ⟨g1, g2, vals'', g3, g4⟩ := h5.own h1 h2 h4 (good _ _ h3) hrun
    exact ⟨g1, g2, hP, vals'', g3, g4⟩

theorem Counted.exec {me : Nat} {c c' : Cfg V K α} {R' : Key K → Prop} {n : Nat}
    {P : (Key K → Prop) → Cfg V K α → Prop} (h : Counted me P R c n R' c') : Exec me P R c R' c' := by
  induction h with
  | refl h => exact .refl h
  | other _ hr _ hp ih => exact ih.step hr hp
  | own _ hr hp ih => exact ih.step hr.run hp

/-- Every execution can be counted. -/
theorem Exec.counted {me : Nat} {c c' : Cfg V K α} {R' : Key K → Prop}
    {P : (Key K → Prop) → Cfg V K α → Prop} (h : Exec me P R c R' c') :
    ∃ n, Counted me P R c n R' c' := by
  induction h with
  | refl h => exact ⟨0, .refl h⟩
  | @step R' c' c'' _ hr hp ih =>
    obtain ⟨n, hn⟩ := ih
    cases Classical.em (Own me c' c'') with
    | inl h => exact ⟨n + 1, hn.own h hp⟩
    | inr h => exact ⟨n, hn.other hr h hp⟩

theorem Counted.mono {me : Nat} {c c' : Cfg V K α} {R' : Key K → Prop} {n : Nat}
    {P Q : (Key K → Prop) → Cfg V K α → Prop} (h : Counted me P R c n R' c')
    (hPQ : ∀ R c, P R c → Q R c) : Counted me Q R c n R' c' := by
  induction h with
  | refl h => exact .refl (hPQ _ _ h)
  | other _ hr hn hp ih => exact ih.other hr hn (hPQ _ _ hp)
  | own _ hr hp ih => exact ih.own hr (hPQ _ _ hp)

/-- A program that does not compare stays one. -/
theorem Counted.noCompare {me : Nat} {c c' : Cfg V K α} {R' : Key K → Prop} {n : Nat}
    {P : (Key K → Prop) → Cfg V K α → Prop} (h : Counted me P R c n R' c') (np : NoCompare c.prog) :
    Counted me (fun _ c => NoCompare c.prog) R c n R' c' := by
  have key : NoCompare c'.prog ∧ Counted me (fun _ c => NoCompare c.prog) R c n R' c' := by
    induction h with
    | refl h => exact ⟨np, .refl np⟩
    | other _ hr hn hp ih => exact ⟨ih.1.run hr, ih.2.other hr hn (ih.1.run hr)⟩
    | own _ hr hp ih => exact ⟨ih.1.run hr.run, ih.2.own hr (ih.1.run hr.run)⟩
  exact key.2

theorem Exec.noCompare {me : Nat} {c c' : Cfg V K α} {R' : Key K → Prop}
    {P : (Key K → Prop) → Cfg V K α → Prop} (h : Exec me P R c R' c') (np : NoCompare c.prog) :
    Exec me (fun _ c => NoCompare c.prog) R c R' c' := by
  obtain ⟨n, hn⟩ := h.counted
  exact (hn.noCompare np).exec

/-- What the budget says when the program is done on values after `N` steps. -/
theorem Budget.bound {me : Nat} {n N : Nat} {c : Cfg V K α} {vals vals0 vals' : List (Ex K)}
    {p : Prog V K α} {r : PyM α} (b : Budget me (vals0, p) n c vals)
    (y : YieldsIn N vals0 p r vals') :
    n ≤ 4 * N ∧ ((c.prog = .ofPy r ∧ N ≤ n) ∨ ∃ d, valueStep (vals, c.prog) = some d) := by
  obtain ⟨m, hm, hle, hn⟩ := b.steps
  obtain ⟨d, rfl, hd⟩ := y.through (valueStep_ofPy _ _) hm
  have hph := phase_le (c.st.pc me)
  cases hv : valueStep (vals, c.prog) with
  | some e =>
    rcases hd.head hv with ⟨rfl, he⟩ | ⟨d', rfl, _⟩
    · rw [← he, valueStep_ofPy] at hv; cases hv
    · exact ⟨by omega, Or.inr ⟨e, rfl⟩⟩
  | none =>
    have stuck : ∀ {e f : List (Ex K) × Prog V K α} {d : Nat}, ValueSteps e d f → valueStep e = none →
        d = 0 ∧ f = e := by
      intro e f d h he
      induction h with
      | refl => exact ⟨rfl, rfl⟩
      | step _ hs ih => obtain ⟨_, rfl⟩ := ih; rw [he] at hs; cases hs
    obtain ⟨rfl, he⟩ := stuck hd hv
    simp only [Prod.mk.injEq] at he
    have hidle : c.st.pc me = .idle := noCall_idle b.call (fun c0 k e => by
      rw [← he.2] at e
      cases r <;> cases e)
    rw [hidle] at hn
    simp only [PC.phase] at hn
    exact ⟨by omega, Or.inl ⟨he.2.symm, by omega⟩⟩

/-- The steps of the thread itself do not lose variables. -/
theorem Own.alive {me : Nat} {c c' : Cfg V K α} (h : Own me c c') (ha : Alive c.hs) : Alive c'.hs := by
  cases h with
  | inside => exact ha
  | made r i => exact alive_append ha [i]
  | same => exact ha
  | look i o => exact alive_append ha o.refs
  | loop => exact ha

theorem Solo.trans {me : Nat} {c c' c'' : Cfg V K α} {n m : Nat} (h : Solo me c n c')
    (h' : Solo me c' m c'') : Solo me c (n + m) c'' := by
  induction h' with
  | refl => exact h
  | step _ hs ih => exact ih.step hs

/-- Handles that the program on values uses exist. -/
theorem used_lt {vals : List (Ex K)} {p : Prog V K α} {d : List (Ex K) × Prog V K α}
    (hv : valueStep (vals, p) = some d) : ∀ h, Uses p h → h < vals.length := by
  have htree : ∀ n t, treeAt vals n = some t → n < vals.length := by
    intro n t hn
    unfold treeAt at hn
    split at hn
    · rename_i t' h'; exact (List.getElem?_eq_some_iff.1 h').1
    · cases hn
  intro h hu
  cases p with
  | ret => cases hu
  | raise => cases hu
  | loop => cases hu
  | same a b k =>
    simp only [valueStep] at hv
    split at hv
    · rename_i x y hx hy
      rcases hu with rfl | rfl
      · exact (List.getElem?_eq_some_iff.1 hx).1
      · exact (List.getElem?_eq_some_iff.1 hy).1
    · cases hv
  | look a k =>
    simp only [valueStep, Option.map_eq_some_iff] at hv
    obtain ⟨x, hx, _⟩ := hv
    cases hu
    exact (List.getElem?_eq_some_iff.1 hx).1
  | make c k =>
    simp only [valueStep, Option.map_eq_some_iff] at hv
    obtain ⟨x, hx, _⟩ := hv
    have hu : h ∈ c.refs := hu
    cases c with
    | atom => simp [Obj.refs] at hu
    | treeAtom a =>
      simp [Obj.refs] at hu
      subst hu
      simp only [valueOf] at hx
      split at hx
      · rename_i a' ha'; exact (List.getElem?_eq_some_iff.1 ha').1
      · cases hx
    | sym c t =>
      simp [Obj.refs] at hu
      subst hu
      simp only [valueOf, Option.map_eq_some_iff] at hx
      obtain ⟨t', ht', _⟩ := hx
      exact htree _ _ ht'
    | tree cs =>
      simp only [valueOf, Option.map_eq_some_iff] at hx
      obtain ⟨ts, hts, _⟩ := hx
      have : ∀ (ds : List Nat) (ts : List (Tree K)), ds.mapM (treeAt vals) = some ts →
          ∀ d ∈ ds, d < vals.length := by
        intro ds
        induction ds with
        | nil => intro ts _ d hd; cases hd
        | cons c ds ih =>
          intro ts h d hd
          rw [List.mapM_cons] at h
          cases hc : treeAt vals c with
          | none => rw [hc] at h; simp at h
          | some t =>
            cases hcs : ds.mapM (treeAt vals) with
            | none => rw [hc, hcs] at h; simp at h
            | some ts' =>
              rcases List.mem_cons.1 hd with rfl | hd
              · exact htree _ _ hc
              · exact ih ts' hcs d hd
      exact this cs ts hts h hu

/-- Alone, a thread finishes its program, if comparisons are decided by the values. -/
theorem solo_finish {me : Nat} {N : Nat} {vals0 vals' : List (Ex K)} {p : Prog V K α} {r : PyM α}
    (I : (Key K → Prop) → Cfg V K α → Prop)
    (good : ∀ R c, I R c → ∀ h h' k, c.prog = .same h h' k → Clean R c)
    (keep : ∀ R c c', I R c → Own me c c' → I (fun k => R k ∨ Race c'.st k) c')
    (y : YieldsIn N vals0 p r vals') : ∀ (fuel n : Nat) (R : Key K → Prop) (c : Cfg V K α)
    (vals : List (Ex K)), 4 * N - n < fuel → History R c.st → Holds c.st c.hs →
    Mean c.st.heap c.hs vals → Alive c.hs → I R c → Budget me (vals0, p) n c vals →
    ∃ (m : Nat) (s : St V K) (hs : List (Option Nat)), n + m ≤ 4 * N ∧
      Solo me c m ⟨s, hs, .ofPy r⟩ ∧ Mean s.heap hs vals' ∧ Alive hs ∧ s.pc me = .idle := by
  intro fuel
  induction fuel with
  | zero => intro n R c vals h; omega
  | succ fuel ih =>
    intro n R c vals hf hist holds mean alive np b
    obtain ⟨hb, ⟨hdone, _⟩ | ⟨d, hd⟩⟩ := b.bound y
    · obtain ⟨s, hs, q⟩ := c
      have hdone : q = .ofPy r := hdone
      subst hdone
      obtain ⟨m, hm, _⟩ := b.steps
      have := Yields.unique y.run hm.run
      exact ⟨0, s, hs, by omega, .refl, by rw [this.2]; exact mean, alive,
        noCall_idle b.call (fun c0 k e => by cases r <;> cases e)⟩
    · obtain ⟨c', hc'⟩ := own_step hist holds mean b.call (fun h hu => alive h (by
        rw [mean.1]; exact used_lt hd h hu)) hd
      obtain ⟨g1, g2, vals'', g3, g4⟩ := b.own hist holds mean (good R c np) hc'
      have hb' := (g4.bound y).1
      obtain ⟨m, s, hs, k1, k2, k3, k4⟩ := ih (n + 1) _ c' vals'' (by omega) g1 g2 g3 (hc'.alive alive)
        (keep R c c' np hc') g4
      exact ⟨1 + m, s, hs, by omega, (Solo.step .refl hc').trans k2, k3, k4⟩

/-- A thread's own steps leave the other threads where they are. -/
theorem Own.others {me : Nat} {c c' : Cfg V K α} (h : Own me c c') {t : Nat} (ht : t ≠ me) :
    c'.st.pc t = c.st.pc t := by
  cases h with
  | @inside s s' hs p hs' hne hcall hroots hstay =>
    show s'.pc t = s.pc t
    cases hs' with
    | getMiss t' => by_cases h' : t' = me
                    · subst h'; exact upd_ne _ _ ht
                    · exact absurd (upd_ne _ _ (Ne.symm h')) hne
    | alloc t' => by_cases h' : t' = me
                  · subst h'; exact upd_ne _ _ ht
                  · exact absurd (upd_ne _ _ (Ne.symm h')) hne
    | setdefaultMiss t' => by_cases h' : t' = me
                           · subst h'; exact upd_ne _ _ ht
                           · exact absurd (upd_ne _ _ (Ne.symm h')) hne
    | interrupt t' hpc => by_cases h' : t' = me
                          · subst h'; exact absurd (upd_same _ _ _) (hstay hpc)
                          · exact absurd (upd_ne _ _ (Ne.symm h')) hne
    | load => rfl
    | drop => rfl
    | collect => rfl
    | callback => rfl
  | made r i hr hs => exact ret_pc_other hs ht
  | same => rfl
  | look => rfl
  | loop => rfl

theorem Own.history {me : Nat} {c c' : Cfg V K α} (h : Own me c c') (hist : History R c.st)
    (holds : Holds c.st c.hs) :
    History (fun k => R k ∨ Race c'.st k) c'.st ∧ Holds c'.st c'.hs := by
  obtain ⟨vals, mean⟩ : ∃ vals : List (Ex K), Mean c.st.heap c.hs vals :=
    (C67_objects_have_values c.st c.hs hist holds).1
  cases h with
  | inside hs hne hcall hroots _ => exact ⟨hist.step hs, hroots⟩
  | made r i hr hs =>
    obtain ⟨g1, g2, _⟩ := made_mean hist holds mean hr hs
    exact ⟨g1, g2⟩
  | @same s => exact ⟨by show History (fun k => R k ∨ Race s k) s; rw [hist.race]; exact hist, holds⟩
  | look i o h1 h2 =>
    obtain ⟨g1, g2, _⟩ := look_mean hist holds mean h1 h2
    exact ⟨by rw [g1.race]; exact g1, g2⟩
  | @loop s => exact ⟨by show History (fun k => R k ∨ Race s k) s; rw [hist.race]; exact hist, holds⟩

/-- There have been no races and the other threads are not inside constructors. -/
def Quiet (me : Nat) (R : Key K → Prop) (c : Cfg V K α) : Prop :=
  (∀ k, ¬ R k) ∧ ∀ t, t ≠ me → c.st.pc t = .idle

theorem Quiet.clean {me : Nat} {c : Cfg V K α} (h : Quiet me R c) : Clean R c :=
  fun _ _ _ _ _ _ _ hk => h.1 _ hk

theorem Quiet.own {me : Nat} {c c' : Cfg V K α} (h : Quiet me R c) (ho : Own me c c') :
    Quiet me (fun k => R k ∨ Race c'.st k) c' := by
  have h2 : ∀ t, t ≠ me → c'.st.pc t = .idle := fun t ht => by rw [ho.others ht]; exact h.2 t ht
  exact ⟨fun k hk => hk.elim (h.1 k) (exclusive_race (alone_exclusive h2) k), h2⟩

/-! ### Executions that go on for ever -/

theorem Endless.counted {me : Nat} {P : (Key K → Prop) → Cfg V K α → Prop} {c : Cfg V K α}
    {f : Nat → Cfg V K α} {Rs : Nat → Key K → Prop} (h : Endless me P R c f Rs) (n : Nat) :
    ∃ k, Counted me P R c k (Rs n) (f n) := by
  induction n with
  | zero =>
    refine ⟨0, ?_⟩
    have := h.all 0
    rw [h.first, h.race0] at this ⊢
    exact .refl this
  | succ n ih =>
    obtain ⟨k, hk⟩ := ih
    have hp := h.all (n + 1)
    rw [h.races n] at hp ⊢
    cases Classical.em (Own me (f n) (f (n + 1))) with
    | inl ho => exact ⟨k + 1, hk.own ho hp⟩
    | inr ho => exact ⟨k, hk.other (h.run n) ho hp⟩

theorem Endless.later {me : Nat} {P : (Key K → Prop) → Cfg V K α → Prop} {c : Cfg V K α}
    {f : Nat → Cfg V K α} {Rs : Nat → Key K → Prop} (h : Endless me P R c f Rs) {n k : Nat}
    (hk : Counted me P R c k (Rs n) (f n)) (m : Nat) :
    ∃ k', k ≤ k' ∧ Counted me P R c k' (Rs (n + m)) (f (n + m)) := by
  induction m with
  | zero => exact ⟨k, Nat.le_refl _, hk⟩
  | succ m ih =>
    obtain ⟨k', hle, hk'⟩ := ih
    have hp := h.all (n + m + 1)
    rw [h.races (n + m)] at hp
    show ∃ k', k ≤ k' ∧ Counted me P R c k' (Rs (n + m + 1)) (f (n + m + 1))
    rw [h.races (n + m)]
    cases Classical.em (Own me (f (n + m)) (f (n + m + 1))) with
    | inl ho => exact ⟨k' + 1, by omega, hk'.own ho hp⟩
    | inr ho => exact ⟨k', hle, hk'.other (h.run _) ho hp⟩

/-- A thread that is treated fairly finishes. -/
theorem fair_finishes {me : Nat} {P : (Key K → Prop) → Cfg V K α → Prop} {c : Cfg V K α}
    {f : Nat → Cfg V K α} {Rs : Nat → Key K → Prop} {vals vals' : List (Ex K)} {N : Nat} {r : PyM α}
    (hist : History R c.st) (idle : c.st.pc me = .idle) (holds : Holds c.st c.hs)
    (mean : Mean c.st.heap c.hs vals)
    (good : ∀ R' c', P R' c' → ∀ h h' k, c'.prog = .same h h' k → Clean R' c')
    (y : YieldsIn N vals c.prog r vals') (h : Endless me P R c f Rs) (fair : Fair me f)
    (keeps : KeepsNeeded f) : ∃ n, (f n).prog = .ofPy r ∧ Mean (f n).st.heap (f n).hs vals' := by
  have key : ∀ k, (∃ n, (f n).prog = .ofPy r ∧ Mean (f n).st.heap (f n).hs vals') ∨
      ∃ n k', k ≤ k' ∧ Counted me P R c k' (Rs n) (f n) := by
    intro k
    induction k with
    | zero => obtain ⟨k, hk⟩ := h.counted 0; exact Or.inr ⟨0, k, Nat.zero_le _, hk⟩
    | succ k ih =>
      rcases ih with ih | ⟨n, k', hle, hc⟩
      · exact Or.inl ih
      · obtain ⟨m, hm, hf⟩ := fair n
        obtain ⟨d, rfl⟩ : ∃ d, m = n + d := ⟨m - n, by omega⟩
        obtain ⟨k2, hle2, hc2⟩ := h.later hc d
        obtain ⟨g1, g2, g3, v, g4, g5⟩ := counted_budget hist idle holds mean good hc2
        rcases hf with ho | hno
        · have hp := h.all (n + d + 1)
          rw [h.races (n + d)] at hp
          refine Or.inr ⟨n + d + 1, k2 + 1, by omega, ?_⟩
          rw [h.races (n + d)]
          exact hc2.own ho hp
        · obtain ⟨_, ⟨hdone, _⟩ | ⟨e, he⟩⟩ := g5.bound y
          · left
            refine ⟨n + d, hdone, ?_⟩
            obtain ⟨j, hj, _⟩ := g5.steps
            rw [hdone] at hj
            rw [(Yields.unique y.run hj.run).2]
            exact g4
          · exact absurd (own_step g1 g2 g4 g5.call (keeps (n + d)) he) hno
  rcases key (4 * N + 1) with hd | ⟨n, k, hle, hc⟩
  · exact hd
  · obtain ⟨_, _, _, v, _, g5⟩ := counted_budget hist idle holds mean good hc
    have := (g5.bound y).1
    omega

/-- A finished thread does not make steps. -/
theorem finished_noOwn {me : Nat} {s : St V K} {hs : List (Option Nat)} {r : PyM α}
    (h : s.pc me = .idle) : ¬ ∃ c, Own me ⟨s, hs, .ofPy r⟩ c := by
  rintro ⟨c, hc⟩
  generalize hp : (Prog.ofPy r : Prog V K α) = p at hc
  cases hc with
  | @inside _ s' _ _ hs' hne hcall _ hstay =>
    rcases step_pc hs' me hstay with he | ⟨_, ⟨_, r', hr'⟩ | ⟨r', hr', _⟩⟩
    · exact hne he
    · obtain ⟨c, k, e, _⟩ := hcall h r' hr'
      subst e
      cases r <;> cases hp
    · rw [h] at hr'; cases hr'
  | made => cases r <;> cases hp
  | same => cases r <;> cases hp
  | look => cases r <;> cases hp
  | loop => cases r <;> cases hp

/-- A thread that runs alone, and then a process in which nothing happens any more. -/
theorem Solo.endless {me : Nat} {P : (Key K → Prop) → Cfg V K α → Prop} {c c' : Cfg V K α} {n : Nat}
    (hist : History R c.st) (holds : Holds c.st c.hs) (alive : Alive c.hs) (hP : P R c)
    (keep : ∀ R c c', P R c → Own me c c' → P (fun k => R k ∨ Race c'.st k) c')
    (h : Solo me c n c') :
    ∃ f Rs, Endless me P R c f Rs ∧ (∀ m, n ≤ m → f m = c') ∧ (∀ m, Alive (f m).hs) ∧
      (∀ m, m < n → Own me (f m) (f (m + 1))) ∧ History (Rs n) c'.st ∧ Holds c'.st c'.hs := by
  induction h with
  | refl =>
    refine ⟨fun _ => c, fun _ => R, ⟨rfl, rfl, fun _ => ?_, fun _ => hist.race.symm, fun _ => hP⟩,
      fun _ _ => rfl, fun _ => alive, fun m hm => by omega, hist, holds⟩
    have : Run me c ⟨c.st, c.hs.set c.hs.length none, c.prog⟩ := .forget c.hs.length
    rw [List.set_eq_of_length_le (Nat.le_refl _)] at this
    exact this
  | @step n c' c'' _ ho ih =>
    obtain ⟨f, Rs, hE, hf, ha, hown, hh, hH⟩ := ih
    have hfn : f n = c' := hf n (Nat.le_refl _)
    have hPn : P (Rs n) c' := by have := hE.all n; rw [hfn] at this; exact this
    obtain ⟨hh2, hH2⟩ := ho.history hh hH
    refine ⟨fun m => if m ≤ n then f m else c'', fun m => if m ≤ n then Rs m else
      (fun k => Rs n k ∨ Race c''.st k), ⟨?_, ?_, ?_, ?_, ?_⟩, ?_, ?_, ?_, ?_, hH2⟩
    · simp [hE.first]
    · simp [hE.race0]
    · intro m
      by_cases h1 : m + 1 ≤ n
      · simp only [h1, if_true, show m ≤ n by omega]
        exact hE.run m
      · by_cases h2 : m ≤ n
        · have : m = n := by omega
          subst this
          simp only [Nat.le_refl, if_true, h1, if_false, hfn]
          exact ho.run
        · simp only [h1, h2, if_false]
          have : Run me c'' ⟨c''.st, c''.hs.set c''.hs.length none, c''.prog⟩ := .forget c''.hs.length
          rw [List.set_eq_of_length_le (Nat.le_refl _)] at this
          exact this
    · intro m
      by_cases h1 : m + 1 ≤ n
      · simp only [h1, if_true, show m ≤ n by omega]
        exact hE.races m
      · by_cases h2 : m ≤ n
        · have : m = n := by omega
          subst this
          simp only [Nat.le_refl, if_true, h1, if_false]
        · simp only [h1, h2, if_false]
          exact hh2.race.symm
    · intro m
      by_cases h1 : m ≤ n
      · simp only [h1, if_true]; exact hE.all m
      · simp only [h1, if_false]; exact keep _ _ _ hPn ho
    · intro m hm
      simp only [show ¬ m ≤ n by omega, if_false]
    · intro m
      by_cases h1 : m ≤ n
      · simp only [h1, if_true]; exact ha m
      · simp only [h1, if_false]
        have := ha n
        rw [hfn] at this
        exact ho.alive this
    · intro m hm
      by_cases h1 : m = n
      · subst h1
        simp only [Nat.le_refl, if_true, show ¬ m + 1 ≤ m by omega, if_false, hfn]
        exact ho
      · simp only [show m ≤ n by omega, show m + 1 ≤ n by omega, if_true]
        exact hown m (by omega)
    · simp only [show ¬ n + 1 ≤ n by omega, if_false]
      exact hh2

/-- There are fair endless executions. -/
theorem fair_runs {me : Nat} {P : (Key K → Prop) → Cfg V K α → Prop} {c : Cfg V K α}
    {vals vals' : List (Ex K)} {N : Nat} {r : PyM α}
    (hist : History R c.st) (idle : c.st.pc me = .idle) (holds : Holds c.st c.hs)
    (mean : Mean c.st.heap c.hs vals) (alive : Alive c.hs) (hP : P R c)
    (good : ∀ R' c', P R' c' → ∀ h h' k, c'.prog = .same h h' k → Clean R' c')
    (keep : ∀ R c c', P R c → Own me c c' → P (fun k => R k ∨ Race c'.st k) c')
    (y : YieldsIn N vals c.prog r vals') :
    ∃ f Rs, Endless me P R c f Rs ∧ Fair me f ∧ KeepsNeeded f := by
  obtain ⟨m, s, hs, _, h2, _, _, h5⟩ := solo_finish P good keep y (4 * N - 0 + 1) 0 R c vals (by omega) hist
    holds mean alive hP ⟨inCall_idle idle, 0, .refl, Nat.le_refl _, by omega⟩
  obtain ⟨f, Rs, g1, g2, g3, _⟩ := h2.endless hist holds alive hP keep
  refine ⟨f, Rs, g1, ?_, ?_⟩
  · intro n
    refine ⟨n + m, by omega, Or.inr ?_⟩
    rw [g2 (n + m) (by omega)]
    exact finished_noOwn h5
  · intro n h hu
    obtain ⟨k, hk⟩ := g1.counted n
    obtain ⟨_, _, _, v, k4, k5⟩ := counted_budget hist idle holds mean good hk
    obtain ⟨_, ⟨hd, _⟩ | ⟨d, hd⟩⟩ := k5.bound y
    · rw [hd] at hu
      cases r <;> cases hu
    · exact g3 n h (by rw [k4.1]; exact used_lt hd h hu)

end Verif.Store
