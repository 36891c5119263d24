import Verif.Lemmas.Progress
import Verif.Props.ClientUser

/-!
# C69: no thread ever waits for another

The stores are not guarded by locks.  A thread that makes, reads or compares expression objects can
always make its next step, whatever the other threads are doing and wherever they were stopped, and the
number of its own steps up to the result has a bound that depends on its program and on nothing else.
-/

set_option linter.unusedSectionVars false

namespace Verif.Props
open Verif.Store
variable {V K α : Type} [DecidableEq K] [PyVal V K] {R R' : Key K → Prop}

/-! ### All programs -/

/-- **C69, never blocked.** In every state that a process reaches while thread `me` runs a program that
ends on values, `me` has finished, with the result of the program on values, or can make a step itself.
The other threads may be anywhere, for instance stopped for ever in the middle of a constructor. -/
theorem C69_never_blocked (me : Nat) (s : St V K) (hs : List (Option Nat)) (vals vals' : List (Ex K))
    (p : Prog V K α) (r : PyM α) (c : Cfg V K α) (hist : History R s) (idle : s.pc me = .idle)
    (holds : Holds s hs) (mean : Mean s.heap hs vals) (y : Yields vals p r vals')
    (ex : Exec me Clean R ⟨s, hs, p⟩ R' c)
    (needed : ∀ h, Uses c.prog h → ∃ i, held c.hs h = some i) :
    c.prog = .ofPy r ∨ ∃ c', Own me c c' := by
  obtain ⟨N, hN⟩ := ValueRun.counted y
  obtain ⟨n, hn⟩ := ex.counted
  obtain ⟨g1, g2, _, v, g4, g5⟩ := counted_budget hist idle holds mean (fun _ _ h _ _ _ _ => h) hn
  obtain ⟨_, ⟨hd, _⟩ | ⟨d, hd⟩⟩ := g5.bound hN
  · exact Or.inl hd
  · exact Or.inr (own_step g1 g2 g4 g5.call needed hd)

/-- **C69, a bound.** If the program ends on values after `N` steps, then a thread that runs it makes at
most `4 * N` steps of its own, in every process and under every schedule; when it has finished it has
made at least `N`, and has the result of the program on values. -/
theorem C69_bounded (me : Nat) (s : St V K) (hs : List (Option Nat)) (vals vals' : List (Ex K))
    (p : Prog V K α) (r : PyM α) (N n : Nat) (c : Cfg V K α) (hist : History R s)
    (idle : s.pc me = .idle) (holds : Holds s hs) (mean : Mean s.heap hs vals)
    (y : YieldsIn N vals p r vals') (ex : Counted me Clean R ⟨s, hs, p⟩ n R' c) :
    n ≤ 4 * N ∧ ∀ r', c.prog = .ofPy r' → r' = r ∧ N ≤ n := by
  obtain ⟨_, _, _, v, g4, g5⟩ := counted_budget hist idle holds mean (fun _ _ h _ _ _ _ => h) ex
  obtain ⟨g6, g7⟩ := g5.bound y
  refine ⟨g6, fun r' hr' => ?_⟩
  rcases g7 with ⟨hd, hle⟩ | ⟨d, hd⟩
  · rw [hd] at hr'
    cases r <;> cases r' <;> cases hr' <;> exact ⟨rfl, hle⟩
  · rw [hr', valueStep_ofPy] at hd; cases hd

/-- **C69, fairness is enough.** In an execution that goes on for ever, if the scheduler lets the thread
make a step again and again and its variables are not taken away while it needs them, it finishes, with
the result of the program on values. -/
theorem C69_fair (me : Nat) (s : St V K) (hs : List (Option Nat)) (vals vals' : List (Ex K))
    (p : Prog V K α) (r : PyM α) (f : Nat → Cfg V K α) (Rs : Nat → Key K → Prop) (hist : History R s)
    (idle : s.pc me = .idle) (holds : Holds s hs) (mean : Mean s.heap hs vals)
    (y : Yields vals p r vals') (ex : Endless me Clean R ⟨s, hs, p⟩ f Rs) (fair : Fair me f)
    (keeps : KeepsNeeded f) :
    ∃ n, (f n).prog = .ofPy r ∧ Mean (f n).st.heap (f n).hs vals' := by
  obtain ⟨N, hN⟩ := ValueRun.counted y
  exact fair_finishes (c := ⟨s, hs, p⟩) hist idle holds mean (fun _ _ h _ _ _ _ => h) hN ex fair keeps

/-! ### Programs that do not compare: all races allowed -/

/-- **C69, programs that do not compare, never blocked.** The same for programs that never compare two
objects, whatever races there are or have been. -/
theorem C69_never_blocked_races (me : Nat) (s : St V K) (hs : List (Option Nat))
    (vals vals' : List (Ex K)) (p : Prog V K α) (np : NoCompare p) (r : PyM α) (c : Cfg V K α)
    (hist : History R s) (idle : s.pc me = .idle) (holds : Holds s hs) (mean : Mean s.heap hs vals)
    (y : Yields vals p r vals') (ex : Exec me (fun _ _ => True) R ⟨s, hs, p⟩ R' c)
    (needed : ∀ h, Uses c.prog h → ∃ i, held c.hs h = some i) :
    c.prog = .ofPy r ∨ ∃ c', Own me c c' := by
  obtain ⟨N, hN⟩ := ValueRun.counted y
  obtain ⟨n, hn⟩ := (ex.noCompare np).counted
  obtain ⟨g1, g2, _, v, g4, g5⟩ := counted_budget hist idle holds mean
    (fun _ _ h _ _ _ he => by rw [he] at h; cases h) hn
  obtain ⟨_, ⟨hd, _⟩ | ⟨d, hd⟩⟩ := g5.bound hN
  · exact Or.inl hd
  · exact Or.inr (own_step g1 g2 g4 g5.call needed hd)

/-- **C69, programs that do not compare, a bound.** -/
theorem C69_bounded_races (me : Nat) (s : St V K) (hs : List (Option Nat)) (vals vals' : List (Ex K))
    (p : Prog V K α) (np : NoCompare p) (r : PyM α) (N n : Nat) (c : Cfg V K α) (hist : History R s)
    (idle : s.pc me = .idle) (holds : Holds s hs) (mean : Mean s.heap hs vals)
    (y : YieldsIn N vals p r vals') (ex : Counted me (fun _ _ => True) R ⟨s, hs, p⟩ n R' c) :
    n ≤ 4 * N ∧ ∀ r', c.prog = .ofPy r' → r' = r ∧ N ≤ n := by
  obtain ⟨_, _, _, v, g4, g5⟩ := counted_budget hist idle holds mean
    (fun _ _ h _ _ _ he => by rw [he] at h; cases h) (ex.noCompare np)
  obtain ⟨g6, g7⟩ := g5.bound y
  refine ⟨g6, fun r' hr' => ?_⟩
  rcases g7 with ⟨hd, hle⟩ | ⟨d, hd⟩
  · rw [hd] at hr'
    cases r <;> cases r' <;> cases hr' <;> exact ⟨rfl, hle⟩
  · rw [hr', valueStep_ofPy] at hd; cases hd

/-- **C69, alone from anywhere.** At any moment, whatever the races up to then and wherever the other
threads are, all of them can stop for ever: thread `me` then finishes a program that does not compare, by
its own steps alone, and these are at most four for each step of the program on values. -/
theorem C69_solo (me : Nat) (s : St V K) (hs : List (Option Nat)) (vals vals' : List (Ex K))
    (p : Prog V K α) (np : NoCompare p) (r : PyM α) (N : Nat) (c : Cfg V K α) (hist : History R s)
    (idle : s.pc me = .idle) (holds : Holds s hs) (mean : Mean s.heap hs vals)
    (y : YieldsIn N vals p r vals') (ex : Exec me (fun _ _ => True) R ⟨s, hs, p⟩ R' c)
    (alive : ∀ h, h < c.hs.length → ∃ i, held c.hs h = some i) :
    ∃ (m : Nat) (s' : St V K) (hs' : List (Option Nat)), m ≤ 4 * N ∧
      Solo me c m ⟨s', hs', .ofPy r⟩ ∧ Mean s'.heap hs' vals' ∧
      (∀ h, h < hs'.length → ∃ i, held hs' h = some i) := by
  obtain ⟨n, hn⟩ := (ex.noCompare np).counted
  obtain ⟨g1, g2, g3, v, g4, g5⟩ := counted_budget hist idle holds mean
    (fun _ _ h _ _ _ he => by rw [he] at h; cases h) hn
  obtain ⟨m, s', hs', k1, k2, k3, k4, _⟩ := solo_finish (fun _ c => NoCompare c.prog)
    (fun _ _ h _ _ _ he => by rw [he] at h; cases h) (fun _ _ _ h ho => h.run ho.run) y
    (4 * N - n + 1) n R' c v (by omega) g1 g2 g4 alive g3 g5
  exact ⟨m, s', hs', by omega, k2, k3, k4⟩

/-- **C69, programs that do not compare, fairness is enough.** -/
theorem C69_fair_races (me : Nat) (s : St V K) (hs : List (Option Nat)) (vals vals' : List (Ex K))
    (p : Prog V K α) (np : NoCompare p) (r : PyM α) (f : Nat → Cfg V K α) (Rs : Nat → Key K → Prop)
    (hist : History R s) (idle : s.pc me = .idle) (holds : Holds s hs) (mean : Mean s.heap hs vals)
    (y : Yields vals p r vals') (ex : Endless me (fun _ _ => True) R ⟨s, hs, p⟩ f Rs)
    (fair : Fair me f) (keeps : KeepsNeeded f) :
    ∃ n, (f n).prog = .ofPy r ∧ Mean (f n).st.heap (f n).hs vals' := by
  obtain ⟨N, hN⟩ := ValueRun.counted y
  have hall : ∀ n, NoCompare (f n).prog := by
    intro n
    induction n with
    | zero => rw [ex.first]; exact np
    | succ n ih => exact ih.run (ex.run n)
  exact fair_finishes (c := ⟨s, hs, p⟩) (P := fun _ c => NoCompare c.prog) hist idle holds mean
    (fun _ _ h _ _ _ he => by rw [he] at h; cases h) hN
    ⟨ex.first, ex.race0, ex.run, ex.races, hall⟩ fair keeps

/-! ### One constructor call -/

/-- **C69, a constructor call.** A call of a constructor takes at most four steps of the calling thread,
in every process and under every schedule with any races, and until it returns the thread can always
make the next one. -/
theorem C69_constructor (me : Nat) (s : St V K) (hs : List (Option Nat)) (vals : List (Ex K))
    (call : Obj V) (x : Ex K) (n : Nat) (c : Cfg V K Nat) (hist : History R s)
    (idle : s.pc me = .idle) (holds : Holds s hs) (mean : Mean s.heap hs vals)
    (typed : valueOf vals call = some x)
    (ex : Counted me (fun _ _ => True) R ⟨s, hs, .make call .ret⟩ n R' c) :
    n ≤ 4 ∧ ((∀ h, Uses c.prog h → ∃ i, held c.hs h = some i) →
      (∃ h, c.prog = .ret h ∧ ∀ i, held c.hs h = some i → Is c.st.heap i x) ∨ ∃ c', Own me c c') := by
  have np : NoCompare (.make call .ret : Prog V K Nat) := .make _ (fun _ => .ret _)
  have y : YieldsIn 1 vals (.make call .ret : Prog V K Nat) (.ok vals.length) (vals ++ [x]) :=
    .step .refl (by simp [valueStep, typed, Prog.ofPy])
  refine ⟨by have := (C69_bounded_races me s hs vals _ _ np _ 1 n c hist idle holds mean y ex).1; omega,
    fun needed => ?_⟩
  rcases C69_never_blocked_races me s hs vals _ _ np _ c hist idle holds mean y.run ex.exec needed
    with h | h
  · left
    refine ⟨vals.length, h, fun i hi => ?_⟩
    obtain ⟨_, _, _, v, g4, g5⟩ := exec_noCompare hist holds mean np ex.exec
    rw [h] at g4
    obtain ⟨_, rfl⟩ := Yields.unique y.run (g4 : Yields _ _ (.ok _) _)
    obtain ⟨z, k1, k2⟩ := g5.2 _ i hi
    simp at k1
    rw [k1]; exact k2
  · exact Or.inr h

/-! ### User programs -/

section
variable {V : Type} [PyVal V Val] {lit : Val → V} {R R' : Key Val → Prop}

/-- **C69, user programs.** For every user program (import simplecas, then any list of calls of its API)
there is a number such that a thread that runs it makes at most so many steps of its own, in every
process and under every schedule without a race for its objects; until it has finished it can always make
the next one, and when it has finished its results are what the program gives on values. -/
theorem C69_session (hl : ∀ v, PyVal.key (lit v) = v) (prog : List Store.Instr) :
    ∃ B : Nat, ∀ (me n : Nat) (R R' : Key Val → Prop) (s : St V Val) (c : Cfg V Val (List Prog.ObjH)),
      History R s → s.pc me = .idle →
      Counted me Clean R ⟨s, [], Prog.session lit prog⟩ n R' c →
      n ≤ B ∧ ((∀ h, Uses c.prog h → ∃ i, held c.hs h = some i) →
        (∃ r, c.prog = .ofPy r ∧ ScriptOutcome c.st.heap c.hs r (scriptValue [] prog)) ∨
        ∃ c', Own me c c') := by
  obtain ⟨r, v, hy, _, _⟩ := computes_session (V := V) (vals := []) hl prog
  obtain ⟨N, hN⟩ := ValueRun.counted hy
  refine ⟨4 * N, ?_⟩
  intro me n R R' s c hist idle ex
  have hm0 : Mean s.heap [] ([] : List (Ex Val)) := ⟨rfl, by intro h i hh; simp [held] at hh⟩
  have hh0 : Holds s [] := by intro h i hh; simp [held] at hh
  refine ⟨(C69_bounded me s [] [] v _ r N n c hist idle hh0 hm0 hN ex).1, fun needed => ?_⟩
  rcases C69_never_blocked me s [] [] v _ r c hist idle hh0 hm0 hy ex.exec needed with h | h
  · obtain ⟨s', hs', q⟩ := c
    have h : q = .ofPy r := h
    subst h
    exact Or.inl ⟨r, rfl, C68_session me s s' hs' hl prog r hist ex.exec⟩
  · exact Or.inr h

/-- **C69, interactive programs.** Likewise for the first `k` statements of a program with control flow
and exception handlers of its own (C71). -/
theorem C69_interactive {F : Type} [HasNone F] (hl : ∀ v, PyVal.key (lit v) = v) (A : Libs F)
    (user : User F) (k : Nat) :
    ∃ B : Nat, ∀ (me n : Nat) (R R' : Key Val → Prop) (s : St V Val)
      (c : Cfg V Val (List (Prog.ThingH F))), History R s → s.pc me = .idle →
      Counted me Clean R ⟨s, [], Prog.fullSession lit A user k⟩ n R' c →
      n ≤ B ∧ ((∀ h, Uses c.prog h → ∃ i, held c.hs h = some i) →
        (∃ ts, c.prog = .ret ts ∧ List.Forall₂ (IsThing c.st.heap c.hs) ts (sessionValue A user k [])) ∨
        ∃ c', Own me c c') := by
  obtain ⟨r, v, hy, _, _⟩ := computes_fullSession (V := V) (vals := []) hl A user k
  obtain ⟨N, hN⟩ := ValueRun.counted hy
  refine ⟨4 * N, ?_⟩
  intro me n R R' s c hist idle ex
  have hm0 : Mean s.heap [] ([] : List (Ex Val)) := ⟨rfl, by intro h i hh; simp [held] at hh⟩
  have hh0 : Holds s [] := by intro h i hh; simp [held] at hh
  refine ⟨(C69_bounded me s [] [] v _ r N n c hist idle hh0 hm0 hN ex).1, fun needed => ?_⟩
  rcases C69_never_blocked me s [] [] v _ r c hist idle hh0 hm0 hy ex.exec needed with h | h
  · obtain ⟨s', hs', q⟩ := c
    have h : q = .ofPy r := h
    subst h
    obtain ⟨ts, h1, h2⟩ := C71_session me s s' hs' hl A user k r hist ex.exec
    subst h1
    exact Or.inl ⟨ts, rfl, h2⟩
  · exact Or.inr h

end

/-! ### The hypotheses can be met -/

/-- Every program that ends on values has a fair endless execution from every quiet state: the hypotheses
of `C69_fair`, and those of `C69_never_blocked` and `C69_bounded` in each of its states. -/
theorem C69_fair_runs (me : Nat) (s : St V K) (hs : List (Option Nat)) (vals vals' : List (Ex K))
    (p : Prog V K α) (r : PyM α) (hist : History (fun _ => False) s) (idle : ∀ t, s.pc t = .idle)
    (holds : Holds s hs) (mean : Mean s.heap hs vals)
    (alive : ∀ h, h < hs.length → ∃ i, held hs h = some i) (y : Yields vals p r vals') :
    ∃ f Rs, Endless me Clean (fun _ => False) ⟨s, hs, p⟩ f Rs ∧ Fair me f ∧ KeepsNeeded f := by
  obtain ⟨N, hN⟩ := ValueRun.counted y
  obtain ⟨f, Rs, h1, h2⟩ := fair_runs (me := me) (P := Quiet me) (c := ⟨s, hs, p⟩) hist (idle me) holds
    mean alive ⟨fun _ h => h, fun t _ => idle t⟩ (fun _ _ h _ _ _ _ => h.clean)
    (fun _ _ _ h ho => h.own ho) hN
  exact ⟨f, Rs, ⟨h1.first, h1.race0, h1.run, h1.races, fun n => (h1.all n).clean⟩, h2⟩

/-- Every program that ends on values and does not compare has one from every state in which the thread is
not inside a constructor: the hypotheses of `C69_fair_races`. -/
theorem C69_fair_runs_races (me : Nat) (s : St V K) (hs : List (Option Nat)) (vals vals' : List (Ex K))
    (p : Prog V K α) (np : NoCompare p) (r : PyM α) (hist : History R s) (idle : s.pc me = .idle)
    (holds : Holds s hs) (mean : Mean s.heap hs vals)
    (alive : ∀ h, h < hs.length → ∃ i, held hs h = some i) (y : Yields vals p r vals') :
    ∃ f Rs, Endless me (fun _ _ => True) R ⟨s, hs, p⟩ f Rs ∧ Fair me f ∧ KeepsNeeded f := by
  obtain ⟨N, hN⟩ := ValueRun.counted y
  obtain ⟨f, Rs, h1, h2⟩ := fair_runs (me := me) (P := fun _ c => NoCompare c.prog) (c := ⟨s, hs, p⟩)
    hist idle holds mean alive np (fun _ _ h _ _ _ he => by rw [he] at h; cases h)
    (fun _ _ _ h ho => h.run ho.run) hN
  exact ⟨f, Rs, ⟨h1.first, h1.race0, h1.run, h1.races, fun _ => trivial⟩, h2⟩

/-- The bound is reached: a new process makes a new atom in four steps of its own. -/
theorem C69_bound_reached (me : Nat) (ty : AtomType) (v : V) :
    ∃ c : Cfg V K Nat, Counted me Clean (fun _ => False) ⟨St.init, [], .make (.atom ty v) .ret⟩ 4
      (fun _ => False) c ∧ c.prog = .ret 0 := by
  obtain ⟨R', c, h, hp⟩ : ∃ (R' : Key K → Prop) (c : Cfg V K Nat),
      Counted me (Quiet me) (fun _ => False) ⟨St.init, [], .make (.atom ty v) .ret⟩ 4 R' c ∧
      c.prog = .ret 0 := by
    let r : Obj V := .atom ty v
    let s0 : St V K := St.init
    let s1 : St V K := { s0 with pc := upd s0.pc me (.missed r) }
    let s2 : St V K := { s1 with heap := upd s1.heap s1.next (some r), next := s1.next + 1,
                                 pc := upd s1.pc me (.fresh r s1.next) }
    let s3 : St V K := { s2 with pc := upd s2.pc me (.inSetdefault r s1.next) }
    let s4 : St V K := { s3 with table := upd s3.table r.key (some s1.next),
                                 roots := s1.next :: s3.roots, pc := upd s3.pc me .idle }
    have hnone : ∀ (s : St V K), ∀ h i, held [] h = some i → i ∈ s.roots := by
      intro s h i hh; simp [held] at hh
    have st1 : Step s0 none s1 := .getMiss s0 me r rfl (by simp [r, Obj.refs]) trivial rfl
    have st2 : Step s1 none s2 := .alloc s1 me r (upd_same _ _ _)
    have st3 : Step s2 none s3 := .setdefaultMiss s2 me r s1.next (upd_same _ _ _) rfl
    have st4 : Step s3 (some (.ret me r s1.next)) s4 := .setdefaultStore s3 me r s1.next (upd_same _ _ _)
    have o1 : Own me (⟨s0, [], .make r .ret⟩ : Cfg V K Nat) ⟨s1, [], .make r .ret⟩ :=
      .inside st1 (by show upd _ _ _ me ≠ PC.idle; rw [upd_same]; simp)
        (fun _ r' hr' => by
          have h : upd s0.pc me (.missed r) me = .missed r' := hr'
          rw [upd_same] at h; cases h; exact ⟨r, _, rfl, rfl⟩) (hnone _) (fun _ => by show upd _ me _ me ≠ PC.idle; rw [upd_same]; simp)
    have o2 : Own me (⟨s1, [], .make r .ret⟩ : Cfg V K Nat) ⟨s2, [], .make r .ret⟩ :=
      .inside st2 (by show upd _ _ _ me ≠ upd _ _ _ me; rw [upd_same, upd_same]; simp)
        (fun h0 => by have h : upd s0.pc me (.missed r) me = .idle := h0; rw [upd_same] at h; cases h)
        (hnone _) (fun _ => by show upd _ me _ me ≠ PC.idle; rw [upd_same]; simp)
    have o3 : Own me (⟨s2, [], .make r .ret⟩ : Cfg V K Nat) ⟨s3, [], .make r .ret⟩ :=
      .inside st3 (by show upd _ _ _ me ≠ upd _ _ _ me; rw [upd_same, upd_same]; simp)
        (fun h0 => by
          have h : upd s1.pc me (.fresh r s1.next) me = .idle := h0; rw [upd_same] at h; cases h)
        (hnone _) (fun _ => by show upd _ me _ me ≠ PC.idle; rw [upd_same]; simp)
    have o4 : Own me (⟨s3, [], .make r .ret⟩ : Cfg V K Nat) ⟨s4, [some s1.next], .ret 0⟩ :=
      .made r s1.next rfl st4
    have q0 : Quiet me (fun _ => False) (⟨s0, [], .make r .ret⟩ : Cfg V K Nat) :=
      ⟨fun _ h => h, fun _ _ => rfl⟩
    have q1 := q0.own o1
    have q2 := q1.own o2
    have q3 := q2.own o3
    exact ⟨_, _, ((((Counted.refl q0).own o1 q1).own o2 q2).own o3 q3).own o4 (q3.own o4), rfl⟩
  have hq : Quiet me R' c := by
    cases h with
    | other _ _ _ hp => exact hp
    | own _ _ hp => exact hp
  have : R' = fun _ => False := by
    funext k
    exact propext ⟨fun h => hq.1 k h, fun h => h.elim⟩
  subst this
  exact ⟨c, h.mono (fun _ _ h => h.clean), hp⟩

/-- A user program under a fair scheduler: the hypotheses of `C69_session` in every state of an endless
execution. -/
example {V : Type} [PyVal V Val] {lit : Val → V} (hl : ∀ v, PyVal.key (lit v) = v) (me : Nat)
    (prog : List Store.Instr) :
    ∃ f Rs, Endless me Clean (fun _ => False) ⟨(St.init : St V Val), [], Prog.session lit prog⟩ f Rs ∧
      Fair me f ∧ KeepsNeeded f ∧ ∀ n, ∃ k, Counted me Clean (fun _ => False)
        ⟨(St.init : St V Val), [], Prog.session lit prog⟩ k (Rs n) (f n) := by
  obtain ⟨r, v, hy, _, _⟩ := computes_session (V := V) (vals := []) hl prog
  obtain ⟨f, Rs, h1, h2, h3⟩ := C69_fair_runs me (St.init : St V Val) [] [] v _ r .start (fun _ => rfl)
    (by intro h i hh; simp [held] at hh) ⟨rfl, by intro h i hh; simp [held] at hh⟩
    (by intro h hh; simp at hh) hy
  exact ⟨f, Rs, h1, h2, h3, fun n => h1.counted n⟩

/-- The same for interactive programs: the hypotheses of `C69_interactive`. -/
example {V F : Type} [PyVal V Val] [HasNone F] {lit : Val → V} (hl : ∀ v, PyVal.key (lit v) = v)
    (me : Nat) (A : Libs F) (user : User F) (j : Nat) :
    ∃ f Rs, Endless me Clean (fun _ => False)
        ⟨(St.init : St V Val), [], Prog.fullSession lit A user j⟩ f Rs ∧
      Fair me f ∧ KeepsNeeded f ∧ ∀ n, ∃ k, Counted me Clean (fun _ => False)
        ⟨(St.init : St V Val), [], Prog.fullSession lit A user j⟩ k (Rs n) (f n) := by
  obtain ⟨r, v, hy, _, _⟩ := computes_fullSession (V := V) (vals := []) hl A user j
  obtain ⟨f, Rs, h1, h2, h3⟩ := C69_fair_runs me (St.init : St V Val) [] [] v _ r .start (fun _ => rfl)
    (by intro h i hh; simp [held] at hh) ⟨rfl, by intro h i hh; simp [held] at hh⟩
    (by intro h hh; simp at hh) hy
  exact ⟨f, Rs, h1, h2, h3, fun n => h1.counted n⟩

/-- Two threads have looked for the same new atom and missed; both have made one, and thread 1 is stopped
inside `setdefault`: the hypotheses of `C69_never_blocked_races`, `C69_solo` and `C69_constructor` for
thread 0, in the middle of its call. -/
example (ty : AtomType) (v : V) :
    ∃ (R R' : Key K → Prop) (s : St V K) (c : Cfg V K Nat), History R s ∧ s.pc 0 = .idle ∧
      Holds s [] ∧ Mean s.heap [] ([] : List (Ex K)) ∧
      valueOf [] (.atom ty v) = some (.atom ⟨ty, PyVal.key v⟩ : Ex K) ∧
      Counted 0 (fun _ _ => True) R ⟨s, [], .make (.atom ty v) .ret⟩ 3 R' c ∧
      c.st.pc 0 = .inSetdefault (.atom ty v) 1 ∧ c.st.pc 1 = .inSetdefault (.atom ty v) 0 := by
  let r : Obj V := .atom ty v
  let s0 : St V K := St.init
  let s1 : St V K := { s0 with pc := upd s0.pc 1 (.missed r) }
  let s2 : St V K := { s1 with heap := upd s1.heap s1.next (some r), next := s1.next + 1,
                               pc := upd s1.pc 1 (.fresh r s1.next) }
  let s3 : St V K := { s2 with pc := upd s2.pc 1 (.inSetdefault r s1.next) }
  let s4 : St V K := { s3 with pc := upd s3.pc 0 (.missed r) }
  let s5 : St V K := { s4 with heap := upd s4.heap s4.next (some r), next := s4.next + 1,
                               pc := upd s4.pc 0 (.fresh r s4.next) }
  let s6 : St V K := { s5 with pc := upd s5.pc 0 (.inSetdefault r s4.next) }
  have st1 : Step s0 none s1 := .getMiss s0 1 r rfl (by simp [r, Obj.refs]) trivial rfl
  have st2 : Step s1 none s2 := .alloc s1 1 r rfl
  have st3 : Step s2 none s3 := .setdefaultMiss s2 1 r s1.next rfl rfl
  have st4 : Step s3 none s4 := .getMiss s3 0 r rfl (by simp [r, Obj.refs]) trivial rfl
  have st5 : Step s4 none s5 := .alloc s4 0 r rfl
  have st6 : Step s5 none s6 := .setdefaultMiss s5 0 r s4.next rfl rfl
  have hnone : ∀ (s : St V K), ∀ h i, held [] h = some i → i ∈ s.roots := by
    intro s h i hh; simp [held] at hh
  have o1 : Own 0 (⟨s3, [], .make r .ret⟩ : Cfg V K Nat) ⟨s4, [], .make r .ret⟩ :=
    .inside st4 (by show PC.missed r ≠ PC.idle; simp)
      (fun _ r' hr' => by
        have h : upd s3.pc 0 (.missed r) 0 = .missed r' := hr'
        rw [upd_same] at h; cases h; exact ⟨r, _, rfl, rfl⟩) (hnone _) (fun _ => by show PC.missed r ≠ PC.idle; simp)
  have o2 : Own 0 (⟨s4, [], .make r .ret⟩ : Cfg V K Nat) ⟨s5, [], .make r .ret⟩ :=
    .inside st5 (by show PC.fresh r s4.next ≠ PC.missed r; simp)
      (fun h0 => by have h : PC.missed r = .idle := h0; cases h) (hnone _) (fun _ => by show PC.fresh r s4.next ≠ PC.idle; simp)
  have o3 : Own 0 (⟨s5, [], .make r .ret⟩ : Cfg V K Nat) ⟨s6, [], .make r .ret⟩ :=
    .inside st6 (by show PC.inSetdefault r s4.next ≠ PC.fresh r s4.next; simp)
      (fun h0 => by have h : PC.fresh r s4.next = .idle := h0; cases h) (hnone _) (fun _ => by show PC.inSetdefault r s4.next ≠ PC.idle; simp)
  exact ⟨_, _, s3, ⟨s6, [], .make r .ret⟩, ((History.start.step st1).step st2).step st3, rfl, hnone _,
    ⟨rfl, by intro h i hh; simp [held] at hh⟩, rfl,
    (((Counted.refl trivial).own o1 trivial).own o2 trivial).own o3 trivial, rfl, rfl⟩

end Verif.Props
