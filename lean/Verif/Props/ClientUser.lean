import Verif.Props.ClientExpr
import Verif.Lemmas.ClientUser
import Verif.Props.Float
import Verif.Props.Compile

/-!
# C71: interactive programs on objects

Programs with control flow and exception handlers of their own, that use all of simplecas: what they see is what the functions of `Model/` say about values, in
a process with any number of threads and a garbage collector.
-/

set_option linter.unusedSectionVars false

namespace Verif.Props
open Verif.Store Spec

variable {V : Type} [PyVal V Val] {R R' : Key Val → Prop} {lit : Val → V} {F : Type} [HasNone F]

/-! ### Parts of the API -/

/-- **C71, import.** Importing simplecas with its evaluators, in whatever state the process is: the
constants stand for what they should, the differentiator and the evaluators `eval_f64`, `eval_repr`,
`eval_latex`, `count_ops_tree` and that of `to_sympy`, whose rules are assigned one by one with patterns, have the rules that
`Model/Functions.lean` and `Model/SymPy.lean` say. -/
theorem C71_import (me : Nat) (s s' : St V Val) (hs hs' : List (Option Nat)) (vals : List (Ex Val))
    (hl : ∀ v, PyVal.key (lit v) = v) (A : Libs F) (r : PyM (Prog.FullH F)) (hist : History R s)
    (holds : Holds s hs) (mean : Mean s.heap hs vals)
    (ex : Exec me Clean R ⟨s, hs, Prog.importFull lit A⟩ R' ⟨s', hs', .ofPy r⟩) :
    ∃ m vals', r = .ok m ∧ Mean s'.heap hs' vals' ∧ SimplecasAt vals' m.base ∧
      EvalAt vals' (fun _ a b => a = b) (m.f64.toH : Prog.EvalH V Val F) (evalF64 A.floats) ∧
      EvalAt vals' (fun _ a b => a = b) (m.repr.toH : Prog.EvalH V Val String) evalRepr ∧
      EvalAt vals' (fun _ a b => a = b) (m.latex.toH : Prog.EvalH V Val String) evalLatex ∧
      EvalAt vals' (fun _ a b => a = b) (m.countOps.toH : Prog.EvalH V Val Nat)
        (evaluatorOf countOpsRules) ∧
      EvalAt vals' (fun _ a b => a = b) (m.sympy.toH : Prog.EvalH V Val SExpr)
        (evalToSympy A.sympy) := by
  obtain ⟨v, h1, h2⟩ := outcome_of hist holds mean (computes_importFull hl A) ex
  cases r with
  | error => exact h2.elim
  | ok m => exact ⟨m, v, rfl, h1, h2.base, h2.f64, h2.repr, h2.latex, h2.countOps, h2.sympy⟩

/-- **C71, rules.** `ev[pattern] = f(*args)` with objects: it raises exactly when the assignment on
values raises, and the same exception; otherwise the evaluator has the rules that it has on values, so
by `C68_sym_evaluate` it then computes what it does on values. -/
theorem C71_rule (me : Nat) (s s' : St V Val) (hs hs' : List (Option Nat)) (vals : List (Ex Val))
    (st : Nat) (d : Prog.EvalD F) (Ev : Evaluator PyM Val F) (p : Prog.PatternH) (P : Pattern)
    (f : PyFn F) (as : List Nat) (As : List Expr) (r : PyM (Prog.EvalD F)) (hist : History R s)
    (holds : Holds s hs) (mean : Mean s.heap hs vals) (hst : At vals st Expr.starH)
    (hE : EvalAt vals (fun _ a b => a = b) (d.toH : Prog.EvalH V Val F) Ev) (hp : PatAt vals p P)
    (ha : List.Forall₂ (ExprAt vals) as As)
    (ex : Exec me Clean R ⟨s, hs, Prog.rule st d p f as⟩ R' ⟨s', hs', .ofPy r⟩) :
    ∃ vals', Mean s'.heap hs' vals' ∧
      Agree (fun d' Ev' => EvalAt vals' (fun _ a b => a = b) (d'.toH : Prog.EvalH V Val F) Ev') r
        (assignRule Ev P f As) := by
  exact outcome_of hist holds mean (computes_rule hst f hE hp ha) ex

/-! ### Sessions -/

theorem isThing_of {s' : St V Val} {hs' : List (Option Nat)} {vals' : List (Ex Val)}
    {t : Prog.ThingH F} {T : Thing F} (hm : Mean s'.heap hs' vals') (h : ThingAt vals' V t T) :
    IsThing s'.heap hs' t T := by
  cases t <;> cases T <;> first | exact h.elim | skip
  · exact isObj_of hm h
  · exact ⟨h.nrows, h.ncols, h.entrymap, h.elements.imp (fun _ _ g => isExpr_of hm g),
      isExpr_of hm h.graph⟩
  · exact h
  · exact h
  · refine ⟨h.nargs, h.operations, ?_⟩
    refine List.Forall₂.imp (fun _ _ g => ?_) h.atoms
    exact standsAt_of hm g
  · trivial
  · trivial
  · exact h
  · exact h
  · exact h
  · exact h
  · trivial
  · exact h
  · trivial

/-- **C71, sessions.** A thread of a process, in whatever state the process is, imports simplecas and
runs the first `n` statements of a program.  The program is any function from what it has seen so far
(numbers, strings, shapes, SymPy objects, exceptions) to its next statement, it catches exceptions and goes on.
Whatever the other threads and the collector do, unless there is a race for the objects of this thread,
nothing but the statements themselves raises, and all results are what the program gives on values. -/
theorem C71_session (me : Nat) (s s' : St V Val) (hs' : List (Option Nat))
    (hl : ∀ v, PyVal.key (lit v) = v) (A : Libs F) (user : User F) (n : Nat)
    (r : PyM (List (Prog.ThingH F))) (hist : History R s)
    (ex : Exec me Clean R ⟨s, [], Prog.fullSession lit A user n⟩ R' ⟨s', hs', .ofPy r⟩) :
    ∃ ts, r = .ok ts ∧ List.Forall₂ (IsThing s'.heap hs') ts (sessionValue A user n []) := by
  obtain ⟨v, h1, h2⟩ := outcome_of hist (vals := []) (by intro h i hh; simp [held] at hh)
    ⟨rfl, by intro h i hh; simp [held] at hh⟩ (computes_fullSession hl A user n) ex
  cases r with
  | error => exact h2.elim
  | ok ts => exact ⟨ts, rfl, List.Forall₂.imp (fun _ _ h => isThing_of h1 h) h2⟩

theorem isThing_seen {heap : Nat → Option (Obj V)} {hs : List (Option Nat)} {t : Prog.ThingH F}
    {T : Thing F} (h : IsThing heap hs t T) : t.seen = T.seen := by
  cases t <;> cases T <;> first | exact h.elim | skip
  · rename_i o O
    cases o <;> cases O <;> first | exact h.elim | skip
    · rfl
    · exact congrArg Seen.int h
    · rfl
  · exact congrArg₂ Seen.matrix h.1 h.2.1
  · exact congrArg Seen.str h
  · exact congrArg Seen.num h
  · exact congrArg Seen.function h.1
  · rfl
  · rfl
  · exact congrArg Seen.sympy h
  · exact congrArg (fun m : SMat => Seen.sympyMatrix m.rows m.cols m.entries.items) h
  · rfl
  · exact congrArg Seen.array h
  · rfl
  · exact congrArg Seen.exc h
  · rfl

/-- **C71, determinism.** What a program sees depends on the program on the arithmetic of the floats and
on SymPy only: every number, string, shape, SymPy object and exception is the one that the program gives on values, in every
process, whatever else happens there. -/
theorem C71_seen (me : Nat) (s s' : St V Val) (hs' : List (Option Nat))
    (hl : ∀ v, PyVal.key (lit v) = v) (A : Libs F) (user : User F) (n : Nat)
    (ts : List (Prog.ThingH F)) (hist : History R s)
    (ex : Exec me Clean R ⟨s, [], Prog.fullSession lit A user n⟩ R' ⟨s', hs', .ret ts⟩) :
    ts.map Prog.ThingH.seen = (sessionValue A user n []).map Thing.seen := by
  obtain ⟨ts', h1, h2⟩ := C71_session me s s' hs' hl A user n (.ok ts) hist ex
  cases h1
  generalize sessionValue A user n [] = Ts at h2 ⊢
  clear ex
  induction h2 with
  | nil => rfl
  | cons h _ ih =>
    rw [List.map_cons, List.map_cons, ih]
    exact congrArg (· :: _) (isThing_seen h)

/-- **C71, identity.** After a session two `Expr`s among its results are the same object exactly when
they are the same expression; in particular what is handed out twice, at any two moments, is the same
object. -/
theorem C71_session_identity (me : Nat) (s s' : St V Val) (hs' : List (Option Nat))
    (hl : ∀ v, PyVal.key (lit v) = v) (A : Libs F) (user : User F) (n : Nat)
    (ts : List (Prog.ThingH F)) (hist : History R s)
    (ex : Exec me Clean R ⟨s, [], Prog.fullSession lit A user n⟩ R' ⟨s', hs', .ret ts⟩) :
    ∀ k l h h' i j : Nat, ts[k]? = some (.obj (.expr h)) → ts[l]? = some (.obj (.expr h')) →
      held hs' h = some i → held hs' h' = some j →
      ∃ e e', (sessionValue A user n [])[k]? = some (.obj (.expr e)) ∧
        (sessionValue A user n [])[l]? = some (.obj (.expr e')) ∧ (i = j ↔ e = e') := by
  have hm0 : Mean s.heap [] ([] : List (Ex Val)) := ⟨rfl, by intro h i hh; simp [held] at hh⟩
  have hh0 : Holds s [] := by intro h i hh; simp [held] at hh
  obtain ⟨ts', h0, hso⟩ := C71_session me s s' hs' hl A user n (.ok ts) hist ex
  cases h0
  obtain ⟨g1, g2, g3, v, g4, g5⟩ := exec_sim hist hh0 hm0 ex
  intro k l h h' i j hk hl' hi hj
  have key : ∀ k h i : Nat, ts[k]? = some (.obj (.expr h)) → held hs' h = some i →
      ∃ e, (sessionValue A user n [])[k]? = some (.obj (.expr e)) ∧
        Is s'.heap i (.sym Prog.exprCls e : Ex Val) := by
    intro m h i hm hi
    have hlt := (List.getElem?_eq_some_iff.1 hm).1
    have hlen : ts.length = (sessionValue A user n []).length := List.Forall₂.length_eq hso
    have := List.Forall₂.get hso hlt (hlen ▸ hlt)
    have e1 : ts.get ⟨m, hlt⟩ = .obj (.expr h) := (List.getElem?_eq_some_iff.1 hm).2
    rw [e1] at this
    generalize hX : (sessionValue A user n []).get ⟨m, hlen ▸ hlt⟩ = X at this
    cases X <;> first | exact this.elim | skip
    rename_i O
    cases O with
    | expr e =>
      refine ⟨e, ?_, this i hi⟩
      rw [List.getElem?_eq_some_iff]
      exact ⟨hlen ▸ hlt, hX⟩
    | int => exact this.elim
    | other => exact this.elim
  obtain ⟨e, h1, h2⟩ := key k h i hk hi
  obtain ⟨e', h3, h4⟩ := key l h' j hl' hj
  refine ⟨e, e', h1, h3, ?_, ?_⟩
  · rintro rfl
    have := h2.unique h4
    cases this
    rfl
  · rintro rfl
    obtain ⟨hinv, _⟩ := g1.inv
    exact Is.injective hinv (Or.inl (g2 h i hi)) (Or.inl (g2 h' j hj)) h2 h4
      (fun c o hc ho => g3 h i c o hi hc ho)

/-! ### Compiled functions -/

theorem lambdify_uniform (P : Platform F) (args : List Expr) (e : LambdifyArg) :
    (∃ err, ∀ p, (lambdify P (args.map .expr) e p).1 = .error err) ∨
    ∃ (text : String) (mk : Nat → Callable),
      ((∃ k, mk = fun n => .cfunc n k) ∨ ∃ k sh, mk = fun n => .npfunc n k sh) ∧
      ∀ p, lambdify P (args.map .expr) e p = (.ok (mk p.engines.length),
        { p with engines := p.engines ++ [some text], exeEng := p.exeEng ++ [p.engines.length] }) := by
  unfold lambdify
  rw [reps_expr]
  cases e with
  | other => exact .inl ⟨_, fun _ => rfl⟩
  | expr e =>
    simp only [lambdifyLlvm]
    cases toLlvm args e with
    | error err => exact .inl ⟨err, fun _ => rfl⟩
    | ok fn =>
      simp only [compileLlvm]
      cases P.accepts fn.text with
      | false => exact .inl ⟨_, fun _ => rfl⟩
      | true =>
        by_cases hm : P.maxArgs < args.length
        · exact .inl ⟨.argumentError, fun p => by simp [hm]⟩
        · exact .inr ⟨fn.text, _, .inl ⟨args.length, rfl⟩, fun p => by simp [hm]⟩
  | matrix m =>
    simp only [lambdifyLlvmMatrix]
    cases toLlvmMatrix args m with
    | error err => exact .inl ⟨err, fun _ => rfl⟩
    | ok fn =>
      simp only [compileLlvm]
      cases P.accepts fn.text with
      | false => exact .inl ⟨_, fun _ => rfl⟩
      | true =>
        by_cases hm : P.maxArgs < args.length + 1
        · exact .inl ⟨.argumentError, fun p => by simp [hm]⟩
        · exact .inr ⟨fn.text, _, .inr ⟨args.length, (m.nrows, m.ncols), rfl⟩, fun p => by simp [hm]⟩

/-- The result of a call, with the contents of the array. -/
def _root_.Verif.Store.seenCall (o : CallOutcome F × Proc F) : PyM (Seen F) :=
  callResult .num .array .undefined o

theorem seenCall_mk (P : Platform F) {mk : Nat → Callable}
    (hmk : (∃ k, mk = fun n => .cfunc n k) ∨ ∃ k sh, mk = fun n => .npfunc n k sh) {p q : Proc F}
    {i j : Nat} {text : String} (hp : p.engines[i]? = some (some text))
    (hq : q.engines[j]? = some (some text)) (as : List (CallArg F)) :
    seenCall (call P (mk i) as p) = seenCall (call P (mk j) as q) := by
  rcases hmk with ⟨k, rfl⟩ | ⟨k, sh, rfl⟩
  · simp only [call, runAddress, hp, hq]
    cases ctypesArgs P 0 k as with
    | error err => rfl
    | ok vs =>
      simp only
      rcases P.code text vs [] with _ | ⟨_ | v, mem⟩ <;> rfl
  · simp only [call, runAddress, hp, hq]
    cases ctypesArgs P 1 k as with
    | error err => rfl
    | ok vs =>
      simp only
      rcases P.code text vs (List.replicate (sh.1 * sh.2) P.zero) with _ | ⟨v, mem⟩
      · rfl
      · simp [seenCall, callResult, pyGet]

/-- **C71, compiled functions.** In a session `lambdify` compiles each function in a process of its own.
This is no restriction: in whatever state the process is, `lambdify` raises the same exception, and
otherwise the function, called at any later time with any arguments, whatever has been compiled, called,
overwritten or collected, gives the same number, the same exception or an array with the same
contents. -/
theorem C71_compiled (P : Platform F) (args : List Expr) (e : LambdifyArg) (p : Proc F) :
    (∀ err, (lambdify P (args.map .expr) e p).1 = .error err ↔ lambdifyAlone P args e = .error err) ∧
    ∀ f p1, lambdify P (args.map .expr) e p = (.ok f, p1) →
      ∃ f0 p0, lambdifyAlone P args e = .ok (f0, p0) ∧
        ∀ W p2, Later P W p1 p2 → ∀ as, seenCall (call P f as p2) = seenCall (call P f0 as p0) := by
  rcases lambdify_uniform P args e with ⟨err, h⟩ | ⟨text, mk, hmk, h⟩
  · have ha : lambdifyAlone P args e = .error err := by
      have := h Proc.start
      unfold lambdifyAlone
      rcases hx : lambdify P (args.map .expr) e Proc.start with ⟨_ | _, _⟩ <;> rw [hx] at this
      · cases this; rfl
      · cases this
    refine ⟨fun err' => ?_, fun f p1 hf => ?_⟩
    · rw [h p, ha]
      exact ⟨fun h => by cases h; rfl, fun h => by cases h; rfl⟩
    · have := h p
      rw [hf] at this
      cases this
  · have ha : lambdifyAlone P args e = .ok (mk 0, ⟨[some text], [0], []⟩) := by
      unfold lambdifyAlone
      rw [h]
      rfl
    refine ⟨fun err' => ?_, fun f p1 hf => ⟨_, _, ha, ?_⟩⟩
    · rw [h p, ha]
      exact ⟨fun h => (by cases h), fun h => (by cases h)⟩
    · intro W p2 hl as
      rw [h p] at hf
      obtain ⟨hf, rfl⟩ := Prod.mk.inj hf
      cases hf
      have hk := engine_kept (P := P) hl (i := p.engines.length) (text := text) (by simp) (by simp)
      exact seenCall_mk P hmk hk.2 rfl as

/-! ### The hypotheses can be met, for all inputs -/

/-- Every session runs in a new process (with any thread): the hypotheses of `C71_session`, `C71_seen`
and `C71_session_identity`.  All results are referenced then. -/
theorem C71_session_runs (hl : ∀ v, PyVal.key (lit v) = v) (me : Nat) (A : Libs F) (user : User F)
    (n : Nat) :
    ∃ (s' : St V Val) (hs' : List (Option Nat)) (ts : List (Prog.ThingH F)),
      Exec me Clean (fun _ => False) ⟨St.init, [], Prog.fullSession lit A user n⟩ (fun _ => False)
        ⟨s', hs', .ret ts⟩ ∧
      List.Forall₂ (IsThing s'.heap hs') ts (sessionValue A user n []) ∧ Alive hs' := by
  obtain ⟨r, v, hy, _, ha⟩ := computes_fullSession (vals := []) hl A user n
  obtain ⟨s', hs', g1, _, g3⟩ := C67_completes me (St.init : St V Val) [] [] v _ r .start (fun _ => rfl)
    (by intro h i hh; simp [held] at hh) ⟨rfl, by intro h i hh; simp [held] at hh⟩
    (by intro h hh; simp at hh) hy
  cases r with
  | error => exact ha.elim
  | ok ts =>
    have g1' := (g1.quiet (fun _ h => h)).2
    obtain ⟨ts', h1, h2⟩ := C71_session me _ s' hs' hl A user n (.ok ts) .start g1'
    cases h1
    exact ⟨s', hs', ts, g1', h2, g3⟩

/-- Those of `C71_import`. -/
example (hl : ∀ v, PyVal.key (lit v) = v) (me : Nat) (A : Libs F) :
    ∃ (s s' : St V Val) (hs hs' : List (Option Nat)) (r : PyM (Prog.FullH F)),
      History (fun _ => False) s ∧ Holds s hs ∧ Mean s.heap hs ([] : List (Ex Val)) ∧
      Exec me Clean (fun _ => False) ⟨s, hs, Prog.importFull lit A⟩ (fun _ => False)
        ⟨s', hs', .ofPy r⟩ := by
  obtain ⟨s, s', hs, hs', r, h1, h2, h3, h4, _⟩ := run_ready me ready_nil (computes_importFull hl A)
  exact ⟨s, s', hs, hs', r, h1, h2, h3, h4⟩

/-- Those of `C71_rule`: for the evaluator `eval_f64`, any pattern that is an expression, any wilds and
any callable. -/
example (hl : ∀ v, PyVal.key (lit v) = v) (me : Nat) (A : Libs F) (P : Expr) (f : PyFn F)
    (w1 w2 : Expr) :
    ∃ (s s' : St V Val) (hs hs' : List (Option Nat)) (vals : List (Ex Val)) (m : Prog.FullH F)
      (p : Nat) (as : List Nat) (r : PyM (Prog.EvalD F)), History (fun _ => False) s ∧ Holds s hs ∧
      Mean s.heap hs vals ∧ At vals m.star Expr.starH ∧
      EvalAt vals (fun _ a b => a = b) (m.f64.toH : Prog.EvalH V Val F) (evalF64 A.floats) ∧
      PatAt vals (.sym p) (.sym P) ∧ List.Forall₂ (ExprAt vals) as [w1, w2] ∧
      Exec me Clean (fun _ => False) ⟨s, hs, Prog.rule m.star m.f64 (.sym p) f as⟩ (fun _ => False)
        ⟨s', hs', .ofPy r⟩ := by
  obtain ⟨rm, v1, hy, p1, ha⟩ := computes_importFull (V := V) (vals := []) hl A
  cases rm with
  | error => exact ha.elim
  | ok m =>
    have r1 := ready_of_yields ready_nil hy
    obtain ⟨v2, p, p2, r2, a2⟩ := ready_expr hl P v1 r1
    obtain ⟨v3, x, p3, r3, a3⟩ := ready_expr hl w1 v2 r2
    obtain ⟨v4, y, p4, r4, a4⟩ := ready_expr hl w2 v3 r3
    have hm : FullAt v4 V A m := ha.mono (p2.trans (p3.trans p4))
    have hp : PatAt v4 (.sym p) (.sym P) := a2.mono (p3.trans p4)
    have has : List.Forall₂ (ExprAt v4) [x, y] [w1, w2] := .cons (a3.mono p4) (.cons a4 .nil)
    obtain ⟨s, s', hs, hs', r, h1, h2, h3, h4, _⟩ := run_ready me r4
      (computes_rule hm.star f hm.f64 hp has)
    exact ⟨s, s', hs, hs', v4, m, p, [x, y], r, h1, h2, h3, hm.star, hm.f64, hp, has, h4⟩

/-- Integers for the floats, a SymPy that rewrites nothing, and machine code that adds its arguments. -/
def _root_.Verif.Samples.clientLibs : Libs Int := ⟨intOps, Spec.inertLib,
  { accepts := fun _ => true, code := fun _ vs mem => some (some vs.sum, mem.map (· + vs.sum)),
    zero := 0, ofInt := some, maxArgs := 1024 }⟩

/-- Those of `C71_compiled`: `x` compiled in a process in which something else has been compiled, and
called after a third compilation. -/
example : ∃ (f : Callable) (p p1 p2 : Proc Int), p.engines.length = 1 ∧
    lambdify Samples.clientLibs.platform [.expr (Expr.symbol "x")] (.expr (Expr.symbol "x")) p =
      (.ok f, p1) ∧
    Later Samples.clientLibs.platform (fun _ => False) p1 p2 ∧ p2.engines.length = 3 ∧
    seenCall (call Samples.clientLibs.platform f [.int 7] p2) = .ok (.num 7) := by
  refine ⟨.cfunc 1 1, ⟨[some ""], [0], []⟩, _, _, rfl,
    Prod.ext (by decide +kernel) rfl,
    .step (.refl _) (.lambdify [.expr (Expr.symbol "x")] (.expr (Expr.integer 3)) _), ?_, ?_⟩
  · decide +kernel
  · decide +kernel

/-- A program with decisions and exception handlers:
```
x = Symbol('x'); e = x**3
try: v = e.eval_f64({})
except NoEvaluationRuleError: v = e.eval_f64({x: 2})
if v == 8:
  M = Matrix([[x, e], [3, 0]]); D = M.diff(x); print(D)
  try: D[2, 0]
  except IndexError: print(D[0, 1])
  ev = Expr.new_evaluator('ev', int); a = Expr.new_wild('a'); ev[Integer[a]] = succ(a)
  ev[sin(a)] = double(a); ev(sin(3), {})
  s = sin(3).to_sympy(); N = D.to_sympy(); t = sympy.Add(s, s); u = Expr.from_sympy(t); print(u)
```
 -/
def _root_.Verif.Samples.clientUser : User Int := fun seen =>
  match seen.length with
  | 0 => some (.api (.symbol "x"))
  | 1 => some (.api (.int 3))
  | 2 => some (.api (.op .pow 0 1))
  | 3 => some (.evalF64 2 [])
  | 4 => if seen[3]? = some (.exc .noEvaluationRule) then some (.evalF64 2 [(0, 2)]) else none
  | 5 => if seen[4]? = some (.num 8) then some (.api (.int 0)) else none
  | 6 => some (.matrix [[0, 2], [1, 5]])
  | 7 => some (.diff 6 0)
  | 8 => some (.repr 7)
  | 9 => some (.item 7 2 0)
  | 10 => if seen[9]? = some (.exc .indexError) then some (.item 7 0 1) else none
  | 11 => some (.repr 10)
  | 12 => some .newEvaluator
  | 13 => some (.wild "a")
  | 14 => some (.rule 12 (.integer 13) (.func1 (fun v => match v with | .int n => .ok (n + 1) | _ => .error .typeError)) [13])
  | 15 => some (.api (.function "sin"))
  | 16 => some (.api (.call 15 [13]))
  | 17 => some (.rule 12 (.sym 16) (.op1 (fun l => .ok (2 * l.sum))) [13])
  | 18 => some (.api (.call 15 [1]))
  | 19 => some (.evaluate 12 18 [])
  | 20 => some (.rule 12 (.sym 16) (.op2 (fun l => .ok l.sum)) [13, 13])
  | 21 => some (.toSympy 18)
  | 22 => some (.sympy (fun l => .ok (.app .add l)) [21, 21])
  | 23 => if seen[22]? = some (.sympy (.app .add [.app .sin [.int 3], .app .sin [.int 3]])) then
      some (.fromSympy 22) else none
  | 24 => some (.repr 23)
  | 25 => some (.toSympy 7)
  | 26 => some (.fromSympyMatrix 1 2 [((0, 1), 22)])
  | 27 => some (.repr 26)
  | 28 => some (.fromSympy 18)
  | 29 => some (.lambdify 2 [0])
  | 30 => some (.callCompiled 29 [])
  | 31 => some (.callCompiled 29 [.int 7])
  | 32 => some (.lambdify 7 [])
  | 33 => some (.lambdify 3 [0])
  | 34 => some (.callCompiled 3 [])
  | _ => none

/-- What it sees. -/
example : (sessionValue Samples.clientLibs Samples.clientUser 40 []).map Thing.seen =
    [.expr, .int 3, .expr, .exc .noEvaluationRule, .num 8, .int 0, .matrix 2 2, .matrix 2 2,
      .str "Matrix([[1, (3*x**(3 + -1))], [0, 0]])", .exc .indexError, .expr,
      .str "(3*x**(3 + -1))", .evaluator, .expr, .none, .expr, .expr, .none, .expr, .num 8,
      .exc .badRule, .sympy (.app .sin [.int 3]),
      .sympy (.app .add [.app .sin [.int 3], .app .sin [.int 3]]), .expr, .str "(sin(3) + sin(3))",
      .sympyMatrix 2 2 [((0, 0), .int 1), ((0, 1), .app .mul [.int 3, .app .pow [.sym "x" 0,
        .app .add [.int 3, .int (-1)]]]), ((1, 0), .int 0)], .matrix 1 2, .str "Matrix([[0, (sin(3) + sin(3))]])",
      .exc .attributeError, .compiled, .exc .typeError, .num 7, .exc .llvmNotImplemented,
      .exc .typeError, .exc .typeError] := by decide +kernel

/-- And it sees that in a real process too. -/
example : letI : PyVal Val Val := plainVal
    ∃ (s' : St Val Val) (hs' : List (Option Nat)) (ts : List (Prog.ThingH Int)),
      Exec 0 Clean (fun _ => False) ⟨St.init, [], Prog.fullSession id Samples.clientLibs Samples.clientUser 40⟩
        (fun _ => False) ⟨s', hs', .ret ts⟩ ∧
      ts.map Prog.ThingH.seen = (sessionValue Samples.clientLibs Samples.clientUser 40 []).map Thing.seen := by
  let _ : PyVal Val Val := plainVal
  obtain ⟨s', hs', ts, h1, _, _⟩ := C71_session_runs (V := Val) (lit := id) (fun _ => rfl) 0 Samples.clientLibs
    Samples.clientUser 40
  exact ⟨s', hs', ts, h1, C71_seen 0 _ s' hs' (fun _ => rfl) Samples.clientLibs Samples.clientUser 40 ts .start h1⟩


end Verif.Props
