import Verif.Lemmas.CompileThreads
import Verif.Props.Compiled
import Verif.Props.Samples

/-!
# C80: compiled functions in several threads
-/

namespace Verif.Props
open Spec Expr

variable {F : Type} {P : Platform F}

/-- The same function at another address. -/
def Callable.moved (j : Nat) : Callable → Callable
  | .cfunc _ n => .cfunc j n
  | .npfunc _ n shape => .npfunc j n shape

/-- The same call of `lambdify` in any other state of a process. -/
theorem made_alone {s : LState F} {args : List PyObj} {e : LambdifyArg} {f : Callable}
    (h : LMade P s args e f) (p0 : Proc F) : ∃ p1, lambdify P args e p0 =
        (.ok (Callable.moved p0.engines.length f), p1) ∧
      ∃ text, s.engines[Callable.address f]? = some (some text) ∧
        p1.engines[p0.engines.length]? = some (some text) := by
  obtain ⟨i, fn, rfl, h1, h2, h3, h4, h5⟩ := h
  refine ⟨{ p0 with engines := p0.engines ++ [some fn.text],
                    exeEng := p0.exeEng ++ [p0.engines.length] }, ?_, fn.text, ?_⟩
  · unfold lambdifyCode at h1
    unfold lambdify
    cases ha : args.mapM PyObj.rep with
    | error err => rw [ha] at h1; cases h1
    | ok reps =>
      have hlen : reps.length = args.length := mapM_length args reps ha
      rw [ha] at h1
      cases e with
      | other => cases h1
      | expr e =>
        have h1 : toLlvm reps e = .ok fn := h1
        have h3 : ¬ P.maxArgs < args.length := h3
        simp only [lambdifyLlvm, h1, compileLlvm, h2, if_true, hlen]
        rw [if_neg h3]
        rfl
      | matrix m =>
        have h1 : toLlvmMatrix reps m = .ok fn := h1
        have h3 : ¬ P.maxArgs < args.length + 1 := h3
        simp only [lambdifyLlvmMatrix, h1, compileLlvm, h2, if_true, hlen]
        rw [if_neg h3]
        rfl
  · have : Callable.address (e.callable i args.length) = i := by cases e <;> rfl
    rw [this]
    exact ⟨h5, by simp⟩

theorem code_eq {s : LState F} {i : Nat} {text : String} (h : s.engines[i]? = some (some text)) :
    s.code i = some text := by
  simp [LState.code, h]

theorem call_step {s : LState F} {es : List (LEvent F)} (hi : LInv P es s) {t t' : Nat} {f : Callable}
    {args : List (CallArg F)} {r : CallOutcome F} {cells : Option (List F)} {s' : LState F}
    (h : LStep P s (some t') (some (.ended t f args r cells)) s') :
    f ∈ s.functions ∧ ∀ (p : Proc F) (j : Nat), p.engines[j]? = s.engines[Callable.address f]? →
      SameResult r cells (call P (Callable.moved j f) args p) := by
  have hf := hi.frames
  have haddr := hi.address
  cases h with
  | badArgs t i n args err h1 h2 =>
    have h3 := hf t
    rw [h1] at h3
    refine ⟨h3, fun p j hp => ?_⟩
    simp only [Callable.moved, SameResult, call, h2]
  | leave t i n args vs text v mem h1 h2 h3 =>
    have h4 := hf t
    rw [h1] at h4
    obtain ⟨h4, i', n', h5, h6⟩ := h4
    cases h5
    refine ⟨h4, fun p j hp => ?_⟩
    obtain ⟨text', h7⟩ := hi.kept i (haddr _ h4)
    have hp : p.engines[j]? = s.engines[i]? := hp
    rw [code_eq h7] at h2
    cases h2
    simp only [Callable.moved, SameResult, call, h6, runAddress, hp, h7, h3]
  | badArgsMatrix t i n sh args a err h1 h2 =>
    have h3 := hf t
    rw [h1] at h3
    refine ⟨h3.1, fun p j hp => ?_⟩
    simp only [Callable.moved, SameResult, call, h2]
  | returns t f args a h1 =>
    have h2 := hf t
    rw [h1] at h2
    obtain ⟨h2, i, n, sh, vs, text, r, mem, rfl, h3, h4, h5, h6⟩ := h2
    refine ⟨h2, fun p j hp => ?_⟩
    have hp : p.engines[j]? = s.engines[i]? := hp
    unfold zerosOf at h5
    simp only [Callable.moved, SameResult, call, h3, runAddress, hp, h4, h5]
    refine ⟨mem, by rw [h6]; rfl, ?_⟩
    simp
  | undefined t f args vs arr h1 h2 =>
    have h3 := hf t
    rw [h1] at h3
    cases arr with
    | none =>
      obtain ⟨h3, i, n, rfl, h4⟩ := h3
      refine ⟨h3, fun p j hp => ?_⟩
      have hp : p.engines[j]? = s.engines[i]? := hp
      obtain ⟨text, h5⟩ := hi.kept i (haddr _ h3)
      have h2 := h2 text
      simp only [Callable.moved, call, h4, runAddress, hp, h5]
      cases hc : P.code text vs [] with
      | none => trivial
      | some q =>
        obtain ⟨v, mem⟩ := q
        cases v with
        | none => trivial
        | some v => exact absurd hc (h2 v mem (code_eq h5))
    | some am =>
      obtain ⟨a, mem⟩ := am
      obtain ⟨h3, i, n, sh, rfl, h4, h5, old, h6⟩ := h3
      refine ⟨h3, fun p j hp => ?_⟩
      have hp : p.engines[j]? = s.engines[i]? := hp
      obtain ⟨text, h7⟩ := hi.kept i (haddr _ h3)
      rcases h2 with h2 | h2
      · rw [h6] at h2; cases h2
      · have h2 := h2 text (code_eq h7)
        rw [h5, zerosOf] at h2
        simp only [Callable.moved, call, h4, runAddress, hp, h7, h2]
        trivial

/-- **C80, calls.**  Threads compile functions and call them in any order, any thread any function; they are switched
anywhere, also while machine code runs, calls are interrupted, and the collector frees what it can.  When a call
of `f` ends, `f` was returned by a `lambdify(args', e)` before, in whatever thread; and for every such
`args'` and `e` it ends as it does in any process with a single thread in which `lambdify(args', e)` and the call
follow each other: with the same float, the same contents of the array, the same exception (or undefined
behaviour if that has it, too). -/
theorem C80_calls (es : List (LEvent F)) (s : LState F) (h : LRun P es s) (t' : Option Nat) (t : Nat)
    (f : Callable) (args : List (CallArg F)) (r : CallOutcome F) (cells : Option (List F))
    (s' : LState F) (hs : LStep P s t' (some (.ended t f args r cells)) s') :
    (∃ t0 args' e, LEvent.made t0 args' e (.ok f) ∈ es) ∧
    ∀ t0 args' e, LEvent.made t0 args' e (.ok f) ∈ es → ∀ p0 : Proc F,
      ∃ f' p1, lambdify P args' e p0 = (.ok f', p1) ∧ arrayShape f = arrayShape f' ∧
        SameResult r cells (call P f' args p1) := by
  have hi := LRun.inv h
  obtain ⟨u, rfl⟩ : ∃ u, t' = some u := by cases hs <;> exact ⟨_, rfl⟩
  obtain ⟨h1, h2⟩ := call_step hi hs
  refine ⟨hi.functions f h1, fun t0 args' e hm p0 => ?_⟩
  obtain ⟨p1, h3, text, h4, h5⟩ := made_alone (hi.events t0 args' e f hm) p0
  exact ⟨_, p1, h3, by cases f <;> rfl, h2 p1 _ (by rw [h4, h5])⟩

/-- **C80, compiling.**  `lambdify` returns a function or raises just as it does in any process with a single
thread. -/
theorem C80_lambdify (es : List (LEvent F)) (s : LState F) (h : LRun P es s) (t' : Option Nat) (t : Nat)
    (args : List PyObj) (e : LambdifyArg) (r : PyM Callable) (s' : LState F)
    (hs : LStep P s t' (some (.made t args e r)) s') :
    ∀ p : Proc F, match r with
      | .ok _ => ∃ f, (lambdify P args e p).1 = .ok f
      | .error err => (lambdify P args e p).1 = .error err := by
  have hi := LRun.inv h
  have hf := hi.frames
  intro p
  cases hs with
  | refused t args e err h1 h2 =>
    rcases lambdify_eq (P := P) args e p with ⟨err', h3, h4 | ⟨fn, h4, _⟩⟩ | ⟨r, fn, ⟨h4, _⟩, _⟩
    · rw [h2] at h4
      cases h4
      rw [h3]
    · rw [h2] at h4; cases h4
    · rw [h2] at h4; cases h4
  | rejected t args e fn h1 h2 h3 =>
    rcases lambdify_eq (P := P) args e p with ⟨err', h4, h5 | ⟨fn', h5, h6, rfl⟩⟩ | ⟨r, fn', ⟨h4, h5, _⟩, _⟩
    · rw [h2] at h5; cases h5
    · rw [h4]
    · rw [h2] at h4
      cases h4
      rw [h3] at h5
      cases h5
  | tooMany t args e i h1 h2 =>
    have h3 := hf t
    rw [h1] at h3
    obtain ⟨_, fn, h4, h5, _⟩ := h3
    rcases lambdify_eq (P := P) args e p with ⟨err', _, h6 | ⟨fn', h6, h7, _⟩⟩ | ⟨r, fn', ⟨_, _, ⟨_, h6⟩ | ⟨h6, _⟩⟩, h7⟩
    · rw [h4] at h6; cases h6
    · rw [h4] at h6
      cases h6
      rw [h5] at h7
      cases h7
    · refine absurd h6 ?_
      have : ctypesParams args.length e = e.argtypes args.length := by cases e <;> rfl
      omega
    · rw [h7, h6]
  | made t args e i h1 h2 =>
    have h3 := hf t
    rw [h1] at h3
    obtain ⟨h3, fn, h4, h5, h6⟩ := h3
    obtain ⟨p1, h7, _⟩ := made_alone (P := P) (s := s) (args := args) (e := e)
      ⟨i, fn, rfl, h4, h5, h2, h3, h6⟩ p
    exact ⟨_, by rw [h7]⟩

/-- **C80, arrays.**  An array that a call returns is a new one: nobody has it yet, and no call that is still running
works on it.  From then on it is never freed, and its contents change only if somebody changes them: no compiled
code writes to it. -/
theorem C80_arrays (es : List (LEvent F)) (s : LState F) (h : LRun P es s) (t' : Option Nat)
    (ev : Option (LEvent F)) (s' : LState F) (hs : LStep P s t' ev s') :
    (∀ t f args a cells, ev = some (.ended t f args (.array a) cells) →
      (∃ l, cells = some l ∧ s.arrays[a]? = some (some l)) ∧ a ∉ s.given ∧ a ∈ s'.given ∧
        ∀ u, (s'.thread u).array ≠ some a) ∧
    ∀ a ∈ s.given, (∃ cells, s'.arrays[a]? = some (some cells)) ∧ a ∈ s'.given ∧
      (s'.arrays[a]? = s.arrays[a]? ∨ ∃ cells, s' = { s with arrays := s.arrays.set a (some cells) }) := by
  have hi := LRun.inv h
  have hi' := hi.step hs
  constructor
  · rintro t f args a cells rfl
    cases hs with
    | returns t f args a h1 =>
      have h2 := hi.frames t
      rw [h1] at h2
      obtain ⟨_, i, n, sh, vs, text, r, mem, rfl, _, _, _, h6⟩ := h2
      have ha : (s.thread t).array = some a := by rw [h1]; rfl
      refine ⟨⟨mem, by rw [h6]; rfl, h6⟩, hi.own t a ha, List.mem_append_right _ (List.mem_singleton.2 rfl), ?_⟩
      intro u hu
      exact hi'.own u a hu (List.mem_append_right _ (List.mem_singleton.2 rfl))
  · intro a ha
    have hg : a ∈ s'.given := by
      cases hs <;> first | exact ha | exact List.mem_append_left _ ha
    refine ⟨hi'.below a hg, hg, ?_⟩
    obtain ⟨c, hc⟩ := hi.below a ha
    cases hs with
    | zeros t i n sh args h1 =>
      left
      exact List.getElem?_append_left (List.getElem?_eq_some_iff.1 hc).1
    | store t f args vs b mem old now h1 h2 =>
      left
      refine List.getElem?_set_ne ?_
      rintro rfl
      exact hi.own t b (by rw [h1]; rfl) ha
    | leaveMatrix t i n sh args vs b mem text r mem' old h1 h2 h3 h4 =>
      left
      refine List.getElem?_set_ne ?_
      rintro rfl
      exact hi.own t b (by rw [h1]; rfl) ha
    | freeArray b h1 h2 =>
      left
      refine List.getElem?_set_ne ?_
      rintro rfl
      exact h1 ha
    | write b cells h1 =>
      by_cases hab : b = a
      · subst hab
        exact Or.inr ⟨cells, rfl⟩
      · left
        exact List.getElem?_set_ne hab
    | _ => exact Or.inl rfl

/-- **C80, expressions.**  For an expression that can be compiled `lambdify` returns a function in every thread, and
in every thread and whatever the others do a call of it with numbers returns the value of the expression. -/
theorem C80_expression {A : IRArith F} (hP : PlatformOK P A) (S : List Expr) (e : Expr)
    (hg : GoodParams S) (hs : Supported S e) (hmax : S.length ≤ P.maxArgs) (es : List (LEvent F))
    (s : LState F) (h : LRun P es s) (t' : Option Nat) (t : Nat) (s' : LState F) :
    (∀ r, LStep P s t' (some (.made t (S.map .expr) (.expr e) r)) s' → ∃ f, r = .ok f) ∧
    ∀ t0 f args r cells, LEvent.made t0 (S.map .expr) (.expr e) (.ok f) ∈ es →
      LStep P s t' (some (.ended t f args r cells)) s' → ∀ vs, List.Forall₂ (IsDouble A) args vs →
      args.length = S.length → ∃ v, Evaluates (irMeaning A S vs) e v ∧ r = .float v := by
  obtain ⟨f0, s1, h1, h2⟩ := C59_expression hP S e hg hs hmax Proc.start
  constructor
  · intro r hr
    have := C80_lambdify es s h t' t _ _ r s' hr Proc.start
    rw [h1] at this
    cases r with
    | ok f => exact ⟨f, rfl⟩
    | error err => cases this
  · intro t0 f args r cells hm hr vs hv hlen
    obtain ⟨f', p1, h3, hshape, h4⟩ := (C80_calls es s h t' t f args r cells s' hr).2 t0 _ _ hm Proc.start
    rw [h1] at h3
    cases h3
    obtain ⟨v, h5, h6⟩ := h2 (fun _ => False) s1 (.refl _) args vs hv hlen
    rw [h6] at h4
    cases r with
    | float w => exact ⟨v, h5, by rw [show w = v from h4]⟩
    | _ => exact h4.elim

/-- **C80, matrices.**  In the same way a matrix that can be compiled can be compiled in every thread, and a call returns
an array that contains, at that time, the values of the entries. -/
theorem C80_matrix {A : IRArith F} (hP : PlatformOK P A) (S : List Expr) (m : Mat) (hm : MatHistory m)
    (hg : GoodParams S ["_out"]) (hs : MatSupported S m) (hsize : m.nrows * m.ncols ≤ 2 ^ 31)
    (hz : zero ∉ S) (hmax : S.length + 1 ≤ P.maxArgs) (es : List (LEvent F))
    (s : LState F) (h : LRun P es s) (t' : Option Nat) (t : Nat) (s' : LState F) :
    (∀ r, LStep P s t' (some (.made t (S.map .expr) (.matrix m) r)) s' → ∃ f, r = .ok f) ∧
    ∀ t0 f args r cells, LEvent.made t0 (S.map .expr) (.matrix m) (.ok f) ∈ es →
      LStep P s t' (some (.ended t f args r cells)) s' → ∀ vs, List.Forall₂ (IsDouble A) args vs →
      args.length = S.length → ∃ a l, r = .array a ∧ cells = some l ∧ s'.arrays[a]? = some (some l) ∧
        arrayShape f = some (m.nrows, m.ncols) ∧ l.length = m.nrows * m.ncols ∧
        ∀ i j : Nat, i < m.nrows → j < m.ncols → ∃ e v, m.getItem (.pair i j) = .ok e ∧
          Evaluates (irMeaning A S vs) e v ∧ l[i * m.ncols + j]? = some v := by
  obtain ⟨f0, s1, h1, h2⟩ := C59_matrix hP S m hm hg hs hsize hz hmax Proc.start
  constructor
  · intro r hr
    have := C80_lambdify es s h t' t _ _ r s' hr Proc.start
    rw [h1] at this
    cases r with
    | ok f => exact ⟨f, rfl⟩
    | error err => cases this
  · intro t0 f args r cells hm' hr vs hv hlen
    obtain ⟨f', p1, h3, hshape, h4⟩ := (C80_calls es s h t' t f args r cells s' hr).2 t0 _ _ hm' Proc.start
    rw [h1] at h3
    cases h3
    obtain ⟨id, l, s3, h5, _, h6, h7, h8⟩ := h2 (fun _ => False) s1 (.refl _) args vs hv hlen
    rw [h5] at h4
    cases r with
    | array a =>
      obtain ⟨l', rfl, h10⟩ := h4
      have h11 := h8 (fun _ => False) s3 (.refl _) (fun h => h)
      rw [h11] at h10
      cases h10
      refine ⟨a, l, rfl, rfl, ?_, by rw [hshape, C59_shape h1], h6, h7⟩
      have h12 := ((C80_arrays es s h t' _ s' hr).1 t f args a _ rfl).1
      obtain ⟨l', h13, h14⟩ := h12
      cases h13
      have h15 : s'.arrays = s.arrays := by
        generalize some l = c at hr
        cases hr
        rfl
      rw [h15]
      exact h14
    | _ => exact h4.elim

theorem LAlone.more {t n : Nat} {s s' : LState F} {ev : LEvent F} (h : LAlone P t n s ev s') (k : Nat) :
    LAlone P t (n + k) s ev s' := by
  induction h with
  | last h => rw [Nat.add_right_comm]; exact .last h
  | next h h1 _ ih => rw [Nat.add_right_comm]; exact .next h h1 ih

/-- **C80, nobody waits.**  In whatever state the process is, a call of `lambdify` or of a compiled function ends after at
most four operations of its own thread alone, without any other thread, the collector or a user doing
anything. -/
theorem C80_finishes (es : List (LEvent F)) (s : LState F) (h : LRun P es s) (hc : s.crashed = false)
    (t : Nat) (ht : s.thread t ≠ .idle) :
    ∃ ev s', LAlone P t 4 s ev s' ∧ EndsWith t (s.thread t) ev := by
  have hi := LRun.inv h
  -- from the end of the frames backwards
  have e1 : ∀ s : LState F, ∀ f args a, s.thread t = .filled f args a →
      ∃ ev s', LAlone P t 1 s ev s' ∧ ∃ r cells, ev = .ended t f args r cells :=
    fun s f args a h1 => ⟨_, _, .last (.returns s t f args a h1), ⟨_, _, rfl⟩⟩
  have e2 : ∀ s : LState F, s.crashed = false → ∀ f args vs arr, s.thread t = .machine f args vs arr →
      ∃ ev s', LAlone P t 2 s ev s' ∧ ∃ r cells, ev = .ended t f args r cells := by
    intro s hc f args vs arr h1
    by_cases hu : (match f, arr with
        | .cfunc i _, none => ∀ text v mem, s.code i = some text → P.code text vs [] ≠ some (some v, mem)
        | .npfunc i _ _, some (a, mem) => s.arrays[a]?.join = none ∨
            ∀ text, s.code i = some text → P.code text vs mem = none
        | _, _ => True)
    · exact ⟨_, _, .last (.undefined s t f args vs arr h1 hu), ⟨_, _, rfl⟩⟩
    · cases f with
      | cfunc i n =>
        cases arr with
        | none =>
          simp only [not_forall, not_not] at hu
          obtain ⟨text, v, mem, h2, h3⟩ := hu
          exact ⟨_, _, .last (.leave s t i n args vs text v mem h1 h2 h3), ⟨_, _, rfl⟩⟩
        | some am => exact absurd trivial hu
      | npfunc i n sh =>
        cases arr with
        | none => exact absurd trivial hu
        | some am =>
          obtain ⟨a, mem⟩ := am
          simp only [not_or, not_forall] at hu
          obtain ⟨h2, text, h3, h4⟩ := hu
          cases h5 : P.code text vs mem with
          | none => exact absurd h5 h4
          | some q =>
            obtain ⟨r, mem'⟩ := q
            obtain ⟨old, h6⟩ : ∃ old, s.arrays[a]? = some (some old) := by
              cases h7 : s.arrays[a]? with
              | none => rw [h7] at h2; exact absurd rfl h2
              | some c =>
                cases c with
                | none => rw [h7] at h2; exact absurd rfl h2
                | some c => exact ⟨c, rfl⟩
            obtain ⟨ev, s', h8, h9⟩ := e1 (LState.goto { s with arrays := s.arrays.set a (some mem') } t
                (.filled (.npfunc i n sh) args a)) (.npfunc i n sh) args a (if_pos rfl)
            exact ⟨ev, s', .next (.leaveMatrix s t i n sh args vs a mem text r mem' old h1 h3 h5 h6) hc h8, h9⟩
  have e3 : ∀ s : LState F, s.crashed = false → ∀ i n sh args a, s.thread t = .zeros (.npfunc i n sh) args a →
      (∃ c, s.arrays[a]? = some (some c)) →
      ∃ ev s', LAlone P t 3 s ev s' ∧ ∃ r cells, ev = .ended t (.npfunc i n sh) args r cells := by
    rintro s hc i n sh args a h1 ⟨c, h2⟩
    cases h3 : ctypesArgs P 1 n args with
    | error err => exact ⟨_, _, .last (.badArgsMatrix s t i n sh args a err h1 h3), ⟨_, _, rfl⟩⟩
    | ok vs =>
      obtain ⟨ev, s', h8, h9⟩ := e2 (s.goto t (.machine (.npfunc i n sh) args vs (some (a, c)))) hc _ _ _ _
        (if_pos rfl)
      exact ⟨ev, s', .next (.enterMatrix s t i n sh args a vs c h1 h3 h2) hc h8, h9⟩
  have e4 : ∀ s : LState F, s.crashed = false → ∀ args e i, s.thread t = .appended args e i →
      ∃ ev s', LAlone P t 1 s ev s' ∧ ∃ r, ev = .made t args e r := by
    intro s hc args e i h1
    by_cases h2 : P.maxArgs < e.argtypes args.length
    · exact ⟨_, _, .last (.tooMany s t args e i h1 h2), ⟨_, rfl⟩⟩
    · exact ⟨_, _, .last (.made s t args e i h1 h2), ⟨_, rfl⟩⟩
  have e5 : ∀ s : LState F, s.crashed = false → ∀ args e i, s.thread t = .finalized args e i →
      ∃ ev s', LAlone P t 2 s ev s' ∧ ∃ r, ev = .made t args e r := by
    intro s hc args e i h1
    obtain ⟨ev, s', h8, h9⟩ := e4 (LState.goto { s with exeEng := s.exeEng ++ [i] } t (.appended args e i)) hc
      args e i (if_pos rfl)
    exact ⟨ev, s', .next (.append s t args e i h1) hc h8, h9⟩
  have hf := hi.frames t
  cases hfr : s.thread t with
  | idle => exact absurd hfr ht
  | lambdifying args e =>
    cases h2 : lambdifyCode args e with
    | error err => exact ⟨_, _, .last (.refused s t args e err hfr h2), ⟨_, rfl⟩⟩
    | ok fn =>
      cases h3 : P.accepts fn.text with
      | false => exact ⟨_, _, .last (.rejected s t args e fn hfr h2 h3), ⟨_, rfl⟩⟩
      | true =>
        obtain ⟨ev, s', h8, h9⟩ := e5 (LState.goto { s with engines := s.engines ++ [some fn.text] } t
          (.finalized args e s.engines.length)) hc args e _ (if_pos rfl)
        exact ⟨ev, s', LAlone.more (.next (.finalize s t args e fn hfr h2 h3) hc h8) 1, h9⟩
  | finalized args e i =>
    obtain ⟨ev, s', h8, h9⟩ := e5 s hc args e i hfr
    exact ⟨ev, s', LAlone.more h8 2, h9⟩
  | appended args e i =>
    obtain ⟨ev, s', h8, h9⟩ := e4 s hc args e i hfr
    exact ⟨ev, s', LAlone.more h8 3, h9⟩
  | called f args =>
    cases f with
    | cfunc i n =>
      cases h3 : ctypesArgs P 0 n args with
      | error err => exact ⟨_, _, .last (.badArgs s t i n args err hfr h3), ⟨_, _, rfl⟩⟩
      | ok vs =>
        obtain ⟨ev, s', h8, h9⟩ := e2 (s.goto t (.machine (.cfunc i n) args vs none)) hc _ _ _ _ (if_pos rfl)
        exact ⟨ev, s', LAlone.more (.next (.enter s t i n args vs hfr h3) hc h8) 1, h9⟩
    | npfunc i n sh =>
      obtain ⟨ev, s', h8, h9⟩ := e3 (LState.goto
        { s with arrays := s.arrays ++ [some (List.replicate (sh.1 * sh.2) P.zero)] } t
          (.zeros (.npfunc i n sh) args s.arrays.length)) hc i n sh args _ (if_pos rfl)
        ⟨List.replicate (sh.1 * sh.2) P.zero, by simp⟩
      exact ⟨ev, s', .next (.zeros s t i n sh args hfr) hc h8, h9⟩
  | zeros f args a =>
    rw [hfr] at hf
    obtain ⟨_, i, n, sh, rfl, h1⟩ := hf
    obtain ⟨ev, s', h8, h9⟩ := e3 s hc i n sh args a hfr ⟨_, h1⟩
    exact ⟨ev, s', LAlone.more h8 1, h9⟩
  | machine f args vs arr =>
    obtain ⟨ev, s', h8, h9⟩ := e2 s hc f args vs arr hfr
    exact ⟨ev, s', LAlone.more h8 2, h9⟩
  | filled f args a =>
    obtain ⟨ev, s', h8, h9⟩ := e1 s f args a hfr
    exact ⟨ev, s', LAlone.more h8 3, h9⟩

/-! ### Two threads -/

theorem alone_run {es : List (LEvent F)} {t n : Nat} {s s' : LState F} {ev : LEvent F} (h : LRun P es s)
    (hc : s.crashed = false) (ha : LAlone P t n s ev s') :
    ∃ es' u, LRun P (es' ++ es) u ∧ u.crashed = false ∧ LStep P u (some t) (some ev) s' := by
  induction ha generalizing es with
  | last hs => exact ⟨[], _, h, hc, hs⟩
  | next hs hc' _ ih => exact ih (h.step hc hs) hc'

/-- The thread 1 compiles `x*y` while the thread 0 compiles a matrix; then the thread 0 is in the middle of the
machine code of the one, and the thread 1 in that of the other. -/
theorem sample_threads {P : Platform ℝ} (hP : PlatformOK P exactMachine) :
    ∃ es s f g a mem, LRun P es s ∧ s.crashed = false ∧
      LEvent.made 1 [.expr x, .expr y] (.expr (mul x y)) (.ok f) ∈ es ∧
      LEvent.made 0 [.expr x, .expr y] (.matrix sampleMat) (.ok g) ∈ es ∧
      s.thread 0 = .machine f [.float 2, .float 3] [2, 3] none ∧
      s.thread 1 = .machine g [.float 5, .float 7] [5, 7] (some (a, mem)) := by
  obtain ⟨hm, hs, hg, hz, hsize, _⟩ := sampleMat_compiles
  obtain ⟨g1, _, _⟩ := goodParams_xy
  have hmax := hP.maxArgs
  have hse : Supported [x, y] (mul x y) := supported_of_check (by decide +kernel)
  obtain ⟨fn, h1, hssa⟩ := C35_generated [x, y] (mul x y) g1 hse
  have hacc : P.accepts fn.text = true :=
    hP.accepts _ ⟨_, fn, C50_text _ _ fn h1 hssa, hssa, declared_callees hssa⟩
  obtain ⟨gn, h2, hssa2⟩ := C36_generated [x, y] sampleMat hm hg hs
  have hacc2 : P.accepts gn.text = true :=
    hP.accepts _ ⟨_, gn, C50_text_matrix _ _ hm gn h2 hssa2, hssa2, declared_callees hssa2⟩
  have c1 : lambdifyCode [.expr x, .expr y] (.expr (mul x y)) = .ok fn := h1
  have c2 : lambdifyCode [.expr x, .expr y] (.matrix sampleMat) = .ok gn := h2
  have r1 := (LRun.start (P := P)).step rfl (.lambdify _ 0 [.expr x, .expr y] (.matrix sampleMat) rfl)
  have r2 := r1.step rfl (.lambdify _ 1 [.expr x, .expr y] (.expr (mul x y)) rfl)
  have r3 := r2.step rfl (.finalize _ 1 _ _ fn rfl c1 hacc)
  have r4 := r3.step rfl (.finalize _ 0 _ _ gn rfl c2 hacc2)
  have r5 := r4.step rfl (.append _ 0 _ _ _ rfl)
  have r6 := r5.step rfl (.append _ 1 _ _ _ rfl)
  have r7 := r6.step rfl (.made _ 1 _ _ _ rfl (by show ¬ P.maxArgs < 2; omega))
  have r8 := r7.step rfl (.made _ 0 _ _ _ rfl (by show ¬ P.maxArgs < 3; omega))
  have r9 := r8.step rfl (.call _ 0 (.cfunc 0 2) [.float 2, .float 3] rfl
    (.head _))
  have r10 := r9.step rfl (.call _ 1 (.npfunc 1 2 (2, 2)) [.float 5, .float 7] rfl
    (.tail _ (.head _)))
  have a1 : ctypesArgs P 0 2 [.float (2 : ℝ), .float 3] = .ok [2, 3] := by
    have : ¬ P.maxArgs < 2 := by omega
    simp [ctypesArgs, this]
    rfl
  have a2 : ctypesArgs P 1 2 [.float (5 : ℝ), .float 7] = .ok [5, 7] := by
    have : ¬ P.maxArgs < 3 := by omega
    simp [ctypesArgs, this]
    rfl
  have r11 := r10.step rfl (.enter _ 0 _ _ _ _ rfl a1)
  have r12 := r11.step rfl (.zeros _ 1 _ _ _ _ rfl)
  have r13 := r12.step rfl (.enterMatrix _ 1 _ _ _ _ _ _ _ rfl a2 rfl)
  exact ⟨_, _, _, _, _, _, r13, rfl, by simp; rfl, by simp; rfl, rfl, rfl⟩

/-- If the thread 0 goes on alone from there, while the thread 1 is in the middle of its machine code, it gets
`2*3`. -/
example : ∃ (P : Platform ℝ) (es : List (LEvent ℝ)) (s s' : LState ℝ) (f : Callable) (cells : Option (List ℝ)),
    LRun P es s ∧ LStep P s (some 0) (some (.ended 0 f [.float 2, .float 3] (.float 6) cells)) s' ∧
    LEvent.made 1 [.expr x, .expr y] (.expr (mul x y)) (.ok f) ∈ es := by
  obtain ⟨P, hP⟩ := platformOK_exists exactMachine
  obtain ⟨es, s, f, g, a, mem, h1, hc, h2, h3, h4, h5⟩ := sample_threads hP
  obtain ⟨ev, s', h6, h7⟩ := C80_finishes es s h1 hc 0 (by rw [h4]; simp)
  rw [h4] at h7
  obtain ⟨r, cells, rfl⟩ := h7
  obtain ⟨es', u, h8, hc', h9⟩ := alone_run h1 hc h6
  have h10 := List.mem_append_right es' h2
  obtain ⟨v, h11, rfl⟩ := (C80_expression hP [x, y] (mul x y) goodParams_xy.1
    (supported_of_check (by decide +kernel)) (by have := hP.maxArgs; simp; omega) _ u h8 (some 0) 0 s').2
    1 f _ r cells h10 h9 [2, 3] (.cons (Or.inl rfl) (.cons (Or.inl rfl) .nil)) rfl
  have h12 : evalTree (irMeaning exactMachine [x, y] [2, 3]) (mul x y) = .ok ((2 : ℝ) * 3) := by
    rw [show (mul x y : Expr) = .node [mulH, x, y] from rfl, evalTree_node _ rfl]
    rfl
  rw [evaluates_iff.1 h11] at h12
  obtain rfl : v = 2 * 3 := Except.ok.inj h12
  exact ⟨P, _, u, s', f, cells, h8, by norm_num at h9; exact h9, h10⟩

end Verif.Props
