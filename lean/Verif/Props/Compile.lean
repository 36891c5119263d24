import Verif.Props.LLVMText
import Verif.Props.Lambdify
import Verif.Spec.Compile
import Mathlib.Data.List.Forall2

/-!
# C59: compiled functions
-/

namespace Verif.Props
open Spec Expr

variable {F : Type} {P : Platform F} {A : IRArith F}

theorem mapM_length {α β : Type} {f : α → PyM β} (l : List α) :
    ∀ r, l.mapM f = .ok r → r.length = l.length := by
  induction l with
  | nil => intro r h; cases h; rfl
  | cons a l ih =>
    intro r h
    rw [List.mapM_cons] at h
    cases ha : f a with
    | error err => rw [ha] at h; cases h
    | ok b =>
      rw [ha] at h
      cases hl : l.mapM f with
      | error err => rw [hl] at h; cases h
      | ok bs =>
        rw [hl] at h
        cases h
        simp [ih bs hl]

/-- What compiling does to the process. -/
theorem lambdify_eq (args : List PyObj) (e : LambdifyArg) (s : Proc F) :
    (∃ err, lambdify P args e s = (.error err, s) ∧ (lambdifyCode args e = .error err ∨
      ∃ fn, lambdifyCode args e = .ok fn ∧ P.accepts fn.text = false ∧ err = .runtimeError)) ∨
    ∃ r fn, (lambdifyCode args e = .ok fn ∧ P.accepts fn.text = true ∧
        ((∃ f, r = .ok f) ∧ ctypesParams args.length e ≤ P.maxArgs ∨
          r = .error .argumentError ∧ P.maxArgs < ctypesParams args.length e)) ∧
      lambdify P args e s = (r,
      { s with engines := s.engines ++ [some fn.text], exeEng := s.exeEng ++ [s.engines.length] }) := by
  unfold lambdify lambdifyCode
  cases ha : args.mapM PyObj.rep with
  | error err => exact Or.inl ⟨err, rfl, Or.inl rfl⟩
  | ok reps =>
    have hlen : reps.length = args.length := mapM_length args reps ha
    cases e with
    | other => exact Or.inl ⟨_, rfl, Or.inl rfl⟩
    | expr e =>
      show _ ∨ ∃ r fn, (toLlvm reps e = .ok fn ∧ _) ∧ _
      simp only [lambdifyLlvm]
      cases hc : toLlvm reps e with
      | error err => exact Or.inl ⟨err, rfl, Or.inl hc⟩
      | ok fn =>
        simp only [compileLlvm]
        cases hp : P.accepts fn.text with
        | false => exact Or.inl ⟨_, rfl, Or.inr ⟨fn, hc, hp, rfl⟩⟩
        | true =>
          refine Or.inr ?_
          simp only [if_true, hlen, ctypesParams]
          by_cases hm : P.maxArgs < args.length
          · exact ⟨_, fn, ⟨rfl, hp, Or.inr ⟨rfl, hm⟩⟩, by rw [if_pos hm]⟩
          · exact ⟨_, fn, ⟨rfl, hp, Or.inl ⟨⟨_, rfl⟩, by omega⟩⟩, by rw [if_neg hm]⟩
    | matrix m =>
      show _ ∨ ∃ r fn, (toLlvmMatrix reps m = .ok fn ∧ _) ∧ _
      simp only [lambdifyLlvmMatrix]
      cases hc : toLlvmMatrix reps m with
      | error err => exact Or.inl ⟨err, rfl, Or.inl hc⟩
      | ok fn =>
        simp only [compileLlvm]
        cases hp : P.accepts fn.text with
        | false => exact Or.inl ⟨_, rfl, Or.inr ⟨fn, hc, hp, rfl⟩⟩
        | true =>
          refine Or.inr ?_
          simp only [if_true, hlen, ctypesParams]
          by_cases hm : P.maxArgs < args.length + 1
          · exact ⟨_, fn, ⟨rfl, hp, Or.inr ⟨rfl, hm⟩⟩, by rw [if_pos hm]⟩
          · exact ⟨_, fn, ⟨rfl, hp, Or.inl ⟨⟨_, rfl⟩, by omega⟩⟩, by rw [if_neg hm]⟩

/-- What a call does to the process. -/
theorem call_proc (f : Callable) (args : List (CallArg F)) (s : Proc F) :
    (call P f args s).2.engines = s.engines ∧ (call P f args s).2.exeEng = s.exeEng ∧
    ∀ id, id < s.arrays.length → (call P f args s).2.arrays[id]? = s.arrays[id]? := by
  cases f with
  | cfunc fptr nargs =>
    simp only [call]
    split
    · exact ⟨rfl, rfl, fun _ _ => rfl⟩
    · split <;> exact ⟨rfl, rfl, fun _ _ => rfl⟩
  | npfunc fptr nargs shape =>
    simp only [call]
    split
    · exact ⟨rfl, rfl, fun id h => by simp [List.getElem?_append_left h]⟩
    · split
      · refine ⟨rfl, rfl, fun id h => ?_⟩
        simp only
        rw [List.getElem?_set_ne (by omega), List.getElem?_append_left h]
      · exact ⟨rfl, rfl, fun id h => by simp [List.getElem?_append_left h]⟩

/-- An engine in `_exe_eng` stays. -/
theorem engine_kept {W : Nat → Prop} {s t : Proc F} (h : Later P W s t) {i : Nat} {text : String}
    (hk : i ∈ s.exeEng) (he : s.engines[i]? = some (some text)) :
    i ∈ t.exeEng ∧ t.engines[i]? = some (some text) := by
  induction h with
  | refl => exact ⟨hk, he⟩
  | @step t u _ ev ih =>
    obtain ⟨ih1, ih2⟩ := ih
    cases ev with
    | lambdify args e =>
      rcases lambdify_eq (P := P) args e t with ⟨err, h, _⟩ | ⟨f, fn, _, h⟩
      · rw [h]; exact ⟨ih1, ih2⟩
      · rw [h]
        refine ⟨List.mem_append_left _ ih1, ?_⟩
        simp only
        rw [List.getElem?_append_left (List.getElem?_eq_some_iff.1 ih2).1]
        exact ih2
    | call f args _ hu =>
      obtain ⟨h1, h2, _⟩ := call_proc (P := P) f args t
      rw [h1, h2]; exact ⟨ih1, ih2⟩
    | write id cells _ hw => exact ⟨ih1, ih2⟩
    | free j _ hj =>
      refine ⟨ih1, ?_⟩
      simp only
      rw [List.getElem?_set_ne (by rintro rfl; exact hj ih1)]
      exact ih2

/-- **C59, arrays are not shared.**  An array keeps its contents whatever happens, unless the user
changes it. -/
theorem C59_arrays {W : Nat → Prop} {s t : Proc F} (h : Later P W s t) {id : Nat} {cells : List F}
    (hw : ¬ W id) (he : s.arrays[id]? = some cells) : t.arrays[id]? = some cells := by
  induction h with
  | refl => exact he
  | @step t u _ ev ih =>
    cases ev with
    | lambdify args e =>
      rcases lambdify_eq (P := P) args e t with ⟨err, h, _⟩ | ⟨f, fn, _, h⟩ <;> rw [h] <;> exact ih
    | call f args _ hu =>
      rw [(call_proc (P := P) f args t).2.2 id (List.getElem?_eq_some_iff.1 ih).1]
      exact ih
    | write j cells _ hj =>
      simp only
      rw [List.getElem?_set_ne (by rintro rfl; exact hw hj)]
      exact ih
    | free j _ hj => exact ih

/-- Numbers are converted. -/
theorem ctypesArgs_ok (hP : PlatformOK P A) (args : List (CallArg F)) (vs : List F)
    (h : List.Forall₂ (IsDouble A) args vs) (p n : Nat) (hn : args.length = n)
    (hm : n + p ≤ P.maxArgs) : ctypesArgs P p n args = .ok vs := by
  unfold ctypesArgs
  rw [if_neg (by omega), if_neg (by omega), List.take_of_length_le (by omega), List.drop_eq_nil_of_le (by omega)]
  have : args.mapM (fromParam P) = .ok vs := by
    clear hn
    induction h with
    | nil => rfl
    | cons ha _ ih =>
      rw [List.mapM_cons, ih]
      rcases ha with rfl | ⟨n, b, rfl, hb, rfl⟩
      · rfl
      · simp only [fromParam, hP.ofInt, hb]; rfl
  rw [this]
  rfl

theorem mapM_rep (symargs : List Expr) :
    (symargs.map PyObj.expr).mapM PyObj.rep = .ok symargs := by
  induction symargs with
  | nil => rfl
  | cons a as ih => rw [List.map_cons, List.mapM_cons, ih]; rfl

/-- **C59, expressions.**  If there are not more parameters than ctypes supports (1024),
`f = lambdify(symargs, e)` succeeds in every state of the process, and
at every later time, whatever else has been compiled, called or collected, `f(*args)` returns the
value of `e` at the arguments (floats or ints) and changes nothing. -/
theorem C59_expression (hP : PlatformOK P A) (symargs : List Expr) (e : Expr)
    (hg : GoodParams symargs) (hs : Supported symargs e) (hmax : symargs.length ≤ P.maxArgs)
    (s : Proc F) :
    ∃ f s1, lambdify P (symargs.map .expr) (.expr e) s = (.ok f, s1) ∧
      ∀ W s2, Later P W s1 s2 → ∀ args vs, List.Forall₂ (IsDouble A) args vs →
        args.length = symargs.length →
        ∃ v, Evaluates (irMeaning A symargs vs) e v ∧ call P f args s2 = (.float v, s2) := by
  obtain ⟨fn, h, hssa⟩ := C35_generated symargs e hg hs
  have hp := C50_text symargs e fn h hssa
  have hacc : P.accepts fn.text = true :=
    hP.accepts _ ⟨_, fn, hp, hssa, declared_callees hssa⟩
  refine ⟨.cfunc s.engines.length symargs.length,
    { s with engines := s.engines ++ [some fn.text], exeEng := s.exeEng ++ [s.engines.length] }, ?_, ?_⟩
  · unfold lambdify
    rw [mapM_rep]
    simp only [lambdifyLlvm, h, compileLlvm, hacc, if_true, Nat.not_lt.2 hmax, if_false]
  intro W s2 hl args vs hv hlen
  have hvl : symargs.length = vs.length := hlen ▸ hv.length_eq
  obtain ⟨v, hev, hrun⟩ := C35_computes_expression symargs e fn hs h hssa A vs [] hvl
  refine ⟨v, hev, ?_⟩
  have hk := (engine_kept hl (i := s.engines.length) (text := fn.text) (by simp) (by simp)).2
  have hc := hP.code _ _ _ _ ((runsModule_iff hssa hp A vs [] _).2 hrun)
  simp only [call, ctypesArgs_ok hP args vs hv 0 _ hlen hmax, runAddress, hk, hc]

/-- **C59, matrices.**  Likewise for a matrix: every call returns a new array, which holds the
values of the entries, and keeps holding them unless the user changes that array. -/
theorem C59_matrix (hP : PlatformOK P A) (symargs : List Expr) (m : Mat) (hm : MatHistory m)
    (hg : GoodParams symargs ["_out"]) (hs : MatSupported symargs m)
    (hsize : m.nrows * m.ncols ≤ 2 ^ 31) (hz : zero ∉ symargs)
    (hmax : symargs.length + 1 ≤ P.maxArgs) (s : Proc F) :
    ∃ f s1, lambdify P (symargs.map .expr) (.matrix m) s = (.ok f, s1) ∧
      ∀ W s2, Later P W s1 s2 → ∀ args vs, List.Forall₂ (IsDouble A) args vs →
        args.length = symargs.length →
        ∃ id cells s3, call P f args s2 = (.array id, s3) ∧ s2.arrays[id]? = none ∧
          cells.length = m.nrows * m.ncols ∧
          (∀ i j : Nat, i < m.nrows → j < m.ncols → ∃ e v, m.getItem (.pair i j) = .ok e ∧
            Evaluates (irMeaning A symargs vs) e v ∧ cells[i * m.ncols + j]? = some v) ∧
          ∀ W' s4, Later P W' s3 s4 → ¬ W' id → s4.arrays[id]? = some cells := by
  obtain ⟨fn, h, hssa⟩ := C36_generated symargs m hm hg hs
  have hp := C50_text_matrix symargs m hm fn h hssa
  have hacc : P.accepts fn.text = true :=
    hP.accepts _ ⟨_, fn, hp, hssa, declared_callees hssa⟩
  refine ⟨.npfunc s.engines.length symargs.length (m.nrows, m.ncols),
    { s with engines := s.engines ++ [some fn.text], exeEng := s.exeEng ++ [s.engines.length] }, ?_, ?_⟩
  · unfold lambdify
    rw [mapM_rep]
    simp only [lambdifyLlvmMatrix, h, compileLlvm, hacc, if_true, Nat.not_lt.2 hmax, if_false]
  intro W s2 hl args vs hv hlen
  have hvl : symargs.length = vs.length := hlen ▸ hv.length_eq
  obtain ⟨mem', hrun, hml, hent⟩ := C36_call symargs m hm fn hs h hssa hsize hz A vs hvl
  have hk := (engine_kept hl (i := s.engines.length) (text := fn.text) (by simp) (by simp)).2
  rw [← hP.zero] at hrun
  have hc := hP.code _ _ _ _ ((runsModule_iff hssa hp A vs _ _).2 hrun)
  refine ⟨s2.arrays.length, mem', { s2 with arrays :=
    (s2.arrays ++ [List.replicate (m.nrows * m.ncols) P.zero]).set s2.arrays.length mem' }, ?_,
    by simp, hml, hent, ?_⟩
  · simp only [call, ctypesArgs_ok hP args vs hv 1 _ hlen hmax, runAddress, hk, hc]
  · intro W' s4 hl' hw
    exact C59_arrays hl' hw (by simp)

/-- What `lambdify` returns. -/
theorem callable_shape (symargs : List Expr) (e : LambdifyArg) (s s1 : Proc F) (f : Callable)
    (hf : lambdify P (symargs.map .expr) e s = (.ok f, s1)) :
    (∃ p, f = .cfunc p symargs.length ∧ ctypesParams symargs.length e = symargs.length) ∨
    ∃ p sh, f = .npfunc p symargs.length sh ∧ ctypesParams symargs.length e = symargs.length + 1 := by
  unfold lambdify at hf
  rw [mapM_rep] at hf
  cases e with
  | other => simp at hf
  | expr e =>
    simp only [lambdifyLlvm] at hf
    split at hf
    · simp at hf
    · split at hf
      · simp at hf
      · split at hf
        · simp at hf
        · simp only [Prod.mk.injEq, Except.ok.injEq] at hf
          exact Or.inl ⟨_, hf.1.symm, rfl⟩
  | matrix m =>
    simp only [lambdifyLlvmMatrix] at hf
    split at hf
    · simp at hf
    · split at hf
      · simp at hf
      · split at hf
        · simp at hf
        · simp only [Prod.mk.injEq, Except.ok.injEq] at hf
          exact Or.inr ⟨_, _, hf.1.symm, rfl⟩

/-- **C59, the number of parameters.**  `lambdify` fails if there are more parameters than ctypes
supports (the array that a matrix function fills is one of them). -/
theorem C59_parameter_limit {args : List PyObj} {e : LambdifyArg} {s s1 : Proc F} {f : Callable}
    (h : lambdify P args e s = (.ok f, s1)) : ctypesParams args.length e ≤ P.maxArgs := by
  rcases lambdify_eq (P := P) args e s with ⟨err, h', _⟩ | ⟨r, fn, ⟨_, _, h2⟩, h'⟩
  · rw [h] at h'
    simp at h'
  · rw [h] at h'
    simp only [Prod.mk.injEq] at h'
    rcases h2 with ⟨_, h2⟩ | ⟨h2, _⟩
    · exact h2
    · rw [← h'.1] at h2
      cases h2

/-- **C59, shape.**  A function compiled from a matrix returns arrays of the shape of the matrix, one compiled
from an expression floats. -/
theorem C59_shape {args : List PyObj} {e : LambdifyArg} {s s1 : Proc F} {f : Callable}
    (h : lambdify P args e s = (.ok f, s1)) :
    arrayShape f = match e with
      | .matrix m => some (m.nrows, m.ncols)
      | _ => none := by
  unfold lambdify at h
  cases ha : args.mapM PyObj.rep with
  | error err => rw [ha] at h; cases h
  | ok reps =>
    rw [ha] at h
    cases e with
    | other => cases h
    | expr e =>
      simp only [lambdifyLlvm] at h
      cases hc : toLlvm reps e with
      | error err => rw [hc] at h; cases h
      | ok fn =>
        simp only [hc, compileLlvm] at h
        split at h
        · cases h
        · next h1 =>
          split at h1
          · split at h
            · cases h
            · cases h; rfl
          · cases h1
    | matrix m =>
      simp only [lambdifyLlvmMatrix] at h
      cases hc : toLlvmMatrix reps m with
      | error err => rw [hc] at h; cases h
      | ok fn =>
        simp only [hc, compileLlvm] at h
        split at h
        · cases h
        · next h1 =>
          split at h1
          · split at h
            · cases h
            · cases h; rfl
          · cases h1

theorem mapM_extra (l : List (CallArg F)) :
    (∀ a ∈ l, Ignored a) ∧ (∃ us, l.mapM extraParam = .ok us) ∨
    (∃ a ∈ l, ¬ Ignored a) ∧ l.mapM extraParam = .error .argumentError := by
  have hone : ∀ a : CallArg F, Ignored a ∧ extraParam a = .ok () ∨
      ¬ Ignored a ∧ extraParam a = .error .argumentError := by
    intro a
    cases a with
    | float v => exact Or.inr ⟨by simp [Ignored], rfl⟩
    | other => exact Or.inr ⟨by simp [Ignored], rfl⟩
    | pointer => exact Or.inl ⟨Or.inl rfl, rfl⟩
    | int n =>
      by_cases h : -2 ^ 63 ≤ n ∧ n < 2 ^ 64
      · exact Or.inl ⟨Or.inr ⟨n, rfl, h⟩, by simp only [extraParam, if_pos h]⟩
      · refine Or.inr ⟨?_, by simp only [extraParam, if_neg h]⟩
        rintro (h' | ⟨m, h', h2⟩)
        · cases h'
        · cases h'
          exact h h2
  induction l with
  | nil => exact Or.inl ⟨by simp, _, rfl⟩
  | cons a l ih =>
    rw [List.mapM_cons]
    rcases hone a with ⟨h1, h2⟩ | ⟨h1, h2⟩
    · rw [h2]
      rcases ih with ⟨i1, us, i2⟩ | ⟨⟨b, hb, i1⟩, i2⟩
      · rw [i2]
        exact Or.inl ⟨List.forall_mem_cons.2 ⟨h1, i1⟩, _, rfl⟩
      · rw [i2]
        exact Or.inr ⟨⟨b, List.mem_cons_of_mem _ hb, i1⟩, rfl⟩
    · rw [h2]
      exact Or.inr ⟨⟨a, List.mem_cons_self, h1⟩, rfl⟩

theorem mapM_fromParam (hP : PlatformOK P A) (l : List (CallArg F)) :
    (∃ vs, List.Forall₂ (IsDouble A) l vs ∧ l.mapM (fromParam P) = .ok vs) ∨
    (∃ a ∈ l, ∀ v, ¬ IsDouble A a v) ∧ l.mapM (fromParam P) = .error .argumentError := by
  have hone : ∀ a : CallArg F, (∃ v, IsDouble A a v ∧ fromParam P a = .ok v) ∨
      (∀ v, ¬ IsDouble A a v) ∧ fromParam P a = .error .argumentError := by
    intro a
    cases a with
    | float v => exact Or.inl ⟨v, Or.inl rfl, rfl⟩
    | other => exact Or.inr ⟨by simp [IsDouble], rfl⟩
    | pointer => exact Or.inr ⟨by simp [IsDouble], rfl⟩
    | int n =>
      simp only [fromParam, hP.ofInt]
      cases hb : doubleBits n with
      | none =>
        refine Or.inr ⟨?_, rfl⟩
        rintro v (h | ⟨m, b, h, hb', _⟩)
        · cases h
        · cases h
          rw [hb] at hb'
          cases hb'
      | some b => exact Or.inl ⟨_, Or.inr ⟨n, b, rfl, hb, rfl⟩, rfl⟩
  induction l with
  | nil => exact Or.inl ⟨[], .nil, rfl⟩
  | cons a l ih =>
    rw [List.mapM_cons]
    rcases hone a with ⟨v, h1, h2⟩ | ⟨h1, h2⟩
    · rw [h2]
      rcases ih with ⟨vs, i1, i2⟩ | ⟨⟨b, hb, i1⟩, i2⟩
      · rw [i2]
        exact Or.inl ⟨v :: vs, .cons h1 i1, rfl⟩
      · rw [i2]
        exact Or.inr ⟨⟨b, List.mem_cons_of_mem _ hb, i1⟩, rfl⟩
    · rw [h2]
      exact Or.inr ⟨⟨a, List.mem_cons_self, h1⟩, rfl⟩

/-- **C59, wrong arguments.**  With too few arguments a compiled function raises `TypeError`.
Otherwise it raises `ctypes.ArgumentError` if there are more arguments than ctypes supports, if one of
its parameters gets something that is not a number or is an int too large for a double, or if there is
a further argument that ctypes does not ignore; further arguments that it ignores, when everything
else is right, do not matter. -/
theorem C59_wrong_arguments (hP : PlatformOK P A) (symargs : List Expr) (e : LambdifyArg)
    (s s1 : Proc F) (f : Callable) (hf : lambdify P (symargs.map .expr) e s = (.ok f, s1))
    (args extra : List (CallArg F)) (s2 : Proc F) :
    (args.length < symargs.length → (call P f args s2).1 = .raised .typeError) ∧
    (args.length = symargs.length →
      (P.maxArgs < ctypesParams (args ++ extra).length e ∨ (∃ a ∈ args, ∀ v, ¬ IsDouble A a v) ∨
        (∃ a ∈ extra, ¬ Ignored a) →
        (call P f (args ++ extra) s2).1 = .raised .argumentError) ∧
      (ctypesParams (args ++ extra).length e ≤ P.maxArgs → (∀ a ∈ extra, Ignored a) →
        call P f (args ++ extra) s2 = call P f args s2)) := by
  have hl := C59_parameter_limit hf
  rw [List.length_map] at hl
  obtain ⟨k, hk, hcall⟩ : ∃ k, (∀ n, ctypesParams n e = n + k) ∧
      ∀ args args' : List (CallArg F),
        ctypesArgs P k symargs.length args = ctypesArgs P k symargs.length args' →
        call P f args s2 = call P f args' s2 := by
    rcases callable_shape symargs e s s1 f hf with ⟨p, rfl, hc⟩ | ⟨p, sh, rfl, hc⟩
    · refine ⟨0, ?_, fun args args' h => by simp only [call, h]⟩
      intro n
      cases e <;> simp [ctypesParams] at hc ⊢
    · refine ⟨1, ?_, fun args args' h => by simp only [call, h]⟩
      intro n
      cases e <;> simp [ctypesParams] at hc ⊢
  have herr : ∀ (args : List (CallArg F)) err, ctypesArgs P k symargs.length args = .error err →
      (call P f args s2).1 = .raised err := by
    intro args err herr
    rcases callable_shape symargs e s s1 f hf with ⟨p, rfl, hc⟩ | ⟨p, sh, rfl, hc⟩
    · have : k = 0 := by
        have := hk symargs.length
        omega
      subst this
      simp only [call, herr]
    · have : k = 1 := by
        have := hk symargs.length
        omega
      subst this
      simp only [call, herr]
  refine ⟨fun h => herr _ _ (by unfold ctypesArgs; rw [if_pos h]), fun hlen => ⟨?_, ?_⟩⟩
  · intro hbad
    apply herr
    have hge : ¬ (args ++ extra).length < symargs.length := by simp; omega
    unfold ctypesArgs
    rw [if_neg hge]
    split
    · rfl
    rename_i hmax
    rw [hk] at hbad
    rw [List.take_left' hlen, List.drop_left' hlen]
    rcases mapM_fromParam hP args with ⟨vs, g1, g2⟩ | ⟨-, g2⟩
    · rw [g2]
      rcases mapM_extra extra with ⟨i1, us, i2⟩ | ⟨-, i2⟩
      · exfalso
        rcases hbad with h | ⟨a, ha, h⟩ | ⟨a, ha, h⟩
        · exact hmax h
        · obtain ⟨v, hv⟩ : ∃ v, IsDouble A a v := by
            clear g2 hge hlen hmax
            induction g1 with
            | nil => cases ha
            | cons h1 _ ih =>
              rcases List.mem_cons.1 ha with rfl | ha
              · exact ⟨_, h1⟩
              · exact ih ha
          exact h v hv
        · exact h (i1 a ha)
      · rw [i2]; rfl
    · rw [g2]; rfl
  · intro hmax hig
    apply hcall
    rw [hk] at hmax hl
    unfold ctypesArgs
    have hge : ¬ (args ++ extra).length < symargs.length := by simp; omega
    rw [if_neg hge, if_neg (by omega), if_neg (by omega), if_neg (by omega),
      List.take_left' hlen, List.drop_left' hlen, List.take_of_length_le (by omega),
      List.drop_eq_nil_of_le (by omega)]
    rcases mapM_extra extra with ⟨_, us, i2⟩ | ⟨⟨a, ha, i1⟩, -⟩
    · rw [i2]
      cases args.mapM (fromParam P) <;> rfl
    · exact absurd (hig a ha) i1

/-- **C59, a failed `lambdify` changes nothing.**  It raises what the code generator raises (C37), or
`RuntimeError` if LLVM does not accept the text, or `ctypes.ArgumentError` if there are too many
parameters; in the last case a compiled function remains, which nobody can call. -/
theorem C59_failure (args : List PyObj) (e : LambdifyArg) (s s1 : Proc F) (err : PyErr)
    (h : lambdify P args e s = (.error err, s1)) :
    (s1 = s ∧ (lambdifyCode args e = .error err ∨
      ∃ fn, lambdifyCode args e = .ok fn ∧ P.accepts fn.text = false ∧ err = .runtimeError)) ∨
    (err = .argumentError ∧ P.maxArgs < ctypesParams args.length e ∧
      ∃ fn, lambdifyCode args e = .ok fn ∧ P.accepts fn.text = true ∧
        s1 = { s with engines := s.engines ++ [some fn.text],
                      exeEng := s.exeEng ++ [s.engines.length] }) := by
  rcases lambdify_eq (P := P) args e s with ⟨err', h', h2⟩ | ⟨r, fn, ⟨h1, h2, h3⟩, h'⟩
  · rw [h] at h'
    simp only [Prod.mk.injEq, Except.error.injEq] at h'
    obtain ⟨rfl, rfl⟩ := h'
    exact Or.inl ⟨rfl, h2⟩
  · rw [h] at h'
    simp only [Prod.mk.injEq] at h'
    obtain ⟨rfl, rfl⟩ := h'
    rcases h3 with ⟨⟨f, hf⟩, -⟩ | ⟨hr, hm⟩
    · cases hf
    · exact Or.inr ⟨Except.error.inj hr, hm, fn, h1, h2, rfl⟩

/-- **C59, nothing is ever freed.**  In every state of the process the code of every function
compiled so far is in memory, also that of functions nobody refers to any more. -/
theorem C59_never_freed {W : Nat → Prop} {s : Proc F} (h : Later P W Proc.start s) :
    ∀ i < s.engines.length, ∃ text, s.engines[i]? = some (some text) := by
  have hinv : (∀ i, i < s.engines.length → i ∈ s.exeEng ∧ ∃ text, s.engines[i]? = some (some text)) := by
    induction h with
    | refl => intro i hi; simp [Proc.start] at hi
    | @step t u _ ev ih =>
      intro i hi
      cases ev with
      | lambdify args e =>
        rcases lambdify_eq (P := P) args e t with ⟨err, h, _⟩ | ⟨f, fn, _, h⟩
        · rw [h] at hi ⊢; exact ih i hi
        · rw [h] at hi ⊢
          simp only [List.length_append, List.length_cons, List.length_nil] at hi
          by_cases hlt : i < t.engines.length
          · obtain ⟨h1, text, h2⟩ := ih i hlt
            refine ⟨List.mem_append_left _ h1, text, ?_⟩
            simp only
            rw [List.getElem?_append_left hlt]; exact h2
          · obtain rfl : i = t.engines.length := by omega
            exact ⟨by simp, fn.text, by simp⟩
      | call f args _ hu =>
        obtain ⟨h1, h2, _⟩ := call_proc (P := P) f args t
        rw [h1] at hi
        rw [h1, h2]; exact ih i hi
      | write id cells _ hw => exact ih i hi
      | free j _ hj =>
        simp only [List.length_set] at hi
        obtain ⟨h1, text, h2⟩ := ih i hi
        refine ⟨h1, text, ?_⟩
        simp only
        rw [List.getElem?_set_ne (by rintro rfl; exact hj h1)]; exact h2
  exact fun i hi => (hinv i hi).2

/-! ### The hypotheses can be met -/

/-- A correct platform exists for every arithmetic. -/
theorem platformOK_exists {F : Type} (A : IRArith F) : ∃ P : Platform F, PlatformOK P A := by
  classical
  refine ⟨⟨fun _ => true, fun text vs mem =>
    if h : ∃ r, RunsModule A text vs mem r then some h.choose else none, A.const 0,
    fun n => (doubleBits n).map A.const, 1024⟩, fun _ _ => rfl, ?_, rfl, fun _ => rfl, Nat.le_refl _⟩
  intro text vs mem r hr
  have h : ∃ r, RunsModule A text vs mem r := ⟨r, hr⟩
  simp only [dif_pos h]
  obtain ⟨ds, fn, h1, _, _, h2⟩ := h.choose_spec
  obtain ⟨ds', fn', h1', _, _, h2'⟩ := hr
  rw [h1] at h1'
  cases h1'
  rw [h2] at h2'
  rw [Option.some.inj h2']

theorem goodParams_x : GoodParams [x] := by
  refine ⟨["x"], rfl, by decide, ?_⟩
  intro s hs
  obtain rfl := List.mem_singleton.1 hs
  refine ⟨⟨by decide, by decide⟩, ?_, by simp⟩
  intro n he
  have := congrArg (fun t : String => t.toList.head?) he
  simp [String.toList_append] at this

/-- A history: compile `sin(x)`, compile `x*x`, fail to compile a matrix-or-expression that is
neither, let the collector try to free something that is not an engine, call the second function,
and then call the first with the int 2: it returns the sine of the double 2. -/
example : ∃ (P : Platform ℝ) (f : Callable) (s : Proc ℝ), PlatformOK P exactMachine ∧
    Later P (fun _ => True) Proc.start s ∧ s.engines.length = 2 ∧
    call P f [.int 2] s = (.float (Real.sin 2), s) := by
  obtain ⟨P, hP⟩ := platformOK_exists exactMachine
  obtain ⟨f, s1, h1, hf⟩ := C59_expression hP [x] (sin x) goodParams_x
    (supported_of_check (by decide +kernel)) (Nat.le_trans (by decide) hP.maxArgs) Proc.start
  obtain ⟨g, s2, h2, hg⟩ := C59_expression hP [x] (mul x x) goodParams_x
    (supported_of_check (by decide +kernel)) (Nat.le_trans (by decide) hP.maxArgs) s1
  have e1 : Later P (fun _ => True) (Proc.start : Proc ℝ) s1 := by
    have := Later.step (P := P) (W := fun _ => True) (Later.refl Proc.start)
      (Event.lambdify ([x].map .expr) (.expr (sin x)) Proc.start)
    rw [h1] at this; exact this
  have e2 : Later P (fun _ => True) s1 s2 := by
    have := Later.step (P := P) (W := fun _ => True) (Later.refl s1)
      (Event.lambdify ([x].map .expr) (.expr (mul x x)) s1)
    rw [h2] at this; exact this
  have hlen : s2.engines.length = 2 := by
    rcases lambdify_eq (P := P) ([x].map .expr) (.expr (sin x)) Proc.start with
      ⟨err, h, _⟩ | ⟨f', fn, _, h⟩
    · rw [h1] at h; simp at h
    · rw [h1] at h
      rcases lambdify_eq (P := P) ([x].map .expr) (.expr (mul x x)) s1 with
        ⟨err, h', _⟩ | ⟨f'', fn', _, h'⟩
      · rw [h2] at h'; simp at h'
      · rw [h2] at h'
        simp only [Prod.mk.injEq] at h h'
        rw [h'.2, h.2]
        rfl
  obtain ⟨w, _, hgc⟩ := hg (fun _ => True) s2 (Later.refl s2) [.float 3] [3]
    (by simp [IsDouble]) rfl
  have e3 : Later P (fun _ => True) s2 s2 := by
    refine Later.step (Later.step (Later.step (Later.refl s2)
      (Event.lambdify [] .other s2)) (Event.call g [.float 3] s2 ?_) |> fun h => by
        rw [hgc] at h; exact h) ?_
    · rw [hgc]; simp
    · have := Event.free (P := P) (W := fun _ => True) 7 s2 ?_
      · rwa [List.set_eq_of_length_le (by omega)] at this
      · intro h7
        have hk : ∀ i ∈ s2.exeEng, i < s2.engines.length := by
          rcases lambdify_eq (P := P) ([x].map .expr) (.expr (sin x)) Proc.start with
            ⟨err, h, _⟩ | ⟨f', fn, _, h⟩
          · rw [h1] at h; simp at h
          · rw [h1] at h
            rcases lambdify_eq (P := P) ([x].map .expr) (.expr (mul x x)) s1 with
              ⟨err, h', _⟩ | ⟨f'', fn', _, h'⟩
            · rw [h2] at h'; simp at h'
            · rw [h2] at h'
              simp only [Prod.mk.injEq] at h h'
              rw [h'.2, h.2]
              simp [Proc.start]
        exact absurd (hk 7 h7) (by omega)
  have hb : doubleBits 2 = some 0x4000000000000000 := by decide +kernel
  have hd : doubleValue 0x4000000000000000 = some 2 := by decide +kernel
  have hc2 : exactMachine.const 0x4000000000000000 = 2 := by
    simp only [exactMachine, hd, Option.getD_some]; norm_num
  have htrans : ∀ {s t u : Proc ℝ}, Later P (fun _ => True) s t → Later P (fun _ => True) t u →
      Later P (fun _ => True) s u := by
    intro s t u h h'
    induction h' with
    | refl => exact h
    | step _ ev ih => exact .step ih ev
  obtain ⟨v, hv, hcall⟩ := hf (fun _ => True) s2 (htrans e2 e3) [.int 2] [2]
    (by
      refine List.Forall₂.cons (Or.inr ⟨2, _, rfl, hb, hc2⟩) .nil) rfl
  refine ⟨P, f, s2, hP, htrans e1 (htrans e2 e3), hlen, ?_⟩
  have hev : evalTree (irMeaning exactMachine [x] [2]) (sin x) = .ok (Real.sin 2) := rfl
  rw [evaluates_iff, hev] at hv
  rw [hcall, ← Except.ok.inj hv]

/-- `sin(x)` compiled with the parameter `x`: without arguments it raises `TypeError`, with a string
`ArgumentError`, with a second argument 1.5 likewise, and second and third arguments `None` and 7 do
not matter. -/
example : ∃ (P : Platform ℝ) (f : Callable) (s : Proc ℝ), PlatformOK P exactMachine ∧
    lambdify P ([x].map .expr) (.expr (sin x)) Proc.start = (.ok f, s) ∧
    (call P f [] s).1 = .raised .typeError ∧ (call P f [.pointer] s).1 = .raised .argumentError ∧
    (call P f [.float 2, .float 1.5] s).1 = .raised .argumentError ∧
    call P f [.float 2, .pointer, .int 7] s = call P f [.float 2] s := by
  obtain ⟨P, hP⟩ := platformOK_exists exactMachine
  obtain ⟨f, s1, h1, hf⟩ := C59_expression hP [x] (sin x) goodParams_x
    (supported_of_check (by decide +kernel)) (Nat.le_trans (by decide) hP.maxArgs) Proc.start
  have hm := hP.maxArgs
  have key := fun args extra => C59_wrong_arguments hP [x] _ _ _ f h1 args extra s1
  refine ⟨P, f, s1, hP, h1, (key [] []).1 (by decide), ?_, ?_, ?_⟩
  · exact ((key [.pointer] []).2 rfl).1 (Or.inr (Or.inl ⟨_, List.mem_cons_self, by simp [IsDouble]⟩))
  · exact ((key [.float 2] [.float 1.5]).2 rfl).1
      (Or.inr (Or.inr ⟨_, List.mem_cons_self, by simp [Ignored]⟩))
  · refine ((key [.float 2] [.pointer, .int 7]).2 rfl).2 (by simp [ctypesParams]; omega) ?_
    intro a ha
    rcases List.mem_cons.1 ha with rfl | ha
    · exact Or.inl rfl
    · obtain rfl := List.mem_singleton.1 ha
      exact Or.inr ⟨7, rfl, by norm_num, by norm_num⟩

end Verif.Props
