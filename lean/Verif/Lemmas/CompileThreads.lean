import Verif.Spec.CompileThreads
import Verif.Props.Compile

/-!
# Invariants of processes whose threads compile functions and call them
-/

namespace Verif.Props
open Spec

variable {F : Type} {P : Platform F}

/-- The address in a function object. -/
def Callable.address : Callable → Nat
  | .cfunc i _ | .npfunc i _ _ => i

/-- `f` is the function object for `(args, e)`, and its machine code is kept. -/
def LMade (P : Platform F) (s : LState F) (args : List PyObj) (e : LambdifyArg) (f : Callable) : Prop :=
  ∃ i fn, f = e.callable i args.length ∧ lambdifyCode args e = .ok fn ∧ P.accepts fn.text = true ∧
    ¬ P.maxArgs < e.argtypes args.length ∧ i ∈ s.exeEng ∧ s.engines[i]? = some (some fn.text)

def zerosOf (P : Platform F) (shape : Nat × Nat) : List F := List.replicate (shape.1 * shape.2) P.zero

/-- What the local variables of a frame refer to is alive and is what it should be. -/
def FrameOK (P : Platform F) (s : LState F) : LFrame F → Prop
  | .idle => True
  | .lambdifying _ _ => True
  | .finalized args e i =>
    ∃ fn, lambdifyCode args e = .ok fn ∧ P.accepts fn.text = true ∧ s.engines[i]? = some (some fn.text)
  | .appended args e i => i ∈ s.exeEng ∧
    ∃ fn, lambdifyCode args e = .ok fn ∧ P.accepts fn.text = true ∧ s.engines[i]? = some (some fn.text)
  | .called f _ => f ∈ s.functions
  | .zeros f _ a => f ∈ s.functions ∧ ∃ i n sh, f = .npfunc i n sh ∧
    s.arrays[a]? = some (some (zerosOf P sh))
  | .machine f args vs none => f ∈ s.functions ∧ ∃ i n, f = .cfunc i n ∧ ctypesArgs P 0 n args = .ok vs
  | .machine f args vs (some (a, mem)) => f ∈ s.functions ∧ ∃ i n sh, f = .npfunc i n sh ∧
    ctypesArgs P 1 n args = .ok vs ∧ mem = zerosOf P sh ∧ ∃ old, s.arrays[a]? = some (some old)
  | .filled f args a => f ∈ s.functions ∧ ∃ i n sh vs text r mem, f = .npfunc i n sh ∧
    ctypesArgs P 1 n args = .ok vs ∧ s.engines[i]? = some (some text) ∧
    P.code text vs (zerosOf P sh) = some (r, mem) ∧ s.arrays[a]? = some (some mem)

structure LInv (P : Platform F) (es : List (LEvent F)) (s : LState F) : Prop where
  events : ∀ t args e f, LEvent.made t args e (.ok f) ∈ es → LMade P s args e f
  functions : ∀ f ∈ s.functions, ∃ t args e, LEvent.made t args e (.ok f) ∈ es
  frames : ∀ t, FrameOK P s (s.thread t)
  own : ∀ t a, (s.thread t).array = some a → a ∉ s.given
  apart : ∀ t t' a, t ≠ t' → (s.thread t).array = some a → (s.thread t').array ≠ some a
  below : ∀ a ∈ s.given, ∃ cells, s.arrays[a]? = some (some cells)
  kept : ∀ i ∈ s.exeEng, ∃ text, s.engines[i]? = some (some text)

theorem LInv.address {es : List (LEvent F)} {s : LState F} (h : LInv P es s) :
    ∀ f ∈ s.functions, Callable.address f ∈ s.exeEng := by
  intro f hf
  obtain ⟨t, args, e, h1⟩ := h.functions f hf
  obtain ⟨i, fn, rfl, _, _, _, h2, _⟩ := h.events t args e f h1
  cases e <;> exact h2

/-- A frame is not disturbed by what leaves alone what its variables refer to. -/
theorem FrameOK.mono {s s' : LState F} {fr : LFrame F} (h : FrameOK P s fr)
    (hadd : ∀ f ∈ s.functions, Callable.address f ∈ s.exeEng)
    (heng : ∀ i text, s.engines[i]? = some (some text) → i ∈ s.exeEng ∨ fr.engine = some i →
      s'.engines[i]? = some (some text))
    (hexe : ∀ i ∈ s.exeEng, i ∈ s'.exeEng) (hfun : ∀ f ∈ s.functions, f ∈ s'.functions)
    (harr : ∀ a, fr.array = some a → (∃ c, s.arrays[a]? = some (some c)) → s'.arrays[a]? = s.arrays[a]?) :
    FrameOK P s' fr := by
  cases fr with
  | idle => trivial
  | lambdifying args e => trivial
  | finalized args e i =>
    obtain ⟨fn, h1, h2, h3⟩ := h
    exact ⟨fn, h1, h2, heng _ _ h3 (Or.inr rfl)⟩
  | appended args e i =>
    obtain ⟨h0, fn, h1, h2, h3⟩ := h
    exact ⟨hexe _ h0, fn, h1, h2, heng _ _ h3 (Or.inr rfl)⟩
  | called f args => exact hfun _ h
  | zeros f args a =>
    obtain ⟨h1, i, n, sh, h2, h3⟩ := h
    exact ⟨hfun _ h1, i, n, sh, h2, by rw [harr a rfl ⟨_, h3⟩]; exact h3⟩
  | machine f args vs arr =>
    cases arr with
    | none =>
      obtain ⟨h1, h2⟩ := h
      exact ⟨hfun _ h1, h2⟩
    | some am =>
      obtain ⟨a, mem⟩ := am
      obtain ⟨h1, i, n, sh, h2, h3, h4, old, h5⟩ := h
      exact ⟨hfun _ h1, i, n, sh, h2, h3, h4, old, by rw [harr a rfl ⟨_, h5⟩]; exact h5⟩
  | filled f args a =>
    obtain ⟨h1, i, n, sh, vs, text, r, mem, rfl, h3, h4, h5, h6⟩ := h
    exact ⟨hfun _ h1, i, n, sh, vs, text, r, mem, rfl, h3, heng _ _ h4 (Or.inl (hadd _ h1)), h5,
      by rw [harr a rfl ⟨_, h6⟩]; exact h6⟩

theorem LMade.mono {s s' : LState F} {args : List PyObj} {e : LambdifyArg} {f : Callable}
    (h : LMade P s args e f)
    (heng : ∀ i text, s.engines[i]? = some (some text) → i ∈ s.exeEng → s'.engines[i]? = some (some text))
    (hexe : ∀ i ∈ s.exeEng, i ∈ s'.exeEng) : LMade P s' args e f := by
  obtain ⟨i, fn, h1, h2, h3, h4, h5, h6⟩ := h
  exact ⟨i, fn, h1, h2, h3, h4, hexe _ h5, heng _ _ h6 h5⟩

@[simp] theorem goto_engines (s : LState F) (t : Nat) (f : LFrame F) : (s.goto t f).engines = s.engines := rfl
@[simp] theorem goto_exeEng (s : LState F) (t : Nat) (f : LFrame F) : (s.goto t f).exeEng = s.exeEng := rfl
@[simp] theorem goto_arrays (s : LState F) (t : Nat) (f : LFrame F) : (s.goto t f).arrays = s.arrays := rfl
@[simp] theorem goto_functions (s : LState F) (t : Nat) (f : LFrame F) :
    (s.goto t f).functions = s.functions := rfl
@[simp] theorem goto_given (s : LState F) (t : Nat) (f : LFrame F) : (s.goto t f).given = s.given := rfl
theorem goto_thread (s : LState F) (t : Nat) (f : LFrame F) (t' : Nat) :
    (s.goto t f).thread t' = if t' = t then f else s.thread t' := rfl

/-- The invariant is preserved if the thread `t` (if any) gets the frame `fr`, and the others are not
disturbed. -/
theorem LInv.next {es : List (LEvent F)} {s s' : LState F} {ev : Option (LEvent F)} (h : LInv P es s)
    (t : Option Nat)
    (hothers : ∀ t', some t' ≠ t → s'.thread t' = s.thread t')
    (hexe : ∀ i ∈ s.exeEng, i ∈ s'.exeEng) (hfun : ∀ f ∈ s.functions, f ∈ s'.functions)
    (heng : ∀ i text, s.engines[i]? = some (some text) →
      (i ∈ s.exeEng ∨ ∃ t', some t' ≠ t ∧ (s.thread t').engine = some i) → s'.engines[i]? = some (some text))
    (harr : ∀ a t', some t' ≠ t → (s.thread t').array = some a → (∃ c, s.arrays[a]? = some (some c)) →
      s'.arrays[a]? = s.arrays[a]?)
    (hev : ∀ t args e f, ev = some (.made t args e (.ok f)) → LMade P s' args e f)
    (hnew : ∀ f ∈ s'.functions, f ∈ s.functions ∨ ∃ t args e, ev = some (.made t args e (.ok f)))
    (hframe : ∀ t', some t' = t → FrameOK P s' (s'.thread t'))
    (hown : ∀ t' a, some t' = t → (s'.thread t').array = some a → a ∉ s'.given ∧
      ∀ t'', t'' ≠ t' → (s.thread t'').array ≠ some a)
    (hgiven : ∀ a ∈ s'.given, a ∈ s.given ∨ ∃ t', some t' = t ∧ (s.thread t').array = some a)
    (hbelow : ∀ a ∈ s'.given, ∃ cells, s'.arrays[a]? = some (some cells))
    (hkept : ∀ i ∈ s'.exeEng, i ∈ s.exeEng ∨ ∃ text, s'.engines[i]? = some (some text)) :
    LInv P (ev.toList ++ es) s' := by
  refine ⟨?_, ?_, ?_, ?_, ?_, hbelow, ?_⟩
  · intro t' args e f hm
    rcases List.mem_append.1 hm with hm | hm
    · exact hev t' args e f (by simpa [Option.mem_toList, Option.mem_def] using hm)
    · exact (h.events t' args e f hm).mono (fun i text h1 h2 => heng i text h1 (Or.inl h2)) hexe
  · intro f hf
    rcases hnew f hf with h1 | ⟨t', args, e, h1⟩
    · obtain ⟨t', args, e, h2⟩ := h.functions f h1
      exact ⟨t', args, e, List.mem_append_right _ h2⟩
    · exact ⟨t', args, e, by rw [h1]; simp⟩
  · intro t'
    by_cases ht : some t' = t
    · exact hframe t' ht
    · rw [hothers t' ht]
      exact (h.frames t').mono h.address
        (fun i text h1 h2 => heng i text h1 (h2.imp_right fun h2 => ⟨t', ht, h2⟩)) hexe hfun
        (fun a h1 h2 => harr a t' ht h1 h2)
  · intro t' a ha
    by_cases ht : some t' = t
    · exact (hown t' a ht ha).1
    · rw [hothers t' ht] at ha
      intro hg
      rcases hgiven a hg with h1 | ⟨t'', h1, h2⟩
      · exact h.own t' a ha h1
      · exact h.apart t' t'' a (by rintro rfl; exact ht h1) ha h2
  · intro t1 t2 a hne h1 h2
    by_cases ht1 : some t1 = t
    · have h3 := (hown t1 a ht1 h1).2 t2 (Ne.symm hne)
      by_cases ht2 : some t2 = t
      · exact hne (Option.some.inj (ht1.trans ht2.symm))
      · rw [hothers t2 ht2] at h2
        exact h3 h2
    · rw [hothers t1 ht1] at h1
      by_cases ht2 : some t2 = t
      · exact (hown t2 a ht2 h2).2 t1 hne h1
      · rw [hothers t2 ht2] at h2
        exact h.apart t1 t2 a hne h1 h2
  · intro i hi
    rcases hkept i hi with h1 | h1
    · obtain ⟨text, h2⟩ := h.kept i h1
      exact ⟨text, heng i text h2 (Or.inl h1)⟩
    · exact h1

theorem FrameOK.goto {s : LState F} {t : Nat} {fr fr' : LFrame F} (h : FrameOK P s fr') :
    FrameOK P (s.goto t fr) fr' := by
  cases fr' with
  | machine f args vs arr => cases arr <;> exact h
  | _ => exact h

theorem FrameOK.crash {s : LState F} {fr : LFrame F} (h : FrameOK P s fr) :
    FrameOK P { s with crashed := true } fr := by
  cases fr with
  | machine f args vs arr => cases arr <;> exact h
  | _ => exact h

theorem LMade.goto {s : LState F} {t : Nat} {fr : LFrame F} {args : List PyObj} {e : LambdifyArg}
    {f : Callable} (h : LMade P s args e f) : LMade P (s.goto t fr) args e f := h

/-- The thread `t` goes on, and nothing else changes. -/
theorem LInv.goto {es : List (LEvent F)} {s : LState F} (h : LInv P es s) (t : Nat) (fr : LFrame F)
    (ev : Option (LEvent F)) (hev : ∀ t args e f, ev ≠ some (.made t args e (.ok f)))
    (hfr : FrameOK P s fr) (harr : ∀ a, fr.array = some a → (s.thread t).array = some a) :
    LInv P (ev.toList ++ es) (s.goto t fr) := by
  refine h.next (some t) ?_ (fun _ h => h) (fun _ h => h) (fun _ _ h _ => h) (fun _ _ _ _ _ => rfl)
    (fun t args e f h => absurd h (hev t args e f)) (fun f hf => Or.inl hf) ?_ ?_
    (fun a ha => Or.inl ha) h.below (fun i hi => Or.inl hi)
  · intro t' ht
    rw [goto_thread, if_neg (fun h => ht (by rw [h]))]
  · intro t' ht
    obtain rfl := Option.some.inj ht
    rw [goto_thread, if_pos rfl]
    exact hfr.goto
  · intro t' a ht ha
    obtain rfl := Option.some.inj ht
    rw [goto_thread, if_pos rfl] at ha
    exact ⟨h.own t' a (harr a ha), fun t'' hne h2 => h.apart t'' t' a hne h2 (harr a ha)⟩

theorem threads_ne {t t' : Nat} (h : some t' ≠ some t) : t' ≠ t := fun e => h (by rw [e])

theorem LInv.step {es : List (LEvent F)} {s s' : LState F} {t : Option Nat} {ev : Option (LEvent F)}
    (h : LInv P es s) (hs : LStep P s t ev s') : LInv P (ev.toList ++ es) s' := by
  have hf := h.frames
  cases hs with
  | lambdify t args e hi => exact h.goto t _ _ (by simp) trivial (by simp [LFrame.array])
  | refused t args e err h1 h2 => exact h.goto t _ _ (by simp) trivial (by simp [LFrame.array])
  | rejected t args e fn h1 h2 h3 => exact h.goto t _ _ (by simp) trivial (by simp [LFrame.array])
  | finalize t args e fn h1 h2 h3 =>
    refine h.next (some t) ?_ (fun _ h => h) (fun _ h => h) ?_ (fun _ _ _ _ _ => rfl) (by simp)
      (fun f hf => Or.inl hf) ?_ ?_ (fun a ha => Or.inl ha) h.below (fun i hi => Or.inl hi)
    · intro t' ht
      exact if_neg (threads_ne ht)
    · intro i text h4 _
      show (s.engines ++ [some fn.text])[i]? = _
      rw [List.getElem?_append_left (List.getElem?_eq_some_iff.1 h4).1]
      exact h4
    · intro t' ht
      obtain rfl := Option.some.inj ht
      rw [goto_thread, if_pos rfl]
      exact ⟨fn, h2, h3, by simp⟩
    · intro t' a ht ha
      obtain rfl := Option.some.inj ht
      rw [goto_thread, if_pos rfl] at ha
      cases ha
  | append t args e i h1 =>
    have h2 := hf t
    rw [h1] at h2
    obtain ⟨fn, h2, h3, h4⟩ := h2
    refine h.next (some t) ?_ (fun _ h => List.mem_append_left _ h) (fun _ h => h) (fun _ _ h _ => h)
      (fun _ _ _ _ _ => rfl) (by simp) (fun f hf => Or.inl hf) ?_ ?_ (fun a ha => Or.inl ha) h.below ?_
    · intro t' ht
      exact if_neg (threads_ne ht)
    · intro t' ht
      obtain rfl := Option.some.inj ht
      rw [goto_thread, if_pos rfl]
      exact ⟨List.mem_append_right _ (List.mem_singleton.2 rfl), fn, h2, h3, h4⟩
    · intro t' a ht ha
      obtain rfl := Option.some.inj ht
      rw [goto_thread, if_pos rfl] at ha
      cases ha
    · intro j hj
      rcases List.mem_append.1 hj with hj | hj
      · exact Or.inl hj
      · obtain rfl := List.mem_singleton.1 hj
        exact Or.inr ⟨_, h4⟩
  | tooMany t args e i h1 h2 => exact h.goto t _ _ (by simp) trivial (by simp [LFrame.array])
  | made t args e i h1 h2 =>
    have h3 := hf t
    rw [h1] at h3
    obtain ⟨h3, fn, h4, h5, h6⟩ := h3
    refine h.next (some t) ?_ (fun _ h => h) (fun _ h => List.mem_append_left _ h) (fun _ _ h _ => h)
      (fun _ _ _ _ _ => rfl) ?_ ?_ ?_ ?_ (fun a ha => Or.inl ha) h.below (fun i hi => Or.inl hi)
    · intro t' ht
      exact if_neg (threads_ne ht)
    · intro t' args' e' f heq
      cases heq
      exact ⟨i, fn, rfl, h4, h5, h2, h3, h6⟩
    · intro f hf'
      rcases List.mem_append.1 hf' with hf' | hf'
      · exact Or.inl hf'
      · obtain rfl := List.mem_singleton.1 hf'
        exact Or.inr ⟨t, args, e, rfl⟩
    · intro t' ht
      obtain rfl := Option.some.inj ht
      rw [goto_thread, if_pos rfl]
      trivial
    · intro t' a ht ha
      obtain rfl := Option.some.inj ht
      rw [goto_thread, if_pos rfl] at ha
      cases ha
  | call t f args h1 h2 => exact h.goto t _ _ (by simp) h2 (by simp [LFrame.array])
  | badArgs t i n args err h1 h2 => exact h.goto t _ _ (by simp) trivial (by simp [LFrame.array])
  | enter t i n args vs h1 h2 =>
    have h3 := hf t
    rw [h1] at h3
    exact h.goto t _ _ (by simp) ⟨h3, i, n, rfl, h2⟩ (by simp [LFrame.array])
  | leave t i n args vs text v mem h1 h2 h3 => exact h.goto t _ _ (by simp) trivial (by simp [LFrame.array])
  | zeros t i n sh args h1 =>
    have h2 := hf t
    rw [h1] at h2
    have hlive : ∀ t' a, (s.thread t').array = some a → ∃ c, s.arrays[a]? = some (some c) := by
      intro t' a ha
      have h3 := hf t'
      cases hfr : s.thread t' with
      | zeros f args b =>
        rw [hfr] at h3 ha
        obtain ⟨_, _, _, _, _, h4⟩ := h3
        cases ha
        exact ⟨_, h4⟩
      | machine f args vs arr =>
        rw [hfr] at h3 ha
        cases arr with
        | none => cases ha
        | some am =>
          obtain ⟨_, _, _, _, _, _, _, h4⟩ := h3
          cases ha
          exact h4
      | filled f args b =>
        rw [hfr] at h3 ha
        obtain ⟨_, _, _, _, _, _, _, _, _, _, _, _, h4⟩ := h3
        cases ha
        exact ⟨_, h4⟩
      | _ => rw [hfr] at ha; cases ha
    refine h.next (some t) ?_ (fun _ h => h) (fun _ h => h) (fun _ _ h _ => h) ?_ (by simp)
      (fun f hf => Or.inl hf) ?_ ?_ (fun a ha => Or.inl ha) ?_ (fun i hi => Or.inl hi)
    · intro t' ht
      exact if_neg (threads_ne ht)
    · rintro a t' ht ha ⟨c, hc⟩
      exact List.getElem?_append_left (List.getElem?_eq_some_iff.1 hc).1
    · intro t' ht
      obtain rfl := Option.some.inj ht
      rw [goto_thread, if_pos rfl]
      exact ⟨h2, i, n, sh, rfl, by simp [zerosOf]⟩
    · intro t' a ht ha
      obtain rfl := Option.some.inj ht
      rw [goto_thread, if_pos rfl] at ha
      cases ha
      constructor
      · intro hg
        obtain ⟨c, hc⟩ := h.below _ hg
        simp at hc
      · intro t'' _ ha
        obtain ⟨c, hc⟩ := hlive t'' _ ha
        simp at hc
    · intro a ha
      obtain ⟨c, hc⟩ := h.below a ha
      exact ⟨c, by show (s.arrays ++ _)[a]? = _; rw [List.getElem?_append_left (List.getElem?_eq_some_iff.1 hc).1]; exact hc⟩
  | badArgsMatrix t i n sh args a err h1 h2 => exact h.goto t _ _ (by simp) trivial (by simp [LFrame.array])
  | enterMatrix t i n sh args a vs mem h1 h2 h3 =>
    have h4 := hf t
    rw [h1] at h4
    obtain ⟨h4, i', n', sh', h5, h6⟩ := h4
    cases h5
    rw [h3] at h6
    refine h.goto t _ _ (by simp) ⟨h4, i, n, sh, rfl, h2, by simpa using h6, mem, h3⟩ ?_
    intro b hb
    rw [h1]
    exact hb
  | store t f args vs a mem old now h1 h2 =>
    have h3 := hf t
    rw [h1] at h3
    obtain ⟨h3, i, n, sh, rfl, h4, h5, _⟩ := h3
    have ht : (s.thread t).array = some a := by rw [h1]; rfl
    refine h.next (some t) (fun _ _ => rfl) (fun _ h => h) (fun _ h => h) (fun _ _ h _ => h) ?_ (by simp)
      (fun f hf => Or.inl hf) ?_ ?_ (fun a ha => Or.inl ha) ?_ (fun i hi => Or.inl hi)
    · rintro b t' hne hb -
      exact List.getElem?_set_ne (by rintro rfl; exact h.apart t t' a (Ne.symm (threads_ne hne)) ht hb)
    · intro t' ht'
      obtain rfl := Option.some.inj ht'
      show FrameOK P _ (s.thread t')
      rw [h1]
      refine ⟨h3, i, n, sh, rfl, h4, h5, now, ?_⟩
      exact List.getElem?_set_self (List.getElem?_eq_some_iff.1 h2).1
    · intro t' b ht' hb
      obtain rfl := Option.some.inj ht'
      exact ⟨h.own t' b hb, fun t'' hne h2 => h.apart t'' t' b hne h2 hb⟩
    · intro b hb
      obtain ⟨c, hc⟩ := h.below b hb
      refine ⟨c, ?_⟩
      show (s.arrays.set a _)[b]? = _
      rw [List.getElem?_set_ne (by rintro rfl; exact h.own t a ht hb)]
      exact hc
  | leaveMatrix t i n sh args vs a mem text r mem' old h1 h2 h3 h6 =>
    have h4 := hf t
    rw [h1] at h4
    obtain ⟨h4, i', n', sh', h5, h7, h8, _⟩ := h4
    cases h5
    have ht : (s.thread t).array = some a := by rw [h1]; rfl
    have h2 : s.engines[i]? = some (some text) := by
      unfold LState.code at h2
      split at h2
      · next h => cases h2; exact h
      · cases h2
    refine h.next (some t) ?_ (fun _ h => h) (fun _ h => h) (fun _ _ h _ => h) ?_ (by simp)
      (fun f hf => Or.inl hf) ?_ ?_ (fun a ha => Or.inl ha) ?_ (fun i hi => Or.inl hi)
    · intro t' ht
      exact if_neg (threads_ne ht)
    · rintro b t' hne hb -
      exact List.getElem?_set_ne (by rintro rfl; exact h.apart t t' a (Ne.symm (threads_ne hne)) ht hb)
    · intro t' ht'
      obtain rfl := Option.some.inj ht'
      rw [goto_thread, if_pos rfl]
      refine ⟨h4, i, n, sh, vs, text, r, mem', rfl, h7, h2, by rw [← h8]; exact h3, ?_⟩
      exact List.getElem?_set_self (List.getElem?_eq_some_iff.1 h6).1
    · intro t' b ht' hb
      obtain rfl := Option.some.inj ht'
      rw [goto_thread, if_pos rfl] at hb
      cases hb
      exact ⟨h.own t' a ht, fun t'' hne h2 => h.apart t'' t' a hne h2 ht⟩
    · intro b hb
      obtain ⟨c, hc⟩ := h.below b hb
      refine ⟨c, ?_⟩
      show (s.arrays.set a _)[b]? = _
      rw [List.getElem?_set_ne (by rintro rfl; exact h.own t a ht hb)]
      exact hc
  | returns t f args a h1 =>
    have h2 := hf t
    rw [h1] at h2
    obtain ⟨_, _, _, _, _, _, _, mem, _, _, _, _, h2⟩ := h2
    refine h.next (some t) ?_ (fun _ h => h) (fun _ h => h) (fun _ _ h _ => h) (fun _ _ _ _ _ => rfl)
      (by simp) (fun f hf => Or.inl hf) ?_ ?_ ?_ ?_ (fun i hi => Or.inl hi)
    · intro t' ht
      exact if_neg (threads_ne ht)
    · intro t' ht'
      obtain rfl := Option.some.inj ht'
      rw [goto_thread, if_pos rfl]
      trivial
    · intro t' b ht' hb
      obtain rfl := Option.some.inj ht'
      rw [goto_thread, if_pos rfl] at hb
      cases hb
    · intro b hb
      rcases List.mem_append.1 hb with hb | hb
      · exact Or.inl hb
      · obtain rfl := List.mem_singleton.1 hb
        exact Or.inr ⟨t, rfl, by rw [h1]; rfl⟩
    · intro b hb
      rcases List.mem_append.1 hb with hb | hb
      · exact h.below b hb
      · obtain rfl := List.mem_singleton.1 hb
        exact ⟨mem, h2⟩
  | undefined t f args vs arr h1 h2 =>
    have h3 := h.goto t .idle (some (.ended t f args .undefined none)) (by simp) trivial (by simp [LFrame.array])
    exact ⟨h3.events, h3.functions, fun t' => (h3.frames t').crash, h3.own, h3.apart, h3.below, h3.kept⟩
  | interrupt t h1 => exact h.goto t _ _ (by simp) trivial (by simp [LFrame.array])
  | freeEngine i h1 h2 =>
    refine h.next none (fun _ _ => rfl) (fun _ h => h) (fun _ h => h) ?_ (fun _ _ _ _ _ => rfl) (by simp)
      (fun f hf => Or.inl hf) (by simp) (by simp) (fun a ha => Or.inl ha) h.below (fun i hi => Or.inl hi)
    intro j text h3 h4
    show (s.engines.set i none)[j]? = _
    rw [List.getElem?_set_ne]
    · exact h3
    · rintro rfl
      rcases h4 with h4 | ⟨t', -, h4⟩
      · exact h1 h4
      · exact h2 t' h4
  | freeArray a h1 h2 =>
    refine h.next none (fun _ _ => rfl) (fun _ h => h) (fun _ h => h) (fun _ _ h _ => h) ?_ (by simp)
      (fun f hf => Or.inl hf) (by simp) (by simp) (fun a ha => Or.inl ha) ?_ (fun i hi => Or.inl hi)
    · rintro b t' - hb -
      exact List.getElem?_set_ne (by rintro rfl; exact h2 t' hb)
    · intro b hb
      obtain ⟨c, hc⟩ := h.below b hb
      refine ⟨c, ?_⟩
      show (s.arrays.set a _)[b]? = _
      rw [List.getElem?_set_ne (by rintro rfl; exact h1 hb)]
      exact hc
  | write a cells h1 =>
    refine h.next none (fun _ _ => rfl) (fun _ h => h) (fun _ h => h) (fun _ _ h _ => h) ?_ (by simp)
      (fun f hf => Or.inl hf) (by simp) (by simp) (fun a ha => Or.inl ha) ?_ (fun i hi => Or.inl hi)
    · rintro b t' - hb -
      exact List.getElem?_set_ne (by rintro rfl; exact h.own t' a hb h1)
    · intro b hb
      obtain ⟨c, hc⟩ := h.below b hb
      show ∃ cells', (s.arrays.set a _)[b]? = _
      by_cases hab : a = b
      · subst hab
        exact ⟨cells, List.getElem?_set_self (List.getElem?_eq_some_iff.1 hc).1⟩
      · exact ⟨c, by rw [List.getElem?_set_ne hab]; exact hc⟩

theorem LRun.inv {es : List (LEvent F)} {s : LState F} (h : LRun P es s) : LInv P es s := by
  induction h with
  | start =>
    refine ⟨?_, ?_, ?_, ?_, ?_, ?_, ?_⟩ <;> intros <;> simp_all [LState.start, LFrame.array]
    trivial
  | step _ _ hs ih => exact ih.step hs

end Verif.Props
