import Verif.Spec.AtomValue
import Verif.Props.Store

/-!
# C76: which of several equal values an atom carries
-/

set_option linter.unusedSectionVars false

namespace Verif.Props
open Verif.Store
variable {V K : Type} [DecidableEq K] [PyVal V K] {R R₀ : Key K → Prop}

theorem Since.history {s₀ s : St V K} {P : St V K → Prop} (h₀ : History R₀ s₀)
    (h : Since R₀ s₀ P R s) : History R s := by
  induction h with
  | here _ => exact h₀
  | step _ hs _ ih => exact ih.step hs

theorem Since.last {s₀ s : St V K} {P : St V K → Prop} (h : Since R₀ s₀ P R s) : P s := by
  cases h with
  | here hp => exact hp
  | step _ _ hp => exact hp

/-- Identities are not reused: what was there once stays as it is, or is gone for good. -/
theorem since_heap {s₀ s : St V K} {P : St V K → Prop} (h₀ : History R₀ s₀)
    (h : Since R₀ s₀ P R s) (i : Nat) (o : Obj V) (ho : s₀.heap i = some o) :
    i < s.next ∧ (s.heap i = some o ∨ s.heap i = none) := by
  induction h with
  | here _ => exact ⟨h₀.inv.1.below i o ho, Or.inl ho⟩
  | step h1 hs _ ih =>
    rename_i R s e s' _
    have hi := (Since.history h₀ h1).inv.1
    have hnext : s.next ≤ s'.next := by
      cases hs <;> first | exact Nat.le_refl _ | exact Nat.le_succ _
    refine ⟨Nat.lt_of_lt_of_le ih.1 hnext, ?_⟩
    rcases ih.2 with h | h
    · exact step_heap hi hs i o h
    · right
      cases hs with
      | alloc t r hpc =>
        show upd _ _ _ i = none
        rw [upd_ne _ _ (by have := ih.1; omega)]; exact h
      | collect j o' hj hun hown =>
        show upd _ _ _ i = none
        by_cases hij : i = j
        · rw [hij]; exact upd_same _ _ _
        · rw [upd_ne _ _ hij]; exact h
      | _ => exact h

/-- **C76, an atom keeps its value.** In every execution, whatever the schedule: an atom `i` that is
alive at one time and at a later time has the same atom type and the same value — the very value, not an
equal one — at both. -/
theorem C76_value_kept (s₀ s : St V K) (h₀ : History R₀ s₀)
    (h : Since R₀ s₀ (fun _ => True) R s) (i : Nat) (ty ty' : AtomType) (v v' : V)
    (hi : s₀.heap i = some (.atom ty v)) (hi' : s.heap i = some (.atom ty' v')) :
    ty' = ty ∧ v' = v := by
  rcases (since_heap h₀ h i _ hi).2 with h | h
  · rw [hi'] at h; cases h; exact ⟨rfl, rfl⟩
  · rw [hi'] at h; cases h

/-- **C76, the first value wins.** In every execution: let `i` be an atom of type `ty` that carries the
value `v` at some time.  When a call of `ty` with a value equal to `v` returns at any later time at
which the program still holds `i`, it returns `i`, which carries `v`, whatever of the equal values the
call asked for — unless there has been a race for that type and value. -/
theorem C76_first_value_wins (s₀ s s' : St V K) (h₀ : History R₀ s₀)
    (h : Since R₀ s₀ (fun _ => True) R s) (i : Nat) (ty : AtomType) (v : V)
    (hi : s₀.heap i = some (.atom ty v)) (hv : Visible s i) (hR : ¬ R (.atom ty (PyVal.key v)))
    (t : Nat) (w : V) (hw : PyVal.key w = PyVal.key v) (j : Nat)
    (hret : Step s (some (.ret t (.atom ty w) j)) s') :
    j = i ∧ s'.heap j = some (.atom ty v) := by
  have hs := Since.history h₀ h
  have hlive : s.heap i = some (.atom ty v) := by
    rcases (since_heap h₀ h i _ hi).2 with h' | h'
    · exact h'
    · obtain ⟨o, ho⟩ := (C04_stores s hs).1 i hv
      rw [h'] at ho; cases ho
  have hji : j = i :=
    ((C01_any_schedule s s' hs t ty w j hret).2.2 i ty v hv hlive).2 (by rw [hw]; exact hR) rfl hw.symm
  subst hji
  exact ⟨rfl, by rw [ret_heap hret]; exact hlive⟩

/-- Every execution has its record of calls. -/
theorem asked_of_history {s : St V K} (h : History R s) : ∃ C, Asked C s := by
  induction h with
  | start => exact ⟨_, .start⟩
  | step _ hs ih => obtain ⟨C, hC⟩ := ih; exact ⟨_, hC.step hs⟩

theorem history_of_asked {C : AtomType → V → Prop} {s : St V K} (h : Asked C s) :
    ∃ R, History R s := by
  induction h with
  | start => exact ⟨_, .start⟩
  | step _ hs ih => obtain ⟨R, hR⟩ := ih; exact ⟨_, hR.step hs⟩

theorem asked_inv {C : AtomType → V → Prop} {s : St V K} (h : Asked C s) :
    (∀ i ty v, s.heap i = some (.atom ty v) → C ty v) ∧
    (∀ t ty v, (s.pc t).req = some (.atom ty v) → C ty v) := by
  induction h with
  | start => exact ⟨fun i ty v h => (by cases h), fun t ty v h => (by cases h)⟩
  | step _ hs ih =>
    rename_i C₁ s₁ e s₂ _
    obtain ⟨h1, h2⟩ := ih
    -- a change of the program counter of one thread to a later point of the same call
    have hpc' : ∀ {f : Nat → PC V} {t : Nat} {p : PC V} {r : Obj V} {D : AtomType → V → Prop},
        (∀ t ty v, (f t).req = some (.atom ty v) → D ty v) → (f t).req = some r →
        (p.req = some r ∨ p.req = none) →
        ∀ t' ty v, (upd f t p t').req = some (.atom ty v) → D ty v := by
      intro f t p r D hf hr hp t' ty v he
      by_cases ht : t' = t
      · rw [ht, upd_same] at he
        rcases hp with hp | hp
        · rw [hp, ← hr] at he; exact hf t ty v he
        · rw [hp] at he; cases he
      · rw [upd_ne _ _ ht] at he; exact hf t' ty v he
    cases hs with
    | getHit t r i hpc hargs hty hd =>
      exact ⟨fun i ty v h => Or.inl (h1 i ty v h), fun t ty v h => Or.inl (h2 t ty v h)⟩
    | getMiss t r hpc hargs hty hd =>
      refine ⟨fun i ty v h => Or.inl (h1 i ty v h), ?_⟩
      intro t' ty v he
      by_cases ht : t' = t
      · subst ht
        replace he : (upd _ t' (PC.missed r) t').req = _ := he
        rw [upd_same] at he
        cases he
        exact Or.inr (Or.inr ⟨t', upd_same _ _ _⟩)
      · replace he : (upd _ t (PC.missed r) t').req = _ := he
        rw [upd_ne _ _ ht] at he
        exact Or.inl (h2 t' ty v he)
    | alloc t r hpc =>
      refine ⟨?_, fun t' ty v he => Or.inl (hpc' h2 (by rw [hpc]; rfl) (Or.inl rfl) t' ty v he)⟩
      intro i ty v he
      replace he : upd _ _ (some r) i = _ := he
      by_cases hin : i = s₁.next
      · rw [hin, upd_same] at he
        cases he
        exact Or.inl (h2 t ty v (by rw [hpc]; rfl))
      · rw [upd_ne _ _ hin] at he
        exact Or.inl (h1 i ty v he)
    | setdefaultHit t r i j hpc hd =>
      exact ⟨fun i ty v h => Or.inl (h1 i ty v h),
        fun t' ty v he => Or.inl (hpc' h2 (by rw [hpc]; rfl) (Or.inr rfl) t' ty v he)⟩
    | setdefaultMiss t r i hpc hd =>
      exact ⟨fun i ty v h => Or.inl (h1 i ty v h),
        fun t' ty v he => Or.inl (hpc' h2 (by rw [hpc]; rfl) (Or.inl rfl) t' ty v he)⟩
    | setdefaultStore t r i hpc =>
      exact ⟨fun i ty v h => Or.inl (h1 i ty v h),
        fun t' ty v he => Or.inl (hpc' h2 (by rw [hpc]; rfl) (Or.inr rfl) t' ty v he)⟩
    | interrupt t hpc =>
      refine ⟨fun i ty v h => Or.inl (h1 i ty v h), ?_⟩
      intro t' ty v he
      replace he : (upd _ t PC.idle t').req = _ := he
      by_cases ht : t' = t
      · rw [ht, upd_same] at he; cases he
      · rw [upd_ne _ _ ht] at he; exact Or.inl (h2 t' ty v he)
    | load i j o hr ho hj =>
      exact ⟨fun i ty v h => Or.inl (h1 i ty v h), fun t ty v h => Or.inl (h2 t ty v h)⟩
    | drop i =>
      exact ⟨fun i ty v h => Or.inl (h1 i ty v h), fun t ty v h => Or.inl (h2 t ty v h)⟩
    | collect i o hi hun hown =>
      refine ⟨?_, fun t ty v h => Or.inl (h2 t ty v h)⟩
      intro i' ty v he
      replace he : upd _ _ none i' = _ := he
      by_cases hin : i' = i
      · rw [hin, upd_same] at he; cases he
      · rw [upd_ne _ _ hin] at he
        exact Or.inl (h1 i' ty v he)
    | callback k hk =>
      exact ⟨fun i ty v h => Or.inl (h1 i ty v h), fun t ty v h => Or.inl (h2 t ty v h)⟩

/-- **C76, no value comes from nowhere.** In every execution, whatever the schedule: every atom that
is alive carries a value with which its atom type has been called; and a call of `ty` with `v` returns an
atom of that type that carries a value equal to `v` with which `ty` has been called (this call
included). -/
theorem C76_value_was_asked (C : AtomType → V → Prop) (s s' : St V K) (hs : Asked C s) :
    (∀ i ty v, s.heap i = some (.atom ty v) → C ty v) ∧
    (∀ t ty v i, Step s (some (.ret t (.atom ty v) i)) s' →
      ∃ v', s'.heap i = some (.atom ty v') ∧ PyVal.key v' = PyVal.key v ∧ C ty v') := by
  refine ⟨(asked_inv hs).1, ?_⟩
  intro t ty v i h
  obtain ⟨R, hR⟩ := history_of_asked hs
  obtain ⟨v', h1, h2⟩ := ret_atom hR.inv.1 h
  exact ⟨v', h1, h2, (asked_inv hs).1 i ty v' (by rw [← ret_heap h]; exact h1)⟩

/-- **C76, what is asked for is what is obtained,** if equal values are never mixed.  In every
execution, whatever the schedule: if every value that is equal to `v` and with which `ty` has been called
is `v`, a call of `ty` with `v` returns an atom that carries exactly `v`. -/
theorem C76_exact_value (C : AtomType → V → Prop) (s s' : St V K) (hs : Asked C s) (t : Nat)
    (ty : AtomType) (v : V) (hC : ∀ w, C ty w → PyVal.key w = PyVal.key v → w = v) (i : Nat)
    (h : Step s (some (.ret t (.atom ty v) i)) s') : s'.heap i = some (.atom ty v) := by
  obtain ⟨v', h1, h2, h3⟩ := (C76_value_was_asked C s s' hs).2 t ty v i h
  rw [← hC v' h3 h2]; exact h1

theorem held_inv {N : V → Prop} {ty : AtomType} {s₀ s : St V K} (h₀ : History R₀ s₀)
    (hheap : ∀ i v, s₀.heap i = some (.atom ty v) → N v)
    (hcalls : ∀ t v, (s₀.pc t).req = some (.atom ty v) → N v)
    (h : Since R₀ s₀ (fun s => ∀ v, ¬ N v → ∃ i v₀, Visible s i ∧ s.heap i = some (.atom ty v₀) ∧
      PyVal.key v₀ = PyVal.key v) R s)
    (hR : ∀ v, ¬ N v → ¬ R (.atom ty (PyVal.key v))) :
    (∀ i v, s.heap i = some (.atom ty v) → N v) ∧
    (∀ t v, (s.pc t).req = some (.atom ty v) → N v) := by
  induction h with
  | here _ => exact ⟨hheap, hcalls⟩
  | step hsince hs _ ih =>
    rename_i R₁ s₁ e s₂ _
    obtain ⟨h1, h2⟩ := ih (fun v hv hr => hR v hv (Or.inl hr))
    have hi := (Since.history h₀ hsince).inv.1
    have hheld := Since.last hsince
    have hpc' : ∀ {f : Nat → PC V} {t : Nat} {p : PC V} {r : Obj V},
        (∀ t v, (f t).req = some (.atom ty v) → N v) → (f t).req = some r →
        (p.req = some r ∨ p.req = none) →
        ∀ t' v, (upd f t p t').req = some (.atom ty v) → N v := by
      intro f t p r hf hr hp t' v he
      by_cases ht : t' = t
      · rw [ht, upd_same] at he
        rcases hp with hp | hp
        · rw [hp, ← hr] at he; exact hf t v he
        · rw [hp] at he; cases he
      · rw [upd_ne _ _ ht] at he; exact hf t' v he
    cases hs with
    | getMiss t r hpc hargs hty hd =>
      refine ⟨h1, ?_⟩
      intro t' v he
      by_cases ht : t' = t
      · subst ht
        replace he : (upd _ t' (PC.missed r) t').req = _ := he
        rw [upd_same] at he
        cases he
        refine Classical.byContradiction fun hn => ?_
        obtain ⟨i, v₀, hvis, hat, hk⟩ := hheld v hn
        have hu := hi.unique i _ (show ¬ _ from fun hr => hR v hn (Or.inl (by
          simpa [Obj.key, hk] using hr))) hvis.referenced hat
        have : (Obj.atom ty v₀ : Obj V).key = (Obj.atom ty v : Obj V).key := by simp [Obj.key, hk]
        rw [this] at hu
        rw [deref_none hd hu] at hat
        cases hat
      · replace he : (upd _ t (PC.missed r) t').req = _ := he
        rw [upd_ne _ _ ht] at he
        exact h2 t' v he
    | alloc t r hpc =>
      refine ⟨?_, fun t' v he => hpc' h2 (by rw [hpc]; rfl) (Or.inl rfl) t' v he⟩
      intro i v he
      replace he : upd _ _ (some r) i = _ := he
      by_cases hin : i = s₁.next
      · rw [hin, upd_same] at he
        cases he
        exact h2 t v (by rw [hpc]; rfl)
      · rw [upd_ne _ _ hin] at he
        exact h1 i v he
    | setdefaultHit t r i j hpc hd =>
      exact ⟨h1, fun t' v he => hpc' h2 (by rw [hpc]; rfl) (Or.inr rfl) t' v he⟩
    | setdefaultMiss t r i hpc hd =>
      exact ⟨h1, fun t' v he => hpc' h2 (by rw [hpc]; rfl) (Or.inl rfl) t' v he⟩
    | setdefaultStore t r i hpc =>
      exact ⟨h1, fun t' v he => hpc' h2 (by rw [hpc]; rfl) (Or.inr rfl) t' v he⟩
    | collect i o hi hun hown =>
      refine ⟨?_, h2⟩
      intro i' v he
      replace he : upd _ _ none i' = _ := he
      by_cases hin : i' = i
      · rw [hin, upd_same] at he; cases he
      · rw [upd_ne _ _ hin] at he
        exact h1 i' v he
    | interrupt t hpc =>
      refine ⟨h1, ?_⟩
      intro t' v he
      replace he : (upd _ t PC.idle t').req = _ := he
      by_cases ht : t' = t
      · rw [ht, upd_same] at he; cases he
      · rw [upd_ne _ _ ht] at he; exact h2 t' v he
    | _ => exact ⟨h1, h2⟩

theorem calling_iff {s : St V K} {t : Nat} {r : Obj V} :
    Calling s t r ↔ (s.pc t).req = some r := by
  unfold Calling
  cases s.pc t <;> simp [PC.req]

/-- **C76, values that are held keep others out.** Let `N` be any set of values.  Take any execution
from a time at which the atoms of type `ty` and the running calls of `ty` have values in `N` only, during
which the program holds, for every value outside `N`, an atom of type `ty` with an equal value, and in
which there is no race for those values.  Then every call of `ty`, whatever value it asks for, returns an
atom with a value in `N` that is equal to the one asked for. -/
theorem C76_held_values (N : V → Prop) (ty : AtomType) (s₀ s s' : St V K) (h₀ : History R₀ s₀)
    (hheap : ∀ i v, s₀.heap i = some (.atom ty v) → N v)
    (hcalls : ∀ t v, Calling s₀ t (.atom ty v) → N v)
    (h : Since R₀ s₀ (fun s => ∀ v, ¬ N v → ∃ i v₀, Visible s i ∧ s.heap i = some (.atom ty v₀) ∧
      PyVal.key v₀ = PyVal.key v) R s)
    (hR : ∀ v, ¬ N v → ¬ R (.atom ty (PyVal.key v)))
    (t : Nat) (v : V) (i : Nat) (hret : Step s (some (.ret t (.atom ty v) i)) s') :
    ∃ v', s'.heap i = some (.atom ty v') ∧ N v' ∧ PyVal.key v' = PyVal.key v := by
  obtain ⟨v', h1, h2⟩ := ret_atom (Since.history h₀ h).inv.1 hret
  exact ⟨v', h1, (held_inv h₀ hheap (fun t v hc => hcalls t v (calling_iff.2 hc)) h hR).1 i v' (by rw [← ret_heap hret]; exact h1), h2⟩

/-- **C76, `Integer` of simplecas.** `simplecas` makes `Integer(0)` and `Integer(1)` when it is imported
and holds them ever after (expr.py:542-543).  In every execution from a time at which `z` and `o` are
those two atoms, no `Integer` has a `bool` value and no call of `Integer` with a `bool` is running, during
which the program holds both atoms and in which there is no race for them: every call of `Integer` with
an `int` `n` or a `bool` returns an atom whose value is an `int`, namely `n`, or `1` for `True` and `0`
for `False`. -/
theorem C76_integers_are_ints {R R₀ : Key Int → Prop} (ty : AtomType) (z o : Nat)
    (s₀ s s' : St PyNum Int) (h₀ : History R₀ s₀)
    (hheap : ∀ i b, s₀.heap i ≠ some (.atom ty (.bool b)))
    (hcalls : ∀ t b, ¬ Calling s₀ t (.atom ty (.bool b)))
    (hz : s₀.heap z = some (.atom ty (.int 0))) (ho : s₀.heap o = some (.atom ty (.int 1)))
    (h : Since R₀ s₀ (fun s => Visible s z ∧ Visible s o) R s)
    (hR : ¬ R (.atom ty 0) ∧ ¬ R (.atom ty 1))
    (t : Nat) (v : PyNum) (i : Nat) (hret : Step s (some (.ret t (.atom ty v) i)) s') :
    s'.heap i = some (.atom ty (.int (match v with
      | .int n => n
      | .bool true => 1
      | .bool false => 0))) := by
  have hN : ∀ v : PyNum, (∀ b, v ≠ .bool b) → ∃ n, v = .int n := by
    intro v hv
    cases v with
    | int n => exact ⟨n, rfl⟩
    | bool b => exact absurd rfl (hv b)
  have hnot : ∀ v : PyNum, ¬ (∃ n, v = .int n) → ∃ b, v = .bool b := by
    intro v hv
    cases v with
    | int n => exact absurd ⟨n, rfl⟩ hv
    | bool b => exact ⟨b, rfl⟩
  have hsince : Since R₀ s₀ (fun s => ∀ v : PyNum, ¬ (∃ n, v = .int n) →
      ∃ i v₀, Visible s i ∧ s.heap i = some (.atom ty v₀) ∧ PyVal.key v₀ = PyVal.key v) R s := by
    have conv : ∀ {R : Key Int → Prop} {s : St PyNum Int}, Since R₀ s₀ (fun _ => True) R s →
        Visible s z ∧ Visible s o → ∀ v : PyNum, ¬ (∃ n, v = .int n) →
        ∃ i v₀, Visible s i ∧ s.heap i = some (.atom ty v₀) ∧ PyVal.key v₀ = PyVal.key v := by
      intro R s hs hvis v hv
      have live : ∀ {j o'}, s₀.heap j = some o' → Visible s j → s.heap j = some o' := by
        intro j o' hj hvj
        rcases (since_heap h₀ hs j _ hj).2 with h' | h'
        · exact h'
        · obtain ⟨o2, ho2⟩ := (C04_stores s (Since.history h₀ hs)).1 j hvj
          rw [h'] at ho2; cases ho2
      obtain ⟨b, rfl⟩ := hnot v hv
      cases b with
      | true => exact ⟨o, .int 1, hvis.2, live ho hvis.2, rfl⟩
      | false => exact ⟨z, .int 0, hvis.1, live hz hvis.1, rfl⟩
    have hboth : ∀ {R : Key Int → Prop} {s : St PyNum Int},
        Since R₀ s₀ (fun s => Visible s z ∧ Visible s o) R s →
        Since R₀ s₀ (fun _ => True) R s ∧ Since R₀ s₀ (fun s => ∀ v : PyNum, ¬ (∃ n, v = .int n) →
      ∃ i v₀, Visible s i ∧ s.heap i = some (.atom ty v₀) ∧ PyVal.key v₀ = PyVal.key v) R s := by
      intro R s h
      induction h with
      | here hp => exact ⟨.here trivial, .here (conv (.here trivial) hp)⟩
      | step _ hs hp ih =>
        exact ⟨ih.1.step hs trivial, ih.2.step hs (conv (ih.1.step hs trivial) hp)⟩
    exact (hboth h).2
  obtain ⟨v', h1, ⟨n, rfl⟩, h3⟩ := C76_held_values (fun v => ∃ n, v = .int n) ty s₀ s s' h₀
    (fun i v hv => hN v (fun b hb => hheap i b (hb ▸ hv)))
    (fun t v hv => hN v (fun b hb => hcalls t b (hb ▸ hv))) hsince
    (fun v hv => by
      obtain ⟨b, rfl⟩ := hnot v hv
      cases b with
      | true => exact hR.2
      | false => exact hR.1) t v i hret
  rw [h1]
  cases v with
  | int m => simp only [PyVal.key] at h3; rw [h3]
  | bool b => cases b <;> (simp [PyVal.key] at h3; simp [h3])

/-! ### Examples -/

/-- A single-threaded call that finds nothing: four steps, after which the new atom is there. -/
theorem make_atom {R : Key Int → Prop} {s : St PyNum Int} (h : History R s) (hreach : Reach SingleThreaded s)
    (hst : ∀ t, s.pc t = .idle) (ty : AtomType) (v : PyNum)
    (hd : s.table (.atom ty (PyVal.key v)) = none) :
    ∃ (R' : Key Int → Prop) (s3 s4 : St PyNum Int), History R' s4 ∧ Reach SingleThreaded s3 ∧
      Reach SingleThreaded s4 ∧
      (∀ k, R' k → R k) ∧ (∀ t, s4.pc t = .idle) ∧
      Step s3 (some (.ret 0 (.atom ty v) s.next)) s4 ∧
      s4.heap = upd s.heap s.next (some (.atom ty v)) ∧ s4.next = s.next + 1 ∧
      s4.table = upd s.table (.atom ty (PyVal.key v)) (some s.next) ∧
      s4.roots = s.next :: s.roots := by
  have ne : ∀ (u : St PyNum Int), SingleThreaded u → ∀ k, ¬ Race u k :=
    fun u hu k => exclusive_race (single_exclusive hu) k
  have st : ∀ (p : PC PyNum) (u : St PyNum Int), u.pc = upd s.pc 0 p → SingleThreaded u := by
    intro p u hu t ht; rw [hu, upd_ne _ _ ht]; exact hst t
  have hdn : ∀ (u : St PyNum Int), u.table = s.table →
      u.deref (Obj.atom ty v : Obj PyNum).key = none := by
    intro u hu; unfold St.deref; rw [hu]; simp [Obj.key, hd]
  have e1 : Step s none _ := .getMiss s 0 (.atom ty v) (hst 0) (by simp [Obj.refs]) trivial (hdn s rfl)
  have e2 := Step.alloc { s with pc := upd s.pc 0 (.missed (.atom ty v)) } 0 (.atom ty v) rfl
  have e3 := Step.setdefaultMiss { s with heap := upd s.heap s.next (some (Obj.atom ty v)), next := s.next + 1, pc := upd (upd s.pc 0 (.missed (.atom ty v))) 0 (.fresh (.atom ty v) s.next) } 0 (.atom ty v) s.next rfl (hdn _ rfl)
  have e4 := Step.setdefaultStore { s with heap := upd s.heap s.next (some (Obj.atom ty v)), next := s.next + 1, pc := upd (upd (upd s.pc 0 (.missed (.atom ty v))) 0 (.fresh (.atom ty v) s.next)) 0 (.inSetdefault (.atom ty v) s.next) } 0 (.atom ty v) s.next rfl
  have uu : ∀ (p q : PC PyNum), upd (upd s.pc 0 p) 0 q = upd s.pc 0 q := by
    intro p q; funext t; by_cases ht : t = 0 <;> simp [upd, ht]
  have s1 := st (.missed (.atom ty v)) { s with pc := upd s.pc 0 (.missed (.atom ty v)) } rfl
  have s2 := st (.fresh (.atom ty v) s.next) { s with heap := upd s.heap s.next (some (Obj.atom ty v)), next := s.next + 1, pc := upd (upd s.pc 0 (.missed (.atom ty v))) 0 (.fresh (.atom ty v) s.next) } (uu _ _)
  have s3 := st (.inSetdefault (.atom ty v) s.next) { s with heap := upd s.heap s.next (some (Obj.atom ty v)), next := s.next + 1, pc := upd (upd (upd s.pc 0 (.missed (.atom ty v))) 0 (.fresh (.atom ty v) s.next)) 0 (.inSetdefault (.atom ty v) s.next) } (by rw [uu, uu])
  have s4 : ∀ t, (upd (upd (upd (upd s.pc 0 (.missed (.atom ty v))) 0 (.fresh (.atom ty v) s.next)) 0
      (.inSetdefault (.atom ty v) s.next)) 0 (PC.idle : PC PyNum)) t = .idle := by
    intro t; rw [uu, uu, uu]; by_cases ht : t = 0
    · rw [ht, upd_same]
    · rw [upd_ne _ _ ht]; exact hst t
  have h4 := (((h.step e1).step e2).step e3).step e4
  have t3 := ((hreach.step e1 s1).step e2 s2).step e3 s3
  have t4 := t3.step e4 (fun t _ => s4 t)
  refine ⟨_, _, _, h4, t3, t4, ?_, s4, e4, rfl, rfl, rfl, rfl⟩
  rintro k ((((hk | hk) | hk) | hk) | hk)
  · exact hk
  · exact absurd hk (ne _ s1 k)
  · exact absurd hk (ne _ s2 k)
  · exact absurd hk (ne _ s3 k)
  · exact absurd hk (ne _ (fun t _ => s4 t) k)

/-- **C76, the value asked for is not always the one obtained.** Two executions with one thread: in
both, the last call is `Integer(1)`.  In the first nothing came before, and the atom returned has the value
`1`; in the second `Integer(True)` came before, and the atom returned has the value `True`, and prints so
— `simplecas` excludes this by C76_integers_are_ints. -/
theorem C76_requested_value_false : ∃ (s s' u u' : St PyNum Int) (i j : Nat),
    Reach SingleThreaded s ∧ Reach SingleThreaded u ∧
    Step s (some (.ret 0 (.atom integerTy (.int 1)) i)) s' ∧
    Step u (some (.ret 0 (.atom integerTy (.int 1)) j)) u' ∧
    s'.heap i = some (.atom integerTy (.int 1)) ∧
    u'.heap j = some (.atom integerTy (.bool true)) := by
  have r0 : Reach SingleThreaded (St.init : St PyNum Int) := .init (fun _ _ => rfl)
  obtain ⟨_, s3, s4, _, a1, a2, _, _, a3, a4, _⟩ :=
    make_atom .start r0 (fun _ => rfl) integerTy (.int 1) rfl
  obtain ⟨_, u3, u4, _, b1, b2, _, b3, _, b4, _, b5, _⟩ :=
    make_atom .start r0 (fun _ => rfl) integerTy (.bool true) rfl
  refine ⟨s3, s4, u4, _, _, 0, a1, b2, a3, .getHit u4 0 (.atom integerTy (.int 1)) 0 (b3 0)
    (by simp [Obj.refs]) trivial ?_, ?_, ?_⟩
  · unfold St.deref; rw [b4, b5]; rfl
  · rw [a4]; rfl
  · show u4.heap 0 = _; rw [b4]; rfl

/-- `simplecas`' `zero` and `one`, then another thread begins `Integer(5)`, then `Integer(True)`: an execution that meets the hypotheses of
C76_value_kept, C76_first_value_wins, C76_held_values and C76_integers_are_ints; the call returns `one`. -/
example : ∃ (R R' : Key Int → Prop) (s u u' : St PyNum Int), History R s ∧
    (∀ i b, s.heap i ≠ some (.atom integerTy (.bool b))) ∧
    (∀ t b, ¬ Calling s t (.atom integerTy (.bool b))) ∧
    s.heap 0 = some (.atom integerTy (.int 0)) ∧ s.heap 1 = some (.atom integerTy (.int 1)) ∧
    Since R s (fun s => Visible s 0 ∧ Visible s 1) R' u ∧
    Since R s (fun _ => True) R' u ∧ Calling u 3 (.atom integerTy (.int 5)) ∧
    (¬ R' (.atom integerTy 0) ∧ ¬ R' (.atom integerTy 1)) ∧
    Step u (some (.ret 5 (.atom integerTy (.bool true)) 1)) u' := by
  have r0 : Reach SingleThreaded (St.init : St PyNum Int) := .init (fun _ _ => rfl)
  obtain ⟨R1, _, s1, h1, _, a1, b1, c1, _, d1, e1, f1, g1⟩ :=
    make_atom .start r0 (fun _ => rfl) integerTy (.int 0) rfl
  obtain ⟨R2, _, s2, h2, _, a2, b2, c2, _, d2, e2, f2, g2⟩ :=
    make_atom h1 a1 c1 integerTy (.int 1) (by rw [f1]; rfl)
  have hheap : s2.heap = upd (upd (fun _ => none) 0 (some (.atom integerTy (.int 0)))) 1
      (some (.atom integerTy (.int 1))) := by rw [d2, d1, e1]; rfl
  have hroots : s2.roots = [1, 0] := by rw [g2, g1, e1]; rfl
  have hvis : Visible s2 0 ∧ Visible s2 1 :=
    ⟨.root (by rw [hroots]; simp), .root (by rw [hroots]; simp)⟩
  have hR : ∀ k, ¬ R2 k := fun k hk => b1 k (b2 k hk)
  have step : Step s2 none _ := .getMiss s2 3 (.atom integerTy (.int 5)) (c2 3) (by simp [Obj.refs])
    trivial (by unfold St.deref; rw [f2, f1, e1]; rfl)
  have hvis' : Visible { s2 with pc := upd s2.pc 3 (.missed (.atom integerTy (.int 5))) } 0 ∧
      Visible { s2 with pc := upd s2.pc 3 (.missed (.atom integerTy (.int 5))) } 1 :=
    ⟨.root (by show _ ∈ s2.roots; rw [hroots]; simp), .root (by show _ ∈ s2.roots; rw [hroots]; simp)⟩
  have hR' : ∀ k, ¬ (R2 k ∨ Race { s2 with pc := upd s2.pc 3 (.missed (.atom integerTy (.int 5))) } k) := by
    rintro k (hk | ⟨t, t', r, r', i, i', hne, h1, h2, _⟩)
    · exact hR k hk
    · by_cases ht : t = 3
      · simp [upd, ht] at h1
      · simp [upd, ht, c2 t] at h1
  refine ⟨R2, _, s2, _, _, h2, ?_, ?_, by rw [hheap]; rfl, by rw [hheap]; rfl,
    (Since.here hvis).step step hvis', (Since.here trivial).step step trivial, Or.inl rfl,
    ⟨hR' _, hR' _⟩, .getHit _ 5 (.atom integerTy (PyNum.bool true)) 1 (by exact c2 5) (by simp [Obj.refs]) trivial ?_⟩
  · intro i b
    rw [hheap]
    by_cases h1 : i = 1
    · rw [h1, upd_same]; simp
    · rw [upd_ne _ _ h1]
      by_cases h0 : i = 0
      · rw [h0, upd_same]; simp
      · rw [upd_ne _ _ h0]; simp
  · intro t b hc
    unfold Calling at hc
    rw [c2 t] at hc
    simp at hc
  · unfold St.deref; simp only [hheap, f2, f1, e1]; rfl

/-- `Integer(1)` asked for in a fresh process: the hypotheses of C76_value_was_asked and
C76_exact_value (`True` is equal to `1`, but has not been asked for). -/
example : ∃ (C : AtomType → PyNum → Prop) (s s' : St PyNum Int), Asked C s ∧
    C integerTy (.int 1) ∧
    (∀ w, C integerTy w → PyVal.key w = (PyVal.key (PyNum.int 1) : Int) → w = .int 1) ∧
    Step s (some (.ret 0 (.atom integerTy (.int 1)) 0)) s' := by
  have r0 : Asked (fun _ _ => False) (St.init : St PyNum Int) := .start
  have r1 := r0.step (.getMiss _ 0 (.atom integerTy (.int 1)) rfl (by simp [Obj.refs]) trivial rfl)
  have r2 := r1.step (.alloc _ 0 _ rfl)
  have r3 := r2.step (.setdefaultMiss _ 0 _ _ rfl rfl)
  refine ⟨_, _, _, r3, ?_, ?_, .setdefaultStore _ 0 _ _ rfl⟩
  · exact Or.inl (Or.inl (Or.inr (Or.inr ⟨0, rfl⟩)))
  · intro w hw _
    rcases hw with ((h | ⟨t, i, h⟩ | ⟨t, h⟩) | ⟨t, i, h⟩ | ⟨t, h⟩) | ⟨t, i, h⟩ | ⟨t, h⟩
    · exact h.elim
    · cases h
    · by_cases ht : t = 0
      · simp [upd, ht] at h; exact h.symm
      · simp [St.init, upd, ht] at h
    · cases h
    · by_cases ht : t = 0 <;> simp [St.init, upd, ht] at h
    · cases h
    · by_cases ht : t = 0 <;> simp [St.init, upd, ht] at h

end Verif.Props
