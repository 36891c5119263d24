import Verif.Spec.Interrupt
import Verif.Props.AtomValue
import Verif.Props.Client

/-!
# C77: interruptions
-/

set_option linter.unusedSectionVars false

namespace Verif.Props
open Verif.Store
variable {V K α : Type} [DecidableEq K] [PyVal V K] {R R' : Key K → Prop}

/-- What a call has made is the call's alone. -/
def Priv (s : St V K) : Prop :=
  ∀ t i, (s.pc t).own = some i →
    ¬ s.Referenced i ∧ (∀ k, s.table k ≠ some i) ∧ (∀ t', (s.pc t').own = some i → t' = t)

theorem Priv.sub {s s' : St V K} (h : Priv s)
    (href : ∀ j, s'.Referenced j → s.Referenced j ∨ ∃ k, s.table k = some j)
    (htab : ∀ k j, s'.table k = some j → s.table k = some j)
    (hown : ∀ t i, (s'.pc t).own = some i → (s.pc t).own = some i) : Priv s' := by
  intro t i hi
  obtain ⟨h1, h2, h3⟩ := h t i (hown t i hi)
  refine ⟨?_, fun k hk => h2 k (htab k i hk), fun t' ht' => h3 t' (hown t' i ht')⟩
  intro hr
  rcases href i hr with hr | ⟨k, hk⟩
  · exact h1 hr
  · exact h2 k hk

theorem own_live {G : Key K → Prop} {s : St V K} (hi : Inv G s) {t i : Nat}
    (h : (s.pc t).own = some i) : (s.heap i).isSome := by
  cases hp : s.pc t with
  | idle => rw [hp] at h; cases h
  | missed r => rw [hp] at h; cases h
  | fresh r j => rw [hp] at h; cases h; rw [hi.ownFresh t r i hp]; rfl
  | inSetdefault r j => rw [hp] at h; cases h; rw [hi.ownSet t r i hp]; rfl

theorem Priv.step {G : Key K → Prop} {s s' : St V K} {e : Option (Event V)} (hi : Inv G s)
    (h : Priv s) (hs : Step s e s') : Priv s' := by
  -- references of a state in which one thread has a program counter with referenced arguments
  have hpc : ∀ {u : St V K} {t : Nat} {p : PC V} {j : Nat}, u.Referenced j → u.roots = s.roots →
      u.heap = s.heap → u.table = s.table → u.pc = upd s.pc t p → (∀ j ∈ p.refs, s.Referenced j) →
      s.Referenced j := by
    intro u t p j hj hr hh htb hp hargs
    rcases hj with hj | ⟨t', hj⟩ | ⟨a, o, h1, h2⟩ | ⟨k, h1, h2⟩
    · exact Or.inl (hr ▸ hj)
    · rw [hp] at hj
      by_cases ht : t' = t
      · rw [ht, upd_same] at hj; exact hargs j hj
      · rw [upd_ne _ _ ht] at hj; exact Or.inr (Or.inl ⟨t', hj⟩)
    · exact Or.inr (Or.inr (Or.inl ⟨a, o, hh ▸ h1, h2⟩))
    · exact Or.inr (Or.inr (Or.inr ⟨k, htb ▸ h1, h2⟩))
  cases hs with
  | getHit t r i hidle hargs hty hd =>
    refine h.sub ?_ (fun _ _ hk => hk) (fun _ _ ho => ho)
    rintro j (hj | hj | hj | hj)
    · rcases List.mem_cons.1 hj with rfl | hj
      · exact Or.inr ⟨_, (deref_some hd).1⟩
      · exact Or.inl (Or.inl hj)
    · exact Or.inl (Or.inr (Or.inl hj))
    · exact Or.inl (Or.inr (Or.inr (Or.inl hj)))
    · exact Or.inl (Or.inr (Or.inr (Or.inr hj)))
  | getMiss t r hidle hargs hty hd =>
    refine h.sub (fun j hj => Or.inl (hpc (t := t) (p := .missed r) hj rfl rfl rfl rfl (fun j hj => Or.inl (hargs j hj))))
      (fun _ _ hk => hk) ?_
    intro t' i ho
    replace ho : (upd s.pc t (.missed r) t').own = some i := ho
    by_cases ht : t' = t
    · rw [ht, upd_same] at ho; cases ho
    · rw [upd_ne _ _ ht] at ho; exact ho
  | alloc t r hp =>
    have hrefs : ∀ j ∈ r.refs, s.Referenced j := fun j hj => Or.inr (Or.inl ⟨t, by rw [hp]; exact hj⟩)
    have href : ∀ j, St.Referenced (⟨upd s.heap s.next (some r), s.next + 1, s.table, s.pending, s.roots,
        upd s.pc t (.fresh r s.next)⟩ : St V K) j → s.Referenced j := by
      rintro j (hj | ⟨t', hj⟩ | ⟨a, o, h1, h2⟩ | hj)
      · exact Or.inl hj
      · replace hj : j ∈ (upd s.pc t (.fresh r s.next) t').refs := hj
        by_cases ht : t' = t
        · rw [ht, upd_same] at hj; exact hrefs j hj
        · rw [upd_ne _ _ ht] at hj; exact Or.inr (Or.inl ⟨t', hj⟩)
      · replace h1 : upd s.heap s.next (some r) a = some o := h1
        by_cases ha : a = s.next
        · rw [ha, upd_same] at h1; cases h1; exact hrefs j h2
        · rw [upd_ne _ _ ha] at h1; exact Or.inr (Or.inr (Or.inl ⟨a, o, h1, h2⟩))
      · exact Or.inr (Or.inr (Or.inr hj))
    have hlt : ∀ j, (s.heap j).isSome → j < s.next := by
      intro j hj
      obtain ⟨o, ho⟩ := Option.isSome_iff_exists.1 hj
      exact hi.below j o ho
    intro t' i ho
    replace ho : (upd s.pc t (.fresh r s.next) t').own = some i := ho
    by_cases ht : t' = t
    · subst ht
      rw [upd_same] at ho
      cases ho
      refine ⟨fun hr => Nat.lt_irrefl _ (hlt _ (hi.live (href _ hr))),
        fun k hk => Nat.lt_irrefl _ (hi.tableBelow k _ hk), ?_⟩
      intro t'' ho
      replace ho : (upd s.pc t' (.fresh r s.next) t'').own = some s.next := ho
      by_cases ht : t'' = t'
      · exact ht
      · rw [upd_ne _ _ ht] at ho
        exact absurd (hlt _ (own_live hi ho)) (Nat.lt_irrefl _)
    · rw [upd_ne _ _ ht] at ho
      obtain ⟨h1, h2, h3⟩ := h t' i ho
      refine ⟨fun hr => h1 (href i hr), h2, ?_⟩
      intro t'' ho'
      replace ho' : (upd s.pc t (.fresh r s.next) t'').own = some i := ho'
      by_cases ht2 : t'' = t
      · rw [ht2, upd_same] at ho'
        cases ho'
        exact absurd (hlt _ (own_live hi ho)) (Nat.lt_irrefl _)
      · rw [upd_ne _ _ ht2] at ho'; exact h3 t'' ho'
  | setdefaultHit t r i j hp hd =>
    refine h.sub ?_ (fun _ _ hk => hk) ?_
    · rintro a (ha | ⟨t', ha⟩ | ha | ha)
      · rcases List.mem_cons.1 ha with rfl | ha
        · exact Or.inr ⟨_, (deref_some hd).1⟩
        · exact Or.inl (Or.inl ha)
      · replace ha : a ∈ (upd s.pc t .idle t').refs := ha
        by_cases ht : t' = t
        · rw [ht, upd_same] at ha; cases ha
        · rw [upd_ne _ _ ht] at ha; exact Or.inl (Or.inr (Or.inl ⟨t', ha⟩))
      · exact Or.inl (Or.inr (Or.inr (Or.inl ha)))
      · exact Or.inl (Or.inr (Or.inr (Or.inr ha)))
    · intro t' a ho
      replace ho : (upd s.pc t .idle t').own = some a := ho
      by_cases ht : t' = t
      · rw [ht, upd_same] at ho; cases ho
      · rw [upd_ne _ _ ht] at ho; exact ho
  | setdefaultMiss t r i hp hd =>
    refine h.sub (fun j hj => Or.inl (hpc (t := t) (p := .inSetdefault r i) hj rfl rfl rfl rfl
      (fun j hj => Or.inr (Or.inl ⟨t, by rw [hp]; exact hj⟩)))) (fun _ _ hk => hk) ?_
    intro t' a ho
    replace ho : (upd s.pc t (.inSetdefault r i) t').own = some a := ho
    by_cases ht : t' = t
    · rw [ht, upd_same] at ho; cases ho; rw [ht, hp]; rfl
    · rw [upd_ne _ _ ht] at ho; exact ho
  | setdefaultStore t r i hp =>
    have hown : (s.pc t).own = some i := by rw [hp]; rfl
    have hrefs : ∀ j ∈ r.refs, s.Referenced j := fun j hj => Or.inr (Or.inl ⟨t, by rw [hp]; exact hj⟩)
    intro t' a ho
    replace ho : (upd s.pc t .idle t').own = some a := ho
    by_cases ht : t' = t
    · rw [ht, upd_same] at ho; cases ho
    · rw [upd_ne _ _ ht] at ho
      obtain ⟨h1, h2, h3⟩ := h t' a ho
      have hne : a ≠ i := by
        rintro rfl
        exact ht (h3 t hown).symm
      refine ⟨?_, ?_, ?_⟩
      · rintro (ha | ⟨t2, ha⟩ | ha | ⟨k, hk, ha⟩)
        · rcases List.mem_cons.1 ha with ha | ha
          · exact hne ha
          · exact h1 (Or.inl ha)
        · replace ha : a ∈ (upd s.pc t .idle t2).refs := ha
          by_cases ht2 : t2 = t
          · rw [ht2, upd_same] at ha; cases ha
          · rw [upd_ne _ _ ht2] at ha; exact h1 (Or.inr (Or.inl ⟨t2, ha⟩))
        · exact h1 (Or.inr (Or.inr (Or.inl ha)))
        · replace hk : upd s.table r.key (some i) k ≠ none := hk
          by_cases hkk : k = r.key
          · rw [hkk, Obj.key_refs] at ha; exact h1 (hrefs a ha)
          · rw [upd_ne _ _ hkk] at hk; exact h1 (Or.inr (Or.inr (Or.inr ⟨k, hk, ha⟩)))
      · intro k hk
        replace hk : upd s.table r.key (some i) k = some a := hk
        by_cases hkk : k = r.key
        · rw [hkk, upd_same] at hk; exact hne (Option.some.inj hk).symm
        · rw [upd_ne _ _ hkk] at hk; exact h2 k hk
      · intro t2 ho2
        replace ho2 : (upd s.pc t .idle t2).own = some a := ho2
        by_cases ht2 : t2 = t
        · rw [ht2, upd_same] at ho2; cases ho2
        · rw [upd_ne _ _ ht2] at ho2; exact h3 t2 ho2
  | interrupt t hp =>
    refine h.sub (fun j hj => Or.inl (hpc (t := t) (p := .idle) hj rfl rfl rfl rfl (fun j hj => by cases hj)))
      (fun _ _ hk => hk) ?_
    intro t' a ho
    replace ho : (upd s.pc t .idle t').own = some a := ho
    by_cases ht : t' = t
    · rw [ht, upd_same] at ho; cases ho
    · rw [upd_ne _ _ ht] at ho; exact ho
  | load i j o hr ho hj =>
    refine h.sub ?_ (fun _ _ hk => hk) (fun _ _ ho => ho)
    rintro a (ha | ha | ha | ha)
    · rcases List.mem_cons.1 ha with rfl | ha
      · exact Or.inl (Or.inr (Or.inr (Or.inl ⟨i, o, ho, hj⟩)))
      · exact Or.inl (Or.inl ha)
    · exact Or.inl (Or.inr (Or.inl ha))
    · exact Or.inl (Or.inr (Or.inr (Or.inl ha)))
    · exact Or.inl (Or.inr (Or.inr (Or.inr ha)))
  | drop i =>
    refine h.sub ?_ (fun _ _ hk => hk) (fun _ _ ho => ho)
    rintro a (ha | ha | ha | ha)
    · exact Or.inl (Or.inl (List.mem_of_mem_erase ha))
    · exact Or.inl (Or.inr (Or.inl ha))
    · exact Or.inl (Or.inr (Or.inr (Or.inl ha)))
    · exact Or.inl (Or.inr (Or.inr (Or.inr ha)))
  | collect i o ho hun hown =>
    refine h.sub ?_ (fun _ _ hk => hk) (fun _ _ ho => ho)
    rintro a (ha | ha | ⟨b, o', h1, h2⟩ | ha)
    · exact Or.inl (Or.inl ha)
    · exact Or.inl (Or.inr (Or.inl ha))
    · replace h1 : upd s.heap i none b = some o' := h1
      by_cases hb : b = i
      · rw [hb, upd_same] at h1; cases h1
      · rw [upd_ne _ _ hb] at h1; exact Or.inl (Or.inr (Or.inr (Or.inl ⟨b, o', h1, h2⟩)))
    · exact Or.inl (Or.inr (Or.inr (Or.inr ha)))
  | callback k hk =>
    have htab : ∀ k' j, (if s.deref k = none then upd s.table k none else s.table) k' = some j →
        s.table k' = some j := by
      intro k' j hj
      split at hj
      · by_cases hkk : k' = k
        · rw [hkk, upd_same] at hj; cases hj
        · rw [upd_ne _ _ hkk] at hj; exact hj
      · exact hj
    refine h.sub ?_ htab (fun _ _ ho => ho)
    rintro a (ha | ha | ha | ⟨k', h1, h2⟩)
    · exact Or.inl (Or.inl ha)
    · exact Or.inl (Or.inr (Or.inl ha))
    · exact Or.inl (Or.inr (Or.inr (Or.inl ha)))
    · obtain ⟨j, hj⟩ := Option.ne_none_iff_exists'.1 h1
      exact Or.inl (Or.inr (Or.inr (Or.inr ⟨k', by rw [htab k' j hj]; simp, h2⟩)))

theorem priv {s : St V K} (h : History R s) : Priv s := by
  induction h with
  | start => intro t i h; cases h
  | step h hs ih => exact ih.step h.inv.1 hs

theorem interrupted_eq {s s' : St V K} {t : Nat} (h : Interrupted s t s') :
    s' = { s with pc := upd s.pc t .idle } := by
  obtain ⟨h1, h2, h3, h4, h5, h6, h7⟩ := h
  obtain ⟨a, b, c, d, e, f⟩ := s'
  simp only at h1 h2 h3 h4 h5 h6 h7
  subst h3 h4 h5 h6 h7
  congr 1
  funext t'
  by_cases ht : t' = t
  · rw [ht, upd_same]; exact h1
  · rw [upd_ne _ _ ht]; exact h2 t' ht

theorem interrupted_history {s s' : St V K} {t : Nat} (hs : History R s) (h : Interrupted s t s') :
    History R s' := by
  have he := interrupted_eq h
  by_cases hidle : s.pc t = .idle
  · have : s' = s := by
      rw [he]
      have : upd s.pc t .idle = s.pc := by
        funext t'
        by_cases ht : t' = t
        · rw [ht, upd_same, hidle]
        · rw [upd_ne _ _ ht]
      rw [this]
    rw [this]; exact hs
  · subst he
    have h1 := hs.step (.interrupt s t hidle)
    have : (fun k => R k ∨ Race { s with pc := upd s.pc t .idle } k) = R := by
      funext k
      apply propext
      constructor
      · rintro (hk | ⟨a, b, r, r', i, i', hne, ha, hb, hr, hr'⟩)
        · exact hk
        · have hat : a ≠ t := by
            rintro rfl
            replace ha : upd s.pc a .idle a = .inSetdefault r i := ha
            rw [upd_same] at ha; cases ha
          have hbt : b ≠ t := by
            rintro rfl
            replace hb : upd s.pc b .idle b = .inSetdefault r' i' := hb
            rw [upd_same] at hb; cases hb
          replace ha : upd s.pc t .idle a = .inSetdefault r i := ha
          replace hb : upd s.pc t .idle b = .inSetdefault r' i' := hb
          rw [upd_ne _ _ hat] at ha
          rw [upd_ne _ _ hbt] at hb
          have hrace := congrFun hs.race k
          exact hrace.mp (Or.inr ⟨a, b, r, r', i, i', hne, ha, hb, hr, hr'⟩)
      · exact Or.inl
    rw [this] at h1
    exact h1

/-- **C77, a call that is cut short.** In every execution, wherever the call of thread `t` is when it is
cut short: the state that follows is one that an execution with the same races leads to (so that all that
C01–C04 and C67–C72 say goes on to hold), and an object that the call has made is in no store and
referenced by nothing; the collector can free it, and nothing else changes then. -/
theorem C77_interrupted_call (s s' : St V K) (t : Nat) (hs : History R s)
    (h : Interrupted s t s') :
    History R s' ∧
    ∀ i, Making s t i → (∀ k, s'.table k ≠ some i) ∧ ¬ s'.Referenced i ∧
      ∃ s'', Step s' none s'' ∧ s''.heap i = none ∧ (∀ j, j ≠ i → s''.heap j = s'.heap j) ∧
        s''.table = s'.table ∧ s''.pending = s'.pending ∧ s''.roots = s'.roots ∧ s''.pc = s'.pc := by
  refine ⟨interrupted_history hs h, ?_⟩
  intro i hm
  have hown : (s.pc t).own = some i := by
    obtain ⟨r, h1 | h1⟩ := hm <;> rw [h1] <;> rfl
  obtain ⟨p1, p2, p3⟩ := priv hs t i hown
  obtain ⟨o, ho⟩ := Option.isSome_iff_exists.1 (own_live hs.inv.1 hown)
  have he := interrupted_eq h
  subst he
  have hunref : ¬ St.Referenced { s with pc := upd s.pc t .idle } i := by
    rintro (hj | ⟨t', hj⟩ | hj | hj)
    · exact p1 (Or.inl hj)
    · replace hj : i ∈ (upd s.pc t .idle t').refs := hj
      by_cases ht : t' = t
      · rw [ht, upd_same] at hj; cases hj
      · rw [upd_ne _ _ ht] at hj; exact p1 (Or.inr (Or.inl ⟨t', hj⟩))
    · exact p1 (Or.inr (Or.inr (Or.inl hj)))
    · exact p1 (Or.inr (Or.inr (Or.inr hj)))
  refine ⟨p2, hunref, _, .collect _ i o ho hunref ?_, upd_same _ _ _, fun j hj => upd_ne _ _ hj, rfl, ?_,
    rfl, rfl⟩
  · intro t' ht'
    replace ht' : (upd s.pc t .idle t').own = some i := ht'
    by_cases ht : t' = t
    · rw [ht, upd_same] at ht'; cases ht'
    · rw [upd_ne _ _ ht] at ht'; exact ht (p3 t' ht')
  · show (if s.table o.key = some i then _ else _) = _
    rw [if_neg (p2 _)]

/-- **C77, the call again.** In every execution: when thread `t` is in a call and the call is cut short,
and the program still holds the arguments, the thread can make the same call again; if it is not disturbed,
it returns an object made of the same arguments, and if the program holds such an object, that one, unless
there has been a race for it. -/
theorem C77_retry (s s' : St V K) (t : Nat) (r : Obj V) (hs : History R s) (hc : Calling s t r)
    (h : Interrupted s t s') (hargs : ∀ j ∈ r.refs, j ∈ s'.roots) :
    ∃ i o s'', Undisturbed t r i s' s'' ∧ s''.heap i = some o ∧ o.key = r.key ∧
      ∀ j o', Visible s' j → s'.heap j = some o' → o'.key = r.key → ¬ R r.key → i = j := by
  have hs' := interrupted_history hs h
  obtain ⟨hi, _⟩ := hs'.inv
  have hty : s'.WellTyped r := by
    have h1 := hs.inv.1.pcTyped t r (calling_iff.1 hc)
    have hh := h.2.2.1
    cases r with
    | atom _ _ => trivial
    | treeAtom a => simp only [St.WellTyped, hh] at h1 ⊢; exact h1
    | tree cs => simp only [St.WellTyped, hh] at h1 ⊢; exact h1
    | sym c a => simp only [St.WellTyped, hh] at h1 ⊢; exact h1
  cases hd : s'.deref r.key with
  | some i =>
    have st : Step s' (some (.ret t r i)) _ := .getHit s' t r i h.1 hargs hty hd
    obtain ⟨_, o, ho, hk⟩ := ret_object hi st
    exact ⟨i, o, _, .found st, ho, hk, fun j o' hv hj hkj hR => ret_referenced hi st hv.referenced hj hkj hR⟩
  | none =>
    obtain ⟨s1, s2, s3, s4, i, e1, e2, e3, e4, _⟩ : ∃ s1 s2 s3 s4 i, (Step s' none s1 ∧ s1.pc t = .missed r) ∧
        (Step s1 none s2 ∧ s2.pc t = .fresh r i) ∧ (Step s2 none s3 ∧ s3.pc t = .inSetdefault r i) ∧
        (Step s3 (some (.ret t r i)) s4 ∧ s4.heap i = some r) ∧ True := by
      refine ⟨_, _, _, _, s'.next, ⟨.getMiss s' t r h.1 hargs hty hd, upd_same _ _ _⟩,
        ⟨.alloc _ t r (upd_same _ _ _), upd_same _ _ _⟩,
        ⟨.setdefaultMiss _ t r s'.next (upd_same _ _ _) ?_, upd_same _ _ _⟩,
        ⟨.setdefaultStore _ t r s'.next (upd_same _ _ _), upd_same _ _ _⟩, trivial⟩
      rw [deref_none_iff] at hd ⊢
      intro i hk
      show upd _ _ _ i = none
      have := hi.tableBelow _ _ hk
      rw [upd_ne _ _ (show i ≠ s'.next by omega)]
      exact hd i hk
    refine ⟨i, r, s4, .made e1.1 e1.2 e2.1 e2.2 e3.1 e3.2 e4.1, e4.2, rfl, ?_⟩
    intro j o' hv hj hkj hR
    have hu := hi.unique j o' (hkj ▸ hR) hv.referenced hj
    rw [hkj] at hu
    rw [deref_none hd hu] at hj
    cases hj

/-! ### Programs -/

/-- Identities are not reused. -/
def HeapLe (s s' : St V K) : Prop :=
  s.next ≤ s'.next ∧ (∀ j o, s.heap j = some o → s'.heap j = some o ∨ s'.heap j = none) ∧
  (∀ j, j < s.next → s.heap j = none → s'.heap j = none)

theorem HeapLe.refl (s : St V K) : HeapLe s s := by
  exact ⟨Nat.le_refl _, fun _ _ h => Or.inl h, fun _ _ h => h⟩

theorem HeapLe.trans {G : Key K → Prop} {s s1 s2 : St V K} (hi : Inv G s) (h : HeapLe s s1)
    (h' : HeapLe s1 s2) : HeapLe s s2 := by
  refine ⟨Nat.le_trans h.1 h'.1, ?_, fun j hj hn => h'.2.2 j (Nat.lt_of_lt_of_le hj h.1) (h.2.2 j hj hn)⟩
  intro j o ho
  rcases h.2.1 j o ho with h1 | h1
  · exact h'.2.1 j o h1
  · exact Or.inr (h'.2.2 j (Nat.lt_of_lt_of_le (hi.below j o ho) h.1) h1)

theorem HeapLe.step {G : Key K → Prop} {s s' : St V K} {e : Option (Event V)} (hi : Inv G s)
    (hs : Step s e s') : HeapLe s s' := by
  refine ⟨?_, step_heap hi hs, ?_⟩
  · cases hs <;> first | exact Nat.le_refl _ | exact Nat.le_succ _
  · intro j hj hn
    cases hs with
    | alloc t r hpc =>
      show upd _ _ _ j = none
      rw [upd_ne _ _ (by omega)]; exact hn
    | collect i o' hi' hun hown =>
      show upd _ _ _ j = none
      by_cases hij : j = i
      · rw [hij]; exact upd_same _ _ _
      · rw [upd_ne _ _ hij]; exact hn
    | _ => exact hn

/-- What a run of a program leaves, whatever happens in it. -/
theorem exec_history {me : Nat} {c c' : Cfg V K α} {P : (Key K → Prop) → Cfg V K α → Prop}
    (hist : History R c.st) (holds : Holds c.st c.hs) (ex : Exec me P R c R' c') :
    History R' c'.st ∧ Holds c'.st c'.hs ∧ HeapLe c.st c'.st := by
  induction ex with
  | refl _ => exact ⟨hist, holds, HeapLe.refl _⟩
  | step _ hrun _ ih =>
    rename_i R1 c1 c2 _ _
    obtain ⟨h1, h2, h3⟩ := ih
    obtain ⟨vals, mean⟩ : ∃ vals : List (Ex K), Mean c1.st.heap c1.hs vals :=
      (C67_objects_have_values c1.st c1.hs h1 h2).1
    have hi := hist.inv.1
    cases hrun with
    | store e hs _ _ hroots _ => exact ⟨h1.step hs, hroots, h3.trans hi (HeapLe.step h1.inv.1 hs)⟩
    | made r i hr hs =>
      obtain ⟨g1, g2, _⟩ := made_mean h1 h2 mean hr hs
      exact ⟨g1, g2, h3.trans hi (HeapLe.step h1.inv.1 hs)⟩
    | @same s => exact ⟨by show History (fun k => R1 k ∨ Race s k) s; rw [h1.race]; exact h1, h2, h3⟩
    | look i o e1 e2 =>
      obtain ⟨g1, g2, _⟩ := look_mean h1 h2 mean e1 e2
      exact ⟨by rw [g1.race]; exact g1, g2, h3⟩
    | @loop s => exact ⟨by show History (fun k => R1 k ∨ Race s k) s; rw [h1.race]; exact h1, h2, h3⟩
    | @forget s =>
      exact ⟨by show History (fun k => R1 k ∨ Race s k) s; rw [h1.race]; exact h1,
        fun n i hn => h2 n i (held_set hn), h3⟩

/-- **C77, programs.** Thread `me` runs a program `p` with variables `hs` that stand for `vals`, and is
interrupted, wherever the program and the call it is in may be; the variables `hs` are still there.  Then
they still stand for `vals`, and any program `q` that the thread runs afterwards with these variables — `p`
again, for instance — ends with the result that it has on values, as if `p` had not been run. -/
theorem C77_program {β : Type} {R₁ R₂ : Key K → Prop} (me : Nat) (s s₁ s₂ s₃ : St V K)
    (hs hs₁ hs₃ : List (Option Nat)) (vals : List (Ex K)) (p p₁ : Prog V K α) (q : Prog V K β) (r : PyM β)
    (hist : History R s) (holds : Holds s hs) (mean : Mean s.heap hs vals)
    (ex : Exec me (fun _ _ => True) R ⟨s, hs, p⟩ R₁ ⟨s₁, hs₁, p₁⟩)
    (hint : Interrupted s₁ me s₂) (hold : Holds s₂ hs) :
    Mean s₂.heap hs vals ∧
    (Exec me Clean R₁ ⟨s₂, hs, q⟩ R₂ ⟨s₃, hs₃, .ofPy r⟩ →
      ∃ vals', Yields vals q r vals' ∧ Mean s₃.heap hs₃ vals' ∧
        ∀ r' vals'', Yields vals q r' vals'' → r' = r ∧ vals'' = vals') := by
  obtain ⟨h1, _, h3⟩ := exec_history hist holds ex
  have h2 : History R₁ s₂ := interrupted_history h1 hint
  have hmean : Mean s₂.heap hs vals :=
    mean.mono (s := s) (s' := s₂) (fun j o ho => by rw [hint.2.2.1]; exact h3.2.1 j o ho) h2.inv.1 hold
  exact ⟨hmean, fun ex2 => C67_programs me s₂ s₃ hs hs₃ vals q r h2 hold hmean ex2⟩

/-- Thread `0` runs the program `return Integer(1)`, is interrupted inside `setdefault`, and runs the
program again, to its end: the hypotheses of C77_interrupted_call, C77_retry and C77_program.  The atom of
the first attempt is lost, and the program returns another one. -/
example : ∃ (R₁ R₂ : Key Int → Prop) (s₁ s₂ s₃ : St PyNum Int),
    History (fun _ => False) (St.init : St PyNum Int) ∧ Holds (St.init : St PyNum Int) [] ∧
    Mean (St.init : St PyNum Int).heap [] ([] : List (Ex Int)) ∧
    Exec 0 (fun _ _ => True) (fun _ => False)
      ⟨St.init, [], (.make (.atom integerTy (.int 1)) .ret : Prog PyNum Int Nat)⟩ R₁
      ⟨s₁, [], .make (.atom integerTy (.int 1)) .ret⟩ ∧
    History R₁ s₁ ∧ Making s₁ 0 0 ∧ Calling s₁ 0 (.atom integerTy (.int 1)) ∧
    Interrupted s₁ 0 s₂ ∧ Holds s₂ [] ∧
    Exec 0 Clean R₁ ⟨s₂, [], (.make (.atom integerTy (.int 1)) .ret : Prog PyNum Int Nat)⟩ R₂
      ⟨s₃, [some 1], .ofPy (.ok 0)⟩ := by
  let r : Obj PyNum := .atom integerTy (.int 1)
  let p : Prog PyNum Int Nat := .make r .ret
  let s0 : St PyNum Int := St.init
  let s1 : St PyNum Int := { s0 with pc := upd s0.pc 0 (.missed r) }
  let s2 : St PyNum Int := ⟨upd s1.heap 0 (some r), 1, s1.table, s1.pending, s1.roots,
    upd s1.pc 0 (.fresh r 0)⟩
  let s3 : St PyNum Int := { s2 with pc := upd s2.pc 0 (.inSetdefault r 0) }
  let s4 : St PyNum Int := { s3 with pc := upd s3.pc 0 .idle }
  let s5 : St PyNum Int := { s4 with pc := upd s4.pc 0 (.missed r) }
  let s6 : St PyNum Int := ⟨upd s5.heap 1 (some r), 2, s5.table, s5.pending, s5.roots,
    upd s5.pc 0 (.fresh r 1)⟩
  let s7 : St PyNum Int := { s6 with pc := upd s6.pc 0 (.inSetdefault r 1) }
  let s8 : St PyNum Int := ⟨s7.heap, s7.next, upd s7.table r.key (some 1), s7.pending, 1 :: s7.roots,
    upd s7.pc 0 .idle⟩
  have st1 : Step s0 none s1 := .getMiss s0 0 r rfl (by simp [r, Obj.refs]) trivial rfl
  have st2 : Step s1 none s2 := .alloc s1 0 r rfl
  have st3 : Step s2 none s3 := .setdefaultMiss s2 0 r 0 rfl rfl
  have st5 : Step s4 none s5 := .getMiss s4 0 r rfl (by simp [r, Obj.refs]) trivial rfl
  have st6 : Step s5 none s6 := .alloc s5 0 r rfl
  have st7 : Step s6 none s7 := .setdefaultMiss s6 0 r 1 rfl rfl
  have st8 : Step s7 (some (.ret 0 r 1)) s8 := .setdefaultStore s7 0 r 1 rfl
  have hnone : ∀ (s : St PyNum Int), Holds s [] := by intro s h i hh; simp [held] at hh
  have hclean : ∀ (R : Key Int → Prop) (s : St PyNum Int), Clean R (⟨s, [], p⟩ : Cfg PyNum Int Nat) := by
    intro R s h i d o hh; simp [held] at hh
  have e1 : Run 0 (⟨s0, [], p⟩ : Cfg PyNum Int Nat) ⟨s1, [], p⟩ := .store none st1 (by simp)
    (fun _ r' hr' => by
      have h : PC.missed r = .missed r' := hr'
      cases h; exact ⟨r, _, rfl, rfl⟩) (hnone _) (fun h => absurd rfl h)
  have e2 : Run 0 (⟨s1, [], p⟩ : Cfg PyNum Int Nat) ⟨s2, [], p⟩ := .store none st2 (by simp)
    (fun h0 => by have h : PC.missed r = .idle := h0; cases h) (hnone _)
    (fun _ h => by have h : PC.fresh r 0 = .idle := h; cases h)
  have e3 : Run 0 (⟨s2, [], p⟩ : Cfg PyNum Int Nat) ⟨s3, [], p⟩ := .store none st3 (by simp)
    (fun h0 => by have h : PC.fresh r 0 = .idle := h0; cases h) (hnone _)
    (fun _ h => by have h : PC.inSetdefault r 0 = .idle := h; cases h)
  have e5 : Run 0 (⟨s4, [], p⟩ : Cfg PyNum Int Nat) ⟨s5, [], p⟩ := .store none st5 (by simp)
    (fun _ r' hr' => by
      have h : PC.missed r = .missed r' := hr'
      cases h; exact ⟨r, _, rfl, rfl⟩) (hnone _) (fun h => absurd rfl h)
  have e6 : Run 0 (⟨s5, [], p⟩ : Cfg PyNum Int Nat) ⟨s6, [], p⟩ := .store none st6 (by simp)
    (fun h0 => by have h : PC.missed r = .idle := h0; cases h) (hnone _)
    (fun _ h => by have h : PC.fresh r 1 = .idle := h; cases h)
  have e7 : Run 0 (⟨s6, [], p⟩ : Cfg PyNum Int Nat) ⟨s7, [], p⟩ := .store none st7 (by simp)
    (fun h0 => by have h : PC.fresh r 1 = .idle := h0; cases h) (hnone _)
    (fun _ h => by have h : PC.inSetdefault r 1 = .idle := h; cases h)
  have e8 : Run 0 (⟨s7, [], p⟩ : Cfg PyNum Int Nat) ⟨s8, [some 1], .ofPy (.ok 0)⟩ :=
    .made r 1 rfl st8
  have x3 := (((Exec.refl (P := fun _ _ => True) (R := fun _ => False) trivial).step e1 trivial).step e2
    trivial).step e3 trivial
  have hist3 := ((History.start.step st1).step st2).step st3
  have x7 := (((Exec.refl (R := fun k => ((False ∨ Race s1 k) ∨ Race s2 k) ∨ Race s3 k)
    (hclean _ s4)).step e5 (hclean _ _)).step e6 (hclean _ _)).step e7 (hclean _ _)
  have single : ∀ (s : St PyNum Int) k, (∀ t, t ≠ 0 → s.pc t = .idle) → ¬ Race s k :=
    fun s k h => exclusive_race (single_exclusive h) k
  refine ⟨_, _, s3, s4, s8, .start, hnone _, ⟨rfl, fun h i hh => by simp [held] at hh⟩, x3, hist3,
    ⟨r, Or.inr rfl⟩, Or.inr (Or.inr ⟨0, rfl⟩), ⟨rfl, fun t ht => upd_ne _ _ ht, rfl, rfl, rfl, rfl, rfl⟩,
    hnone _, x7.step e8 ?_⟩
  intro h i d o _ _ _
  have hno : ∀ (s : St PyNum Int) k, (∀ t, t ≠ 0 → s.pc t = .idle) → ¬ Race s k := single
  rintro (((((((h | h) | h) | h) | h) | h) | h) | h)
  · exact h
  all_goals
    refine single _ _ ?_ h
    intro t ht
    simp [s0, s1, s2, s3, s4, s5, s6, s7, s8, St.init, upd, ht]

end Verif.Props
