import Verif.Spec.Memory
import Verif.Lemmas.Client
import Verif.Props.Store
import Verif.Props.Topo
import Verif.Props.ClientExpr
import Verif.Spec.Time
import Mathlib.Data.List.Perm.Basic
import Mathlib.Data.List.Nodup

/-!
# C72: memory

What the collector frees, that it ends, and how much memory a program that holds given expressions
needs then.
-/

set_option linter.unusedSectionVars false

namespace Verif.Props
open Store
variable {V K : Type} [DecidableEq K] [PyVal V K] {R : Key K → Prop}

/-- The two kinds of steps. -/
theorem frees_cases {s s' : St V K} (h : Frees s s') :
    (∃ i o, s.heap i = some o ∧ ¬ s.Referenced i ∧ (∀ t, (s.pc t).own ≠ some i) ∧
      s' = { s with heap := upd s.heap i none,
                    pending := if s.table o.key = some i then o.key :: s.pending else s.pending }) ∨
    (∃ k, k ∈ s.pending ∧
      s' = { s with table := if s.deref k = none then upd s.table k none else s.table,
                    pending := s.pending.erase k }) := by
  obtain ⟨hs, hr, hp, hne⟩ := h
  cases hs with
  | getMiss t r h1 => 
    have := congrFun hp t
    simp only [upd_same] at this
    rw [h1] at this; cases this
  | alloc t r h1 =>
    have := congrFun hp t
    simp only [upd_same] at this
    rw [h1] at this; cases this
  | setdefaultMiss t r i h1 =>
    have := congrFun hp t
    simp only [upd_same] at this
    rw [h1] at this; cases this
  | interrupt t h1 =>
    have := congrFun hp t
    simp only [upd_same] at this
    exact absurd this.symm h1
  | load i j o h1 h2 h3 =>
    have := congrArg List.length hr
    simp at this
  | drop i =>
    exfalso; apply hne
    simp only at hr
    rw [hr]
  | collect i o h1 h2 h3 => exact Or.inl ⟨i, o, h1, h2, h3, rfl⟩
  | callback k h1 => exact Or.inr ⟨k, h1, rfl⟩

theorem frees_collect {s : St V K} {i : Nat} {o : Obj V} (h : s.heap i = some o)
    (hr : ¬ s.Referenced i) (ho : ∀ t, (s.pc t).own ≠ some i) : ∃ s', Frees s s' := by
  refine ⟨_, .collect s i o h hr ho, rfl, rfl, ?_⟩
  intro e
  have := congrFun (congrArg St.heap e) i
  simp only [upd_same] at this
  rw [h] at this; cases this

theorem frees_callback {s : St V K} {k : Key K} (h : k ∈ s.pending) : ∃ s', Frees s s' := by
  refine ⟨_, .callback s k h, rfl, rfl, ?_⟩
  intro e
  have := congrArg List.length (congrArg St.pending e)
  simp only [List.length_erase_of_mem h] at this
  have := List.length_pos_of_mem h
  omega

/-- **C72, the collector ends.** Whatever it does first, it does at most two steps for every live
object and one for every callback that was already due. -/
theorem C72_collector_bounded (s s' : St V K) (n : Nat) (h : FreesMany n s s') :
    ∀ l : List Nat, (∀ i o, s.heap i = some o → i ∈ l) → n ≤ 2 * l.length + s.pending.length := by
  induction h with
  | zero s => intro l _; omega
  | @step n s s1 s' h _ ih =>
    intro l hl
    rcases frees_cases h with ⟨i, o, ho, _, _, rfl⟩ | ⟨k, hk, rfl⟩
    · have hmem := hl i o ho
      have := ih (l.filter (· ≠ i)) (by
        intro j o' hj
        by_cases hji : j = i
        · subst hji; simp [upd] at hj
        · simp only [upd_ne _ _ hji] at hj
          exact List.mem_filter.2 ⟨hl j o' hj, by simpa using hji⟩)
      have hlen : (l.filter (· ≠ i)).length < l.length := by
        rw [List.length_filter_lt_length_iff_exists]
        exact ⟨i, hmem, by simp⟩
      simp only at this
      split at this
      · simp only [List.length_cons] at this; omega
      · omega
    · have := ih l hl
      simp only [List.length_erase_of_mem hk] at this
      have := List.length_pos_of_mem hk
      omega

theorem frees_history {s s' : St V K} (hs : History R s) (h : Frees s s') :
    History (fun k => R k ∨ Race s' k) s' := hs.step h.1

theorem inUse_live {s : St V K} (hs : History R s) {i : Nat} (h : InUse s i) :
    ∃ o, s.heap i = some o := by
  obtain ⟨hi, _⟩ := hs.inv
  rcases h with h | ⟨t, h⟩
  · exact Option.isSome_iff_exists.1 (hi.live h.referenced)
  · cases hp : s.pc t with
    | idle => rw [hp] at h; simp [PC.own] at h
    | missed r => rw [hp] at h; simp [PC.own] at h
    | fresh r j => rw [hp] at h; simp [PC.own] at h; subst h; exact ⟨r, hi.ownFresh t r j hp⟩
    | inSetdefault r j => rw [hp] at h; simp [PC.own] at h; subst h; exact ⟨r, hi.ownSet t r j hp⟩

/-- The collector leaves what is in use alone. -/
theorem frees_inUse {s s' : St V K} (hs : History R s) (h : Frees s s') :
    (∀ i, InUse s i → s'.heap i = s.heap i) ∧ (∀ i, InUse s i ↔ InUse s' i) ∧
    (∀ k i, InUse s i → s.table k = some i → s'.table k = some i) ∧
    (∀ k i, s'.table k = some i → s.table k = some i) ∧
    (∀ i o, s'.heap i = some o → s.heap i = some o) := by
  have hroots := h.2.1
  have hpc := h.2.2.1
  have hsub : ∀ i o, s'.heap i = some o → s.heap i = some o := by
    intro i o ho
    rcases frees_cases h with ⟨j, o', hj, _, _, rfl⟩ | ⟨k, hk, rfl⟩
    · by_cases hij : i = j
      · subst hij; simp [upd] at ho
      · simpa only [upd_ne _ _ hij] using ho
    · exact ho
  have hkeep : ∀ i, InUse s i → s'.heap i = s.heap i := by
    intro i hu
    rcases frees_cases h with ⟨j, o', hj, hr, hown, rfl⟩ | ⟨k, hk, rfl⟩
    · have hij : i ≠ j := by
        rintro rfl
        rcases hu with hu | ⟨t, hu⟩
        · exact hr hu.referenced
        · exact hown t hu
      exact upd_ne _ _ hij
    · rfl
  refine ⟨hkeep, ?_, ?_, ?_, hsub⟩
  · intro i
    constructor
    · rintro (hv | ⟨t, ht⟩)
      · left
        induction hv with
        | root hr => exact .root (by rw [hroots]; exact hr)
        | @arg t i ha => exact .arg (t := t) (by rw [hpc]; exact ha)
        | attr hv ho hj ih => exact .attr ih (by rw [hkeep _ (Or.inl hv)]; exact ho) hj
      · exact Or.inr ⟨t, by rw [hpc]; exact ht⟩
    · rintro (hv | ⟨t, ht⟩)
      · left
        induction hv with
        | root hr => exact .root (by rw [← hroots]; exact hr)
        | @arg t i ha => exact .arg (t := t) (by rw [← hpc]; exact ha)
        | attr hv ho hj ih => exact .attr ih (hsub _ _ ho) hj
      · exact Or.inr ⟨t, by rw [← hpc]; exact ht⟩
  · intro k i hu ht
    rcases frees_cases h with ⟨j, o', hj, hr, hown, rfl⟩ | ⟨k', hk, rfl⟩
    · exact ht
    · show (if s.deref k' = none then upd s.table k' none else s.table) k = some i
      split
      · rename_i hd
        rw [upd_ne]
        · exact ht
        · rintro rfl
          obtain ⟨o, ho⟩ := inUse_live hs hu
          rw [deref_none hd ht] at ho; cases ho
      · exact ht
  · intro k i ht
    rcases frees_cases h with ⟨j, o', hj, hr, hown, rfl⟩ | ⟨k', hk, rfl⟩
    · exact ht
    · simp only at ht
      split at ht
      · by_cases hkk : k = k'
        · subst hkk; simp [upd] at ht
        · simpa only [upd_ne _ _ hkk] using ht
      · exact ht

/-- When nothing is left to do, everything live is in use. -/
theorem settled_inUse {s : St V K} (hs : History R s) (h : Settled s) :
    s.pending = [] ∧ (∀ i o, s.heap i = some o → InUse s i) ∧
    (∀ k i, s.table k = some i → ∃ o, s.heap i = some o) := by
  obtain ⟨hi, _⟩ := hs.inv
  have hpend : s.pending = [] := by
    cases hp : s.pending with
    | nil => rfl
    | cons k l =>
      obtain ⟨s', hf⟩ := frees_callback (s := s) (k := k) (by rw [hp]; simp)
      exact absurd hf (h s')
  have htab : ∀ k i, s.table k = some i → ∃ o, s.heap i = some o := by
    intro k i ht
    cases ho : s.heap i with
    | none => have := hi.pend k i ht ho; rw [hpend] at this; cases this
    | some o => exact ⟨o, rfl⟩
  refine ⟨hpend, ?_, htab⟩
  -- downwards from the newest object
  have key : ∀ n i o, s.heap i = some o → s.next ≤ i + n → InUse s i := by
    intro n
    induction n with
    | zero => intro i o ho hn; have := hi.below i o ho; omega
    | succ n ih =>
      intro i o ho hn
      have hup : ∀ j o', s.heap j = some o' → i < j → InUse s j :=
        fun j o' hj hlt => ih j o' hj (by omega)
      by_cases href : s.Referenced i
      · rcases href with hr | ⟨t, hr⟩ | ⟨j, o', h1, h2⟩ | ⟨k, h1, h2⟩
        · exact Or.inl (.root hr)
        · exact Or.inl (.arg hr)
        · have hlt := (hi.closed j o' h1 i h2).1
          rcases hup j o' h1 hlt with hv | ⟨t, ht⟩
          · exact Or.inl (.attr hv h1 h2)
          · left
            have : i ∈ (s.pc t).refs := by
              cases hp : s.pc t with
              | idle => rw [hp] at ht; simp [PC.own] at ht
              | missed r => rw [hp] at ht; simp [PC.own] at ht
              | fresh r c =>
                rw [hp] at ht; simp [PC.own] at ht; subst ht
                have := hi.ownFresh t r c hp
                rw [h1] at this; cases this; exact h2
              | inSetdefault r c =>
                rw [hp] at ht; simp [PC.own] at ht; subst ht
                have := hi.ownSet t r c hp
                rw [h1] at this; cases this; exact h2
            exact .arg this
        · obtain ⟨j, hj⟩ := Option.ne_none_iff_exists'.1 h1
          obtain ⟨o', hjo⟩ := htab k j hj
          have hkey := hi.tableKey k j o' hj hjo
          rw [← hkey, Obj.key_refs] at h2
          have hlt := (hi.closed j o' hjo i h2).1
          rcases hup j o' hjo hlt with hv | ⟨t, ht⟩
          · exact Or.inl (.attr hv hjo h2)
          · left
            have : i ∈ (s.pc t).refs := by
              cases hp : s.pc t with
              | idle => rw [hp] at ht; simp [PC.own] at ht
              | missed r => rw [hp] at ht; simp [PC.own] at ht
              | fresh r c =>
                rw [hp] at ht; simp [PC.own] at ht; subst ht
                have := hi.ownFresh t r c hp
                rw [hjo] at this; cases this; exact h2
              | inSetdefault r c =>
                rw [hp] at ht; simp [PC.own] at ht; subst ht
                have := hi.ownSet t r c hp
                rw [hjo] at this; cases this; exact h2
            exact .arg this
      · by_cases hown : ∃ t, (s.pc t).own = some i
        · exact Or.inr hown
        · obtain ⟨s', hf⟩ := frees_collect ho href (fun t ht => hown ⟨t, ht⟩)
          exact absurd hf (h s')
  intro i o ho
  exact key s.next i o ho (by omega)

/-- **C72, no leaks.** In every execution, at every moment: once the collector, started there, has
nothing left to do, exactly the objects that were in use are there, unchanged; the stores have exactly
the entries they had for those; no callback is due. -/
theorem C72_no_leak (s s' : St V K) (hs : History R s) (n : Nat) (h : FreesMany n s s')
    (hset : Settled s') :
    (∀ i, InUse s i → (∃ o, s.heap i = some o) ∧ s'.heap i = s.heap i) ∧
    (∀ i, ¬ InUse s i → s'.heap i = none) ∧
    (∀ k i, s'.table k = some i ↔ s.table k = some i ∧ InUse s i) ∧
    s'.pending = [] ∧ s'.roots = s.roots ∧ s'.pc = s.pc ∧ s'.next = s.next := by
  induction h generalizing R with
  | zero s =>
    obtain ⟨h1, h2, h3⟩ := settled_inUse hs hset
    refine ⟨fun i hu => ⟨inUse_live hs hu, rfl⟩, ?_, ?_, h1, rfl, rfl, rfl⟩
    · intro i hu
      cases ho : s.heap i with
      | none => rfl
      | some o => exact absurd (h2 i o ho) hu
    · intro k i
      refine ⟨fun ht => ?_, And.left⟩
      obtain ⟨o, ho⟩ := h3 k i ht
      exact ⟨ht, h2 i o ho⟩
  | @step n s s1 s' hf _ ih =>
    obtain ⟨g1, g2, g3, g4, g5, g6, g7⟩ := ih (frees_history hs hf) hset
    obtain ⟨f1, f2, f3, f4, _⟩ := frees_inUse hs hf
    refine ⟨?_, ?_, ?_, g4, g5.trans hf.2.1, g6.trans hf.2.2.1, ?_⟩
    · intro i hu
      exact ⟨inUse_live hs hu, ((g1 i ((f2 i).1 hu)).2).trans (f1 i hu)⟩
    · intro i hu; exact g2 i (fun hu' => hu ((f2 i).2 hu'))
    · intro k i
      rw [g3 k i]
      constructor
      · rintro ⟨h1, h2⟩; exact ⟨f4 k i h1, (f2 i).2 h2⟩
      · rintro ⟨h1, h2⟩; exact ⟨f3 k i h2 h1, (f2 i).1 h2⟩
    · rw [g7]
      rcases frees_cases hf with ⟨_, _, _, _, _, rfl⟩ | ⟨_, _, rfl⟩ <;> rfl

/-- **C72, it gets there.** In every execution, at every moment, the collector can go on until it has
nothing left to do — and by `C72_collector_bounded` it cannot go on for ever. -/
theorem C72_collector_ends (s : St V K) (hs : History R s) :
    ∃ n s', FreesMany n s s' ∧ Settled s' := by
  have key : ∀ m, ∀ s : St V K, ∀ l : List Nat, (∀ i o, s.heap i = some o → i ∈ l) →
      (∀ n s', FreesMany n s s' → n ≤ m) → ∃ n s', FreesMany n s s' ∧ Settled s' := by
    intro m
    induction m with
    | zero =>
      intro s l hl hb
      refine ⟨0, s, .zero s, fun s' hf => ?_⟩
      have := hb 1 s' (.step hf (.zero s'))
      omega
    | succ m ih =>
      intro s l hl hb
      by_cases hset : Settled s
      · exact ⟨0, s, .zero s, hset⟩
      · have : ∃ s1, Frees s s1 := by
          apply Classical.byContradiction
          intro hn
          exact hset (fun s' hf => hn ⟨s', hf⟩)
        obtain ⟨s1, hf⟩ := this
        have hl' : ∀ i o, s1.heap i = some o → i ∈ l := by
          intro i o ho
          rcases frees_cases hf with ⟨j, o', hj, _, _, rfl⟩ | ⟨k, hk, rfl⟩
          · by_cases hij : i = j
            · subst hij; simp [upd] at ho
            · simp only [upd_ne _ _ hij] at ho; exact hl i o ho
          · exact hl i o ho
        obtain ⟨n, s', h1, h2⟩ := ih s1 l hl' (fun n s' h => by
          have := hb (n + 1) s' (.step hf h)
          omega)
        exact ⟨n + 1, s', .step hf h1, h2⟩
  obtain ⟨hi, _⟩ := hs.inv
  have hl : ∀ i o, s.heap i = some o → i ∈ List.range s.next :=
    fun i o ho => List.mem_range.2 (hi.below i o ho)
  exact key _ s _ hl (fun n s' h => C72_collector_bounded s s' n h _ hl)

/-! ### How much memory -/

/-- Everything live stands for a part of a value that a variable holds. -/
theorem live_part {s : St V K} {vals : List (Ex K)} (hs : History R s) (hset : Settled s)
    (hidle : ∀ t, s.pc t = .idle) (hv : Variables s vals) (i : Nat) (o : Obj V)
    (ho : s.heap i = some o) : Visible s i ∧ ∃ x, Part vals x ∧ Is s.heap i x := by
  obtain ⟨_, h2, _⟩ := settled_inUse hs hset
  rcases h2 i o ho with h | ⟨t, h⟩
  · refine ⟨h, ?_⟩
    clear ho
    induction h with
    | root hr =>
      obtain ⟨x, h1, h2⟩ := hv.1 _ hr
      exact ⟨x, .val h1, h2⟩
    | arg ha => rw [hidle] at ha; simp [PC.refs] at ha
    | @attr c oc j hc hoc hj ih =>
      obtain ⟨x, h1, h2⟩ := ih
      obtain ⟨m, hm⟩ := List.mem_iff_getElem?.1 hj
      obtain ⟨y, g1, g2⟩ := (h2.parts hoc 0).2.2 m j hm
      exact ⟨y, .part h1 (List.mem_of_getElem? g1), g2⟩
  · rw [hidle] at h; simp [PC.own] at h

theorem is_live {heap : Nat → Option (Obj V)} {i : Nat} {x : Ex K} (h : Is heap i x) :
    ∃ o, heap i = some o := by
  cases x with
  | atom a => obtain ⟨v, h1, _⟩ := h; exact ⟨_, h1⟩
  | tree t => rcases stands_isTree h with ⟨_, h⟩ | ⟨_, h⟩ <;> exact ⟨_, h⟩
  | sym c t => obtain ⟨j, h1, _⟩ := h; exact ⟨_, h1⟩

/-- Every part of a value that a variable holds has an object. -/
theorem part_live {s : St V K} {vals : List (Ex K)} (hv : Variables s vals) {x : Ex K}
    (h : Part vals x) : ∃ i, Is s.heap i x := by
  induction h with
  | val hx => obtain ⟨i, _, h⟩ := hv.2 _ hx; exact ⟨i, h⟩
  | @part x y _ hy ih =>
    obtain ⟨i, hi⟩ := ih
    obtain ⟨o, ho⟩ := is_live hi
    obtain ⟨_, hl, hp⟩ := hi.parts ho 0
    obtain ⟨m, hm⟩ := List.mem_iff_getElem?.1 hy
    have hlt : m < o.refs.length := by
      rw [hl]
      exact (List.getElem?_eq_some_iff.1 hm).1
    obtain ⟨z, h1, h2⟩ := hp m _ (List.getElem?_eq_getElem hlt)
    rw [hm] at h1; cases h1
    exact ⟨_, h2⟩

/-- **C72, one object for every part.** When the collector has nothing left to do, no call is running
and there was no race for anything live, there is exactly one object for each of the values that the
variables hold and for each of their parts, and nothing else. -/
theorem C72_objects (s : St V K) (vals : List (Ex K)) (hs : History R s) (hset : Settled s)
    (hidle : ∀ t, s.pc t = .idle) (hclean : ∀ i o, s.heap i = some o → ¬ R o.key)
    (hv : Variables s vals) :
    (∀ x, Part vals x → ∃ i, Is s.heap i x ∧ ∀ j, Is s.heap j x → j = i) ∧
    (∀ i o, s.heap i = some o → ∃ x, Part vals x ∧ Is s.heap i x) := by
  refine ⟨?_, fun i o ho => (live_part hs hset hidle hv i o ho).2⟩
  intro x hx
  obtain ⟨i, hi⟩ := part_live hv hx
  refine ⟨i, hi, fun j hj => ?_⟩
  obtain ⟨o, ho⟩ := is_live hi
  obtain ⟨o', ho'⟩ := is_live hj
  have hri := (live_part hs hset hidle hv i o ho).1.referenced
  have hrj := (live_part hs hset hidle hv j o' ho').1.referenced
  exact (Is.injective hs.inv.1 hri hrj hi hj (fun c oc _ hc => hclean c oc hc)).symm

theorem length_le_of_rel {A B : Type} (r : A → B → Prop) : ∀ (l : List A) (m : List B), l.Nodup →
    (∀ a ∈ l, ∃ b ∈ m, r a b) → (∀ a a' b, a ∈ l → a' ∈ l → b ∈ m → r a b → r a' b → a = a') →
    l.length ≤ m.length := by
  classical
  intro l
  induction l with
  | nil => intro m _ _ _; simp
  | cons a l ih =>
    intro m hn hex hinj
    obtain ⟨hna, hn⟩ := List.nodup_cons.1 hn
    obtain ⟨b, hb, hab⟩ := hex a (by simp)
    have := ih (m.erase b) hn (by
      intro a' ha'
      obtain ⟨b', hb', hab'⟩ := hex a' (by simp [ha'])
      refine ⟨b', (List.mem_erase_of_ne ?_).2 hb', hab'⟩
      rintro rfl
      exact hna (hinj a a' b' (by simp) (by simp [ha']) hb hab hab' ▸ ha'))
      (fun a1 a2 b' h1 h2 hb' => hinj a1 a2 b' (by simp [h1]) (by simp [h2]) (List.mem_of_mem_erase hb'))
    rw [List.length_erase_of_mem hb] at this
    have := List.length_pos_of_mem hb
    simp only [List.length_cons]
    omega

/-- **C72, how many.** The number of live objects is the number of different values among those that
the variables hold and their parts. -/
theorem C72_size (s : St V K) (vals : List (Ex K)) (hs : History R s) (hset : Settled s)
    (hidle : ∀ t, s.pc t = .idle) (hclean : ∀ i o, s.heap i = some o → ¬ R o.key)
    (hv : Variables s vals) (live : List Nat) (hl : live.Nodup)
    (hlive : ∀ i, i ∈ live ↔ ∃ o, s.heap i = some o) (parts : List (Ex K)) (hp : parts.Nodup)
    (hparts : ∀ x, x ∈ parts ↔ Part vals x) : live.length = parts.length := by
  obtain ⟨h1, h2⟩ := C72_objects s vals hs hset hidle hclean hv
  apply Nat.le_antisymm
  · refine length_le_of_rel (fun i x => Is s.heap i x) live parts hl ?_ ?_
    · intro i hi
      obtain ⟨o, ho⟩ := (hlive i).1 hi
      obtain ⟨x, g1, g2⟩ := h2 i o ho
      exact ⟨x, (hparts x).2 g1, g2⟩
    · intro i j x hi _ hx hix hjx
      obtain ⟨c, _, g⟩ := h1 x ((hparts x).1 hx)
      rw [g i hix, g j hjx]
  · refine length_le_of_rel (fun x i => Is s.heap i x) parts live hp ?_ ?_
    · intro x hx
      obtain ⟨i, g1, _⟩ := h1 x ((hparts x).1 hx)
      exact ⟨i, (hlive i).2 (is_live g1), g1⟩
    · intro x y i _ _ _ hx hy
      exact hx.unique hy

/-- **C72, nothing accumulates.** Two moments at which the variables hold the same values: the same
number of objects is live, whatever the program has done before, in between or in another process. -/
theorem C72_same_variables {R' : Key K → Prop} (s s' : St V K) (vals : List (Ex K)) (hs : History R s)
    (hs' : History R' s') (hset : Settled s) (hset' : Settled s') (hidle : ∀ t, s.pc t = .idle)
    (hidle' : ∀ t, s'.pc t = .idle) (hclean : ∀ i o, s.heap i = some o → ¬ R o.key)
    (hclean' : ∀ i o, s'.heap i = some o → ¬ R' o.key) (hv : Variables s vals)
    (hv' : Variables s' vals) (live live' : List Nat) (hl : live.Nodup) (hl' : live'.Nodup)
    (hlive : ∀ i, i ∈ live ↔ ∃ o, s.heap i = some o)
    (hlive' : ∀ i, i ∈ live' ↔ ∃ o, s'.heap i = some o) : live.length = live'.length := by
  have key : ∀ {R R' : Key K → Prop} (s s' : St V K), History R s → History R' s' → Settled s →
      Settled s' → (∀ t, s.pc t = .idle) → (∀ t, s'.pc t = .idle) →
      (∀ i o, s.heap i = some o → ¬ R o.key) → (∀ i o, s'.heap i = some o → ¬ R' o.key) →
      Variables s vals → Variables s' vals → ∀ live live' : List Nat, live.Nodup →
      (∀ i, i ∈ live ↔ ∃ o, s.heap i = some o) → (∀ i, i ∈ live' ↔ ∃ o, s'.heap i = some o) →
      live.length ≤ live'.length := by
    intro R R' s s' hs hs' hset hset' hidle hidle' hclean hclean' hv hv' live live' hl hlive hlive'
    obtain ⟨h1, h2⟩ := C72_objects s vals hs hset hidle hclean hv
    obtain ⟨h1', h2'⟩ := C72_objects s' vals hs' hset' hidle' hclean' hv'
    refine length_le_of_rel (fun i j => ∃ x, Part vals x ∧ Is s.heap i x ∧ Is s'.heap j x) live live' hl
      ?_ ?_
    · intro i hi
      obtain ⟨o, ho⟩ := (hlive i).1 hi
      obtain ⟨x, g1, g2⟩ := h2 i o ho
      obtain ⟨j, g3, _⟩ := h1' x g1
      exact ⟨j, (hlive' j).2 (is_live g3), x, g1, g2, g3⟩
    · rintro i j c _ _ _ ⟨x, p1, p2, p3⟩ ⟨y, q1, q2, q3⟩
      have hxy := p3.unique q3
      subst hxy
      obtain ⟨d, _, g⟩ := h1 x p1
      rw [g i p2, g j q2]
  exact Nat.le_antisymm
    (key s s' hs hs' hset hset' hidle hidle' hclean hclean' hv hv' live live' hl hlive hlive')
    (key s' s hs' hs hset' hset hidle' hidle hclean' hclean hv' hv live' live hl' hlive' hlive)

/-- The parts of a wrapped expression. -/
theorem part_sym {c : Nat} {e : Tree K} (x : Ex K) : Part [.sym c e] x ↔
    x = .sym c e ∨ (∃ t, Spec.OccursIn t e ∧ (x = .tree t ∨ ∃ a, t = .atom a ∧ x = .atom a)) := by
  have snoc : ∀ {e t : Tree K}, Spec.OccursIn t e → ∀ u ∈ Spec.kids true t, Spec.OccursIn u e := by
    intro e t h
    unfold Spec.OccursIn at h ⊢
    induction h with
    | refl h => intro u hu; exact .down h hu (.refl (fun h => h))
    | down h1 h2 _ ih => intro u hu; exact .down h1 h2 (ih u hu)
  constructor
  · intro h
    induction h with
    | val hx => left; simpa using hx
    | @part x y _ hy ih =>
      right
      rcases ih with rfl | ⟨t, ht, rfl | ⟨a, _, rfl⟩⟩
      · simp [Ex.parts] at hy
        exact ⟨e, .refl (fun h => h), Or.inl hy⟩
      · cases t with
        | atom a =>
          simp [Ex.parts] at hy
          exact ⟨.atom a, ht, Or.inr ⟨a, rfl, hy⟩⟩
        | node ts =>
          simp only [Ex.parts, List.mem_map] at hy
          obtain ⟨u, hu, rfl⟩ := hy
          refine ⟨u, snoc ht u ?_, Or.inl rfl⟩
          cases ts with
          | nil => cases hu
          | cons t ts => simpa [Spec.kids] using hu
      · simp [Ex.parts] at hy
  · have htree : ∀ t, Spec.OccursIn t e → Part [.sym c e] (.tree t) := by
      have gen : ∀ {u t : Tree K}, Spec.Reach true (fun _ => False) u t → Part [.sym c e] (.tree u) →
          Part [.sym c e] (.tree t) := by
        intro u t h
        induction h with
        | refl => intro h; exact h
        | @down u d t _ hd _ ih =>
          intro h
          refine ih (.part h ?_)
          cases u with
          | atom a => simp [Spec.kids] at hd
          | node ts =>
            cases ts with
            | nil => simp [Spec.kids] at hd
            | cons t ts => simpa [Spec.kids, Ex.parts] using hd
      intro t h
      exact gen h (.part (x := .sym c e) (.val (by simp)) (by simp [Ex.parts]))
    rintro (rfl | ⟨t, ht, rfl | ⟨a, rfl, rfl⟩⟩)
    · exact .val (by simp)
    · exact htree t ht
    · exact .part (htree _ ht) (by simp [Ex.parts])

/-- **C72, the cost of an expression.** A process whose only variables are for the `Expr` of `e` has one
object for the `Expr`, one for every different subexpression of `e` (heads included), one more for
every different atom — however large `e` is when written out. -/
theorem C72_expr_size (s : St V K) (c : Nat) (e : Tree K) (hs : History R s) (hset : Settled s)
    (hidle : ∀ t, s.pc t = .idle) (hclean : ∀ i o, s.heap i = some o → ¬ R o.key)
    (hv : Variables s [.sym c e]) (live : List Nat) (hl : live.Nodup)
    (hlive : ∀ i, i ∈ live ↔ ∃ o, s.heap i = some o)
    (subs : List (Tree K)) (hsubs : subs.Nodup) (hmem : ∀ t, t ∈ subs ↔ Spec.OccursIn t e)
    (atoms : List (Atom K)) (hatoms : atoms.Nodup)
    (hamem : ∀ a, a ∈ atoms ↔ Spec.OccursIn (.atom a) e) :
    live.length = 1 + subs.length + atoms.length := by
  have := C72_size s [.sym c e] hs hset hidle hclean hv live hl hlive
    (.sym c e :: (subs.map .tree ++ atoms.map .atom)) (by
      refine List.nodup_cons.2 ⟨by simp, List.nodup_append.2 ⟨?_, ?_, ?_⟩⟩
      · exact List.Pairwise.map _ (fun a b h e => h (by injection e)) hsubs
      · exact List.Pairwise.map _ (fun a b h e => h (by injection e)) hatoms
      · intro a ha b hb
        simp only [List.mem_map] at ha hb
        obtain ⟨_, _, rfl⟩ := ha
        obtain ⟨_, _, rfl⟩ := hb
        simp) (by
      intro x
      rw [part_sym]
      simp only [List.mem_cons, List.mem_append, List.mem_map]
      constructor
      · rintro (h | ⟨t, ht, rfl⟩ | ⟨a, ha, rfl⟩)
        · exact Or.inl h
        · exact Or.inr ⟨t, (hmem t).1 ht, Or.inl rfl⟩
        · exact Or.inr ⟨_, (hamem a).1 ha, Or.inr ⟨a, rfl, rfl⟩⟩
      · rintro (h | ⟨t, ht, rfl | ⟨a, rfl, rfl⟩⟩)
        · exact Or.inl h
        · exact Or.inr (Or.inl ⟨t, (hmem t).2 ht, rfl⟩)
        · exact Or.inr (Or.inr ⟨a, (hamem a).2 ht, rfl⟩))
  simp only [List.length_cons, List.length_append, List.length_map] at this
  omega

theorem freesMany_history {s s' : St V K} {n : Nat} (h : FreesMany n s s') :
    ∀ {R : Key K → Prop}, History R s → ∃ R', History R' s' ∧ ∀ k, R' k → R k ∨ Race s k := by
  induction h with
  | zero s => intro R hs; exact ⟨R, hs, fun k h => Or.inl h⟩
  | @step n s s1 s' hf _ ih =>
    intro R hs
    obtain ⟨R', h1, h2⟩ := ih (frees_history hs hf)
    have hr : ∀ k, Race s1 k → Race s k := by
      rintro k ⟨t, t', r, r', i, i', h0, h1, h2, h3⟩
      rw [hf.2.2.1] at h1 h2
      exact ⟨t, t', r, r', i, i', h0, h1, h2, h3⟩
    refine ⟨R', h1, fun k hk => ?_⟩
    rcases h2 k hk with (h | h) | h
    · exact Or.inl h
    · exact Or.inr (hr k h)
    · exact Or.inr (hr k h)

/-- What variables hold is the same after a collection. -/
theorem freesMany_is {s s' : St V K} {n : Nat} (hs : History R s) (h : FreesMany n s s') {i : Nat}
    (hi : i ∈ s.roots) (x : Ex K) (hx : Is s.heap i x) : Is s'.heap i x := by
  induction h generalizing R with
  | zero s => exact hx
  | @step n s s1 s' hf _ ih =>
    obtain ⟨f1, _⟩ := frees_inUse hs hf
    refine ih (frees_history hs hf) (by rw [hf.2.1]; exact hi) ?_
    obtain ⟨hi1, _⟩ := (frees_history hs hf).inv
    exact hx.mono (fun j o ho => step_heap hs.inv.1 hf.1 j o ho)
      (fun j o ho c hc => (hi1.closed j o ho c hc).2) (hi1.roots i (by rw [hf.2.1]; exact hi))

/-- **C72, after a program.** A thread has run a program to its end; nothing is running any more and
the variables of the process are those of the program that have not been dropped.  Then the collector
leaves exactly as many objects as those variables' values, computed without stores, identities, threads
and collector, have different parts. -/
theorem C72_after_program {α : Type} {R' : Key K → Prop} (me : Nat) (s s' s'' : St V K)
    (hs hs' : List (Option Nat)) (vals : List (Ex K)) (p : Prog V K α) (r : PyM α) (n : Nat)
    (hist : History R s) (holds : Holds s hs) (mean : Mean s.heap hs vals)
    (ex : Exec me Clean R ⟨s, hs, p⟩ R' ⟨s', hs', .ofPy r⟩) (hidle : ∀ t, s'.pc t = .idle)
    (hroots : ∀ i ∈ s'.roots, ∃ h, held hs' h = some i)
    (hf : FreesMany n s' s'') (hset : Settled s'') :
    ∃ vals', Yields vals p r vals' ∧
      ∀ (kept parts : List (Ex K)) (live : List Nat),
        (∀ x, x ∈ kept ↔ ∃ h i, held hs' h = some i ∧ vals'[h]? = some x) →
        parts.Nodup → (∀ x, x ∈ parts ↔ Part kept x) →
        live.Nodup → (∀ i, i ∈ live ↔ ∃ o, s''.heap i = some o) → live.length = parts.length := by
  obtain ⟨hist', holds', clean', vals', hy, mean'⟩ := exec_sim hist holds mean ex
  refine ⟨vals', hy, ?_⟩
  intro kept parts live hkept hpn hparts hln hlive
  obtain ⟨R'', hist'', hsub⟩ := freesMany_history hf hist'
  obtain ⟨g1, g2, g3, g4, g5, g6, g7⟩ := C72_no_leak s' s'' hist' n hf hset
  have hidle'' : ∀ t, s''.pc t = .idle := by rw [g6]; exact hidle
  have hrace : ∀ k, R'' k → R' k := by
    intro k hk
    rcases hsub k hk with h | ⟨t, _, r, _, i, _, _, h, _⟩
    · exact h
    · rw [hidle t] at h; cases h
  have hv : Variables s'' kept := by
    constructor
    · intro i hi
      rw [g5] at hi
      obtain ⟨h, hh⟩ := hroots i hi
      obtain ⟨x, h1, h2⟩ := mean'.2 h i hh
      exact ⟨x, (hkept x).2 ⟨h, i, hh, h1⟩, freesMany_is hist' hf hi x h2⟩
    · intro x hx
      obtain ⟨h, i, hh, hxx⟩ := (hkept x).1 hx
      obtain ⟨y, h1, h2⟩ := mean'.2 h i hh
      simp only at h1 h2 hh
      rw [hxx] at h1; cases h1
      have hi : i ∈ s'.roots := holds' h i hh
      exact ⟨i, by rw [g5]; exact hi, freesMany_is hist' hf hi x h2⟩
  refine C72_size s'' kept hist'' hset hidle'' ?_ hv live hln hlive parts hpn hparts
  intro d o ho hk
  -- everything live is within something a handle holds
  have hvis := (live_part hist'' hset hidle'' hv d o ho).1
  have hold : ∀ j o, s''.heap j = some o → s'.heap j = some o := by
    intro j o hj
    by_cases hu : InUse s' j
    · rw [← (g1 j hu).2]; exact hj
    · rw [g2 j hu] at hj; cases hj
  have hwithin : ∃ h i, held hs' h = some i ∧ Within s'.heap i d := by
    clear hk ho
    induction hvis with
    | root hr =>
      rw [g5] at hr
      obtain ⟨h, hh⟩ := hroots _ hr
      exact ⟨h, _, hh, .self⟩
    | arg ha => rw [hidle''] at ha; simp [PC.refs] at ha
    | attr _ ho hj ih =>
      obtain ⟨h, i, hh, hw⟩ := ih
      exact ⟨h, i, hh, .attr hw (hold _ _ ho) hj⟩
  obtain ⟨h, i, hh, hw⟩ := hwithin
  exact clean' h i d o hh hw (hold d o ho) (hrace _ hk)

/-! ### Non-trivial cases -/

/-- A program may drop any of its variables. -/
theorem history_keep (keep : Nat → Prop) : ∀ (n : Nat) (s : St V K), s.roots.length ≤ n →
    History (fun _ => False) s → (∀ t, s.pc t = .idle) → ∃ r : List Nat,
      History (fun _ => False) { s with roots := r } ∧ ∀ i, i ∈ r ↔ i ∈ s.roots ∧ keep i := by
  intro n
  induction n with
  | zero =>
    intro s hn h _
    have : s.roots = [] := List.length_eq_zero_iff.1 (by omega)
    exact ⟨[], by rw [← this]; exact h, by simp [this]⟩
  | succ n ih =>
    intro s hn h hidle
    by_cases hex : ∃ i, i ∈ s.roots ∧ ¬ keep i
    · obtain ⟨i, hi, hk⟩ := hex
      have h' := h.step (.drop s i)
      have hR : (fun k => False ∨ Race { s with roots := s.roots.erase i } k) = fun _ => False := by
        funext k
        apply propext
        constructor
        · rintro (h | ⟨t, _, r, _, i, _, _, h, _⟩)
          · exact h
          · rw [hidle t] at h; cases h
        · exact False.elim
      rw [hR] at h'
      have hlt := List.length_pos_of_mem hi
      obtain ⟨r, h1, h2⟩ := ih { s with roots := s.roots.erase i }
        (by simp only [List.length_erase_of_mem hi]; omega) h' hidle
      refine ⟨r, h1, fun j => ?_⟩
      rw [h2 j]
      constructor
      · rintro ⟨g1, g2⟩; exact ⟨List.mem_of_mem_erase g1, g2⟩
      · rintro ⟨g1, g2⟩
        refine ⟨(List.mem_erase_of_ne ?_).2 g1, g2⟩
        rintro rfl
        exact hk g2
    · refine ⟨s.roots, h, fun i => ⟨fun hi => ⟨hi, ?_⟩, And.left⟩⟩
      apply Classical.byContradiction
      intro hk
      exact hex ⟨i, hi, hk⟩

/-- All hypotheses of `C72_objects`, `C72_size` and `C72_same_variables` are met, for any values that a
process can have made. -/
theorem settled_of_ready {vals kept : List (Ex K)} (hr : Ready V vals) (hk : ∀ x ∈ kept, x ∈ vals) :
    ∃ s : St V K, History (fun _ => False) s ∧ Settled s ∧ (∀ t, s.pc t = .idle) ∧
      Variables s kept := by
  obtain ⟨s, hs, h1, h2, h3, h4, h5⟩ := hr
  obtain ⟨r, g1, g2⟩ := history_keep (fun i => ∃ x ∈ kept, Is s.heap i x) s.roots.length s
    (Nat.le_refl _) h1 h2
  obtain ⟨n, s', f1, f2⟩ := C72_collector_ends _ g1
  obtain ⟨k1, k2, k3, k4, k5, k6, k7⟩ := C72_no_leak _ s' g1 n f1 f2
  obtain ⟨R', hist', hsub⟩ := freesMany_history f1 g1
  have hidle' : ∀ t, s'.pc t = .idle := by rw [k6]; exact h2
  have hR : R' = fun _ => False := by
    funext k
    apply propext
    refine ⟨fun hk => ?_, False.elim⟩
    rcases hsub k hk with h | ⟨t, _, r, _, i, _, _, h, _⟩
    · exact h
    · simp only [h2] at h; cases h
  subst hR
  refine ⟨s', hist', f2, hidle', ?_, ?_⟩
  · intro i hi
    rw [k5] at hi
    obtain ⟨x, hx, hix⟩ := ((g2 i).1 hi).2
    exact ⟨x, hx, freesMany_is g1 f1 hi x hix⟩
  · intro x hx
    obtain ⟨h, hh⟩ := List.mem_iff_getElem?.1 (hk x hx)
    have hlt : h < hs.length := by rw [h4.1]; exact (List.getElem?_eq_some_iff.1 hh).1
    obtain ⟨i, hi⟩ := h5 h hlt
    obtain ⟨y, e1, e2⟩ := h4.2 h i hi
    rw [hh] at e1; cases e1
    have hir : i ∈ r := (g2 i).2 ⟨h3 h i hi, x, hx, e2⟩
    exact ⟨i, by rw [k5]; exact hir, freesMany_is g1 f1 hir x e2⟩

theorem doubled_inj {a : Atom K} {h : Tree K} : ∀ m n : Nat,
    Spec.doubled h (.atom a) m = Spec.doubled h (.atom a) n → m = n := by
  intro m
  induction m with
  | zero => intro n e; cases n with
    | zero => rfl
    | succ n => simp [Spec.doubled] at e
  | succ m ih => intro n e; cases n with
    | zero => simp [Spec.doubled] at e
    | succ n => simp [Spec.doubled] at e; rw [ih n e]

/-- **C72, sharing.** `h(h(...), h(...))` nested `n + 1` times, which has `2 ^ (n + 1)` leaves when
written out, takes `n + 6` objects. -/
theorem C72_shared (s : St V K) (c : Nat) (h x : Atom K) (hne : h ≠ x) (n : Nat) (hs : History R s)
    (hset : Settled s) (hidle : ∀ t, s.pc t = .idle)
    (hclean : ∀ i o, s.heap i = some o → ¬ R o.key)
    (hv : Variables s [.sym c (Spec.doubled (.atom h) (.atom x) (n + 1))]) (live : List Nat)
    (hl : live.Nodup) (hlive : ∀ i, i ∈ live ↔ ∃ o, s.heap i = some o) : live.length = n + 6 := by
  have leaf : ∀ (a : Atom K) (t : Tree K), Spec.OccursIn t (.atom a) ↔ t = .atom a := by
    intro a t
    constructor
    · intro h
      cases h with
      | refl => rfl
      | down _ hc _ => simp [Spec.kids] at hc
    · rintro rfl; exact .refl (fun h => h)
  have hocc : ∀ n (t : Tree K), Spec.OccursIn t (Spec.doubled (.atom h) (.atom x) (n + 1)) ↔
      t = .atom h ∨ ∃ m, m < n + 2 ∧ t = Spec.doubled (.atom h) (.atom x) m := by
    have hstep : ∀ (k : Nat) (t : Tree K),
        Spec.OccursIn t (Spec.doubled (.atom h) (.atom x) (k + 1)) ↔
        t = Spec.doubled (.atom h) (.atom x) (k + 1) ∨ t = .atom h ∨
        Spec.OccursIn t (Spec.doubled (.atom h) (.atom x) k) := by
      intro k t
      constructor
      · intro ht
        cases ht with
        | refl => exact Or.inl rfl
        | down _ hc ht =>
          simp only [Spec.doubled, Spec.kids, if_true, List.mem_cons, List.not_mem_nil, or_false] at hc
          rcases hc with rfl | rfl | rfl
          · exact Or.inr (Or.inl ((leaf h t).1 ht))
          · exact Or.inr (Or.inr ht)
          · exact Or.inr (Or.inr ht)
      · rintro (rfl | rfl | ht)
        · exact .refl (fun h => h)
        · exact .down (fun h => h) (by simp [Spec.doubled, Spec.kids]) (.refl (fun h => h))
        · exact .down (c := Spec.doubled (.atom h) (.atom x) k) (fun h => h)
            (by simp [Spec.doubled, Spec.kids]) ht
    intro n
    induction n with
    | zero =>
      intro t
      rw [hstep]
      constructor
      · rintro (rfl | rfl | ht)
        · exact Or.inr ⟨1, by omega, rfl⟩
        · exact Or.inl rfl
        · exact Or.inr ⟨0, by omega, (leaf x t).1 ht⟩
      · rintro (rfl | ⟨m, hm, rfl⟩)
        · exact Or.inr (Or.inl rfl)
        · match m, hm with
          | 0, _ => exact Or.inr (Or.inr ((leaf x _).2 rfl))
          | 1, _ => exact Or.inl rfl
    | succ n ih =>
      intro t
      rw [hstep, ih]
      constructor
      · rintro (rfl | rfl | rfl | ⟨m, hm, rfl⟩)
        · exact Or.inr ⟨n + 2, by omega, rfl⟩
        · exact Or.inl rfl
        · exact Or.inl rfl
        · exact Or.inr ⟨m, by omega, rfl⟩
      · rintro (rfl | ⟨m, hm, rfl⟩)
        · exact Or.inr (Or.inl rfl)
        · by_cases he : m = n + 2
          · subst he; exact Or.inl rfl
          · exact Or.inr (Or.inr (Or.inr ⟨m, by omega, rfl⟩))
  have hnh : ∀ m, Spec.doubled (.atom h) (.atom x) m ≠ .atom h := by
    intro m e
    cases m with
    | zero => simp [Spec.doubled] at e; exact hne e.symm
    | succ m => simp [Spec.doubled] at e
  have := C72_expr_size s c _ hs hset hidle hclean hv live hl hlive
    (.atom h :: (List.range (n + 2)).map (Spec.doubled (.atom h) (.atom x)))
    (List.nodup_cons.2 ⟨by
        intro hm
        obtain ⟨m, _, e⟩ := List.mem_map.1 hm
        exact hnh m e,
      List.Pairwise.map _ (fun a b hab e => hab (doubled_inj a b e)) List.nodup_range⟩)
    (by
      intro t
      rw [hocc, List.mem_cons, List.mem_map]
      simp only [List.mem_range]
      constructor
      · rintro (h | ⟨m, hm, rfl⟩)
        · exact Or.inl h
        · exact Or.inr ⟨m, hm, rfl⟩
      · rintro (h | ⟨m, hm, rfl⟩)
        · exact Or.inl h
        · exact Or.inr ⟨m, hm, rfl⟩)
    [h, x] (by simp [hne])
    (by
      intro a
      rw [hocc]
      simp only [List.mem_cons, List.not_mem_nil, or_false]
      constructor
      · rintro (rfl | rfl)
        · exact Or.inl rfl
        · exact Or.inr ⟨0, by omega, rfl⟩
      · rintro (e | ⟨m, hm, e⟩)
        · injection e with e; exact Or.inl e
        · cases m with
          | zero => simp [Spec.doubled] at e; exact Or.inr e
          | succ m => simp [Spec.doubled] at e)
  simp only [List.length_cons, List.length_map, List.length_range, List.length_nil] at this
  omega

/-- The live objects of a state, as a list. -/
theorem live_list {s : St V K} (hs : History R s) :
    ∃ live : List Nat, live.Nodup ∧ ∀ i, i ∈ live ↔ ∃ o, s.heap i = some o := by
  refine ⟨(List.range s.next).filter (fun i => (s.heap i).isSome), List.nodup_range.filter _, ?_⟩
  intro i
  rw [List.mem_filter, List.mem_range, Option.isSome_iff_exists]
  exact ⟨And.right, fun ⟨o, ho⟩ => ⟨hs.inv.1.below i o ho, o, ho⟩⟩

/-- For every expression there is a process that has made it, has dropped everything else and has
collected: the hypotheses of `C72_objects`, `C72_size`, `C72_same_variables`, `C72_expr_size` and
`C72_shared` (there is no race at all). -/
theorem C72_expr_runs (hk : ∀ k : K, ∃ v : V, PyVal.key v = k) (c : Nat) (e : Tree K) :
    ∃ (s : St V K) (live : List Nat), History (fun _ => False) s ∧ Settled s ∧
      (∀ t, s.pc t = .idle) ∧ Variables s [.sym c e] ∧ live.Nodup ∧
      ∀ i, i ∈ live ↔ ∃ o, s.heap i = some o := by
  obtain ⟨v1, n, p1, r1, a1⟩ := ready_tree (V := V) hk e [] ready_nil
  obtain ⟨r, v2, hy, p2, ha⟩ := computes_wrap (V := V) c a1
  have hin : Ex.sym c e ∈ v2 := by
    cases r with
    | error => exact ha.elim
    | ok h => exact List.mem_of_getElem? ha
  obtain ⟨s, h1, h2, h3, h4⟩ := settled_of_ready (kept := [.sym c e]) (ready_of_yields r1 hy)
    (by intro x hx; rw [List.mem_singleton.1 hx]; exact hin)
  obtain ⟨live, g1, g2⟩ := live_list h1
  exact ⟨s, live, h1, h2, h3, h4, g1, g2⟩

/-- `f(g(x), y, g(x))`: eleven objects — the `Expr`, six `Tree`s, four `Atom`s. -/
example : letI : PyVal String String := plainVal
    ∃ (s : St String String) (live : List Nat), History (fun _ => False) s ∧ Settled s ∧
      Variables s [.sym 0 Samples.fgxygx] ∧ live.Nodup ∧ (∀ i, i ∈ live ↔ ∃ o, s.heap i = some o) ∧
      live.length = 11 := by
  let _ : PyVal String String := plainVal
  obtain ⟨s, live, h1, h2, h3, h4, h5, h6⟩ :=
    C72_expr_runs (V := String) (fun k => ⟨k, rfl⟩) 0 Samples.fgxygx
  refine ⟨s, live, h1, h2, h4, h5, h6, ?_⟩
  obtain ⟨t1, t2, _⟩ := C05_topological_sort true Samples.fgxygx
  have e : topologicalSort true [] Samples.fgxygx =
      [Samples.f, Samples.g, Samples.x, Samples.gx, Samples.y, Samples.fgxygx] := by decide +kernel
  rw [e] at t1 t2
  exact C72_expr_size s 0 Samples.fgxygx h1 h2 h3 (fun _ _ _ h => h) h4 live h5 h6 _ t2 t1
    [⟨Samples.tyFunction, "f"⟩, ⟨Samples.tyFunction, "g"⟩, ⟨Samples.tySymbol, "x"⟩,
      ⟨Samples.tySymbol, "y"⟩] (by decide) (by
      intro a
      rw [show Spec.OccursIn (.atom a) Samples.fgxygx ↔ _ from (t1 (.atom a)).symm]
      simp [Samples.f, Samples.g, Samples.x, Samples.y, Samples.gx, Samples.fgxygx, Tree.call])

/-- A process in which `Integer(1)` and `Integer(2)` have been made and the second has been dropped,
but not yet collected: the collector has something to do (the hypotheses of `C72_collector_bounded`
and `C72_no_leak`; `C72_collector_ends` has none). -/
example : ∃ (s s' : St PyNum Int) (n : Nat), History (fun _ => False) s ∧ s.heap 0 ≠ none ∧ s.heap 1 ≠ none ∧
    s.table (.atom integerTy 2) = some 1 ∧ InUse s 0 ∧ ¬ InUse s 1 ∧ 0 < n ∧ FreesMany n s s' ∧ Settled s' ∧
    s'.heap 0 ≠ none ∧ s'.heap 1 = none ∧ s'.table (.atom integerTy 2) = none := by
  have ex : ∀ (s : St PyNum Int), (∀ t, t ≠ 0 → s.pc t = .idle) → Exclusive s :=
    fun s h => single_exclusive h
  obtain ⟨s, hist, hidle, hr, hh, ht, hp⟩ : ∃ s : St PyNum Int, History (fun _ => False) s ∧
      (∀ t, s.pc t = .idle) ∧ s.roots = [0] ∧
      (∀ i, s.heap i = if i = 1 then some (.atom integerTy (.int 2)) else
        if i = 0 then some (.atom integerTy (.int 1)) else none) ∧
      (∀ k, s.table k = if k = .atom integerTy 2 then some 1 else
        if k = .atom integerTy 1 then some 0 else none) ∧ s.pending = [] := by
    have r0 : Reach Exclusive (St.init : St PyNum Int) := .init (ex _ (fun _ _ => rfl))
    have r1 := r0.step (.getMiss _ 0 (.atom integerTy (.int 1)) rfl (by simp [Obj.refs]) trivial rfl)
      (ex _ (by intro t ht; simp [St.init, upd, ht]))
    have r2 := r1.step (.alloc _ 0 _ rfl) (ex _ (by intro t ht; simp [St.init, upd, ht]))
    have r3 := r2.step (.setdefaultMiss _ 0 _ _ rfl rfl)
      (ex _ (by intro t ht; simp [St.init, upd, ht]))
    have r4 := r3.step (.setdefaultStore _ 0 _ _ rfl)
      (ex _ (by intro t ht; simp [St.init, upd, ht]))
    have r5 := r4.step (.getMiss _ 0 (.atom integerTy (.int 2)) rfl (by simp [Obj.refs]) trivial rfl)
      (ex _ (by intro t ht; simp [St.init, upd, ht]))
    have r6 := r5.step (.alloc _ 0 _ rfl) (ex _ (by intro t ht; simp [St.init, upd, ht]))
    have r7 := r6.step (.setdefaultMiss _ 0 _ _ rfl rfl)
      (ex _ (by intro t ht; simp [St.init, upd, ht]))
    have r8 := r7.step (.setdefaultStore _ 0 _ _ rfl)
      (ex _ (by intro t ht; simp [St.init, upd, ht]))
    have r9 := r8.step (.drop _ 1) (ex _ (by intro t ht; simp [St.init, upd, ht]))
    obtain ⟨R', hist, hno⟩ := r9.history
    have hR : R' = fun _ => False := funext fun k => propext ⟨hno k, False.elim⟩
    rw [hR] at hist
    refine ⟨_, hist, ?_, rfl, ?_, ?_, rfl⟩
    · intro t
      simp only [St.init, upd]
      split <;> rfl
    · intro i; rfl
    · intro k
      simp only [St.init, upd, Obj.key]
      rfl
  have hvis : ∀ i, Visible s i → i = 0 := by
    intro i hv
    induction hv with
    | root h => rw [hr] at h; simpa using h
    | arg h => rw [hidle] at h; simp [PC.refs] at h
    | attr _ ho hj ih =>
      subst ih
      rw [hh] at ho
      simp at ho
      subst ho
      simp [Obj.refs] at hj
  have hnu : ¬ InUse s 1 := by
    rintro (h | ⟨t, h⟩)
    · exact absurd (hvis 1 h) (by decide)
    · rw [hidle] at h; simp [PC.own] at h
  have h0 : s.heap 0 = some (.atom integerTy (.int 1)) := by rw [hh]; simp
  have h1 : s.heap 1 = some (.atom integerTy (.int 2)) := by rw [hh]; simp
  have t2 : s.table (.atom integerTy 2) = some 1 := by rw [ht]; simp
  obtain ⟨n, s', f1, f2⟩ := C72_collector_ends s hist
  obtain ⟨g1, g2, g3, g4, _⟩ := C72_no_leak s s' hist n f1 f2
  have u0 : InUse s 0 := Or.inl (.root (by rw [hr]; simp))
  have hn : 0 < n := by
    cases f1 with
    | zero => have := g2 1 hnu; rw [h1] at this; cases this
    | step => omega
  refine ⟨s, s', n, hist, (by rw [h0]; simp), (by rw [h1]; simp), t2, u0, hnu, hn, f1, f2, ?_, g2 1 hnu, ?_⟩
  · rw [(g1 0 u0).2, h0]; simp
  · cases hx : s'.table (.atom integerTy 2) with
    | none => rfl
    | some i =>
      have := (g3 _ i).1 hx
      rw [t2] at this
      cases this.1
      exact absurd this.2 hnu

/-- A program may forget any of its variables. -/
theorem exec_forget {α : Type} {me : Nat} {c : Cfg V K α} {s : St V K} {p : Prog V K α}
    (keep : Nat → Prop) : ∀ (n : Nat) (hs : List (Option Nat)),
    Exec me (fun _ c => Exclusive c.st) (fun _ => False) c (fun _ => False) ⟨s, hs, p⟩ →
    Exclusive s → ∃ hs', hs'.length = hs.length ∧
      Exec me (fun _ c => Exclusive c.st) (fun _ => False) c (fun _ => False) ⟨s, hs', p⟩ ∧
      ∀ h, held hs' h = if h < n then (open Classical in if keep h then held hs h else none)
        else held hs h := by
  classical
  intro n
  induction n with
  | zero => intro hs h _; exact ⟨hs, rfl, h, fun h => by simp⟩
  | succ n ih =>
    intro hs h hex
    obtain ⟨hs1, hl, h1, h2⟩ := ih hs h hex
    by_cases hk : keep n
    · refine ⟨hs1, hl, h1, fun h => ?_⟩
      rw [h2]
      by_cases e : h = n
      · subst e; simp [hk]
      · by_cases hlt : h < n
        · simp [hlt, Nat.lt_succ_of_lt hlt]
        · have : ¬ h < n + 1 := by omega
          simp [hlt, this]
    · refine ⟨hs1.set n none, by simpa using hl, h1.step0 (.forget n) hex, fun h => ?_⟩
      by_cases e : h = n
      · subst e
        simp only [Nat.lt_succ_self, if_true, hk, if_false]
        unfold held
        rw [List.getElem?_set]
        by_cases hlt : h < hs1.length <;> simp [hlt]
      · have : held (hs1.set n none) h = held hs1 h := by
          unfold held; rw [List.getElem?_set_ne (by omega)]
        rw [this, h2]
        by_cases hlt : h < n
        · simp [hlt, Nat.lt_succ_of_lt hlt]
        · have : ¬ h < n + 1 := by omega
          simp [hlt, this]

/-- Then the references are dropped. -/
theorem exec_drop {α : Type} {me : Nat} {c : Cfg V K α} {p : Prog V K α} {hs : List (Option Nat)} :
    ∀ (n : Nat) (s : St V K), s.roots.length ≤ n →
    Exec me (fun _ c => Exclusive c.st) (fun _ => False) c (fun _ => False) ⟨s, hs, p⟩ →
    (∀ t, s.pc t = .idle) → Holds s hs → ∃ s' : St V K,
      Exec me (fun _ c => Exclusive c.st) (fun _ => False) c (fun _ => False) ⟨s', hs, p⟩ ∧
      (∀ t, s'.pc t = .idle) ∧ ∀ i, i ∈ s'.roots → ∃ h, held hs h = some i := by
  intro n
  induction n with
  | zero =>
    intro s hn h hidle _
    have : s.roots = [] := List.length_eq_zero_iff.1 (by omega)
    exact ⟨s, h, hidle, by simp [this]⟩
  | succ n ih =>
    intro s hn h hidle hold
    by_cases hex : ∃ i, i ∈ s.roots ∧ ¬ ∃ h, held hs h = some i
    · obtain ⟨i, hi, hk⟩ := hex
      have hlt := List.length_pos_of_mem hi
      have hold' : Holds { s with roots := s.roots.erase i } hs := by
        intro h j hj
        refine (List.mem_erase_of_ne ?_).2 (hold h j hj)
        rintro rfl
        exact hk ⟨h, hj⟩
      refine ih { s with roots := s.roots.erase i }
        (by simp only [List.length_erase_of_mem hi]; omega)
        (h.step0 (.store none (.drop s i) (fun _ _ e => by cases e)
          (fun _ r hr => by simp only [hidle me] at hr; cases hr) hold' (fun h => h))
          (alone_exclusive (me := me) (fun t _ => hidle t))) hidle hold'
    · refine ⟨s, h, hidle, fun i hi => ?_⟩
      apply Classical.byContradiction
      intro hk
      exact hex ⟨i, hi, hk⟩

/-- The hypotheses of `C72_after_program` are met by any program that ends, started in a new process,
whatever it keeps. -/
theorem C72_program_runs {α : Type} (me : Nat) (p : Prog V K α) (r : PyM α) (vals' : List (Ex K))
    (y : Yields [] p r vals') (keep : Nat → Prop) :
    ∃ (s' s'' : St V K) (hs' : List (Option Nat)) (n : Nat),
      Exec me Clean (fun _ => False) ⟨St.init, [], p⟩ (fun _ => False) ⟨s', hs', .ofPy r⟩ ∧
      (∀ t, s'.pc t = .idle) ∧ (∀ i ∈ s'.roots, ∃ h, held hs' h = some i) ∧
      FreesMany n s' s'' ∧ Settled s'' ∧
      ∀ h, h < vals'.length → ((∃ i, held hs' h = some i) ↔ keep h) := by
  classical
  obtain ⟨s1, hs1, h1, h2, h3, h4, h5, h6⟩ := completes_run (me := me) (s := (St.init : St V K))
    (hs := []) (vals := []) .start (fun _ => rfl) (by intro h i hh; simp [held] at hh)
    ⟨rfl, by intro h i hh; simp [held] at hh⟩ (by intro h hh; simp at hh) y
  obtain ⟨hs2, hl, g1, g2⟩ := exec_forget keep hs1.length hs1 h1
    (alone_exclusive (me := me) (fun t _ => h3 t))
  have hold2 : Holds s1 hs2 := by
    intro h i hh
    rw [g2] at hh
    refine h4 h i ?_
    split at hh
    · split at hh
      · exact hh
      · cases hh
    · exact hh
  obtain ⟨s2, f1, f2, f3⟩ := exec_drop s1.roots.length s1 (Nat.le_refl _) g1 h3 hold2
  have ex := (f1.quiet (fun _ h => h)).2
  obtain ⟨hist2, _⟩ := exec_sim (vals := []) .start (by intro h i hh; simp [held] at hh)
    ⟨rfl, by intro h i hh; simp [held] at hh⟩ ex
  obtain ⟨n, s3, k1, k2⟩ := C72_collector_ends s2 hist2
  refine ⟨s2, s3, hs2, n, ex, f2, f3, k1, k2, fun h hh => ?_⟩
  have hlt : h < hs1.length := by rw [h5.1]; exact hh
  rw [g2, if_pos hlt]
  obtain ⟨i, hi⟩ := h6 h hlt
  by_cases hk : keep h
  · simp only [hk, if_true, iff_true]; exact ⟨i, hi⟩
  · simp [hk]

end Verif.Props
