import Verif.Spec.Store
import Verif.Spec.Tree

/-!
# The invariant of the stores
-/

set_option linter.unusedSectionVars false

namespace Verif.Store
variable {V K : Type} [DecidableEq K] [PyVal V K] {G : Key K → Prop}

theorem upd_same {A B : Type} [DecidableEq A] (f : A → B) (a : A) (b : B) : upd f a b a = b := by
  simp [upd]

theorem upd_ne {A B : Type} [DecidableEq A] (f : A → B) {a x : A} (b : B) (h : x ≠ a) :
    upd f a b x = f x := by simp [upd, h]

/-- The arguments of the running call. -/
def PC.req : PC V → Option (Obj V)
  | .idle => none
  | .missed r => some r
  | .fresh r _ => some r
  | .inSetdefault r _ => some r

theorem Obj.key_refs (o : Obj V) : o.key.refs = o.refs := by cases o <;> rfl

theorem PC.refs_req {p : PC V} {r : Obj V} (h : p.req = some r) : p.refs = r.refs := by
  cases p <;> simp [PC.req] at h <;> subst h <;> rfl

/-- What holds in all reachable states; uniqueness only for the keys in `G`. -/
structure Inv (G : Key K → Prop) (s : St V K) : Prop where
  below : ∀ i o, s.heap i = some o → i < s.next
  closed : ∀ i o, s.heap i = some o → ∀ j ∈ o.refs, j < i ∧ (s.heap j).isSome
  typed : ∀ i o, s.heap i = some o → s.WellTyped o
  roots : ∀ i ∈ s.roots, (s.heap i).isSome
  args : ∀ t, ∀ i ∈ (s.pc t).refs, (s.heap i).isSome
  pcTyped : ∀ t r, (s.pc t).req = some r → s.WellTyped r
  ownFresh : ∀ t r i, s.pc t = .fresh r i → s.heap i = some r
  ownSet : ∀ t r i, s.pc t = .inSetdefault r i → s.heap i = some r
  tableKey : ∀ k i o, s.table k = some i → s.heap i = some o → o.key = k
  tableBelow : ∀ k i, s.table k = some i → i < s.next
  keyRefs : ∀ k, s.table k ≠ none → ∀ j ∈ k.refs, (s.heap j).isSome
  unique : ∀ i o, G o.key → s.Referenced i → s.heap i = some o → s.table o.key = some i
  inSet : ∀ t r i, G r.key → s.pc t = .inSetdefault r i → s.deref r.key = none
  pend : ∀ k i, s.table k = some i → s.heap i = none → k ∈ s.pending

theorem Inv.live {s : St V K} (h : Inv G s) {i : Nat} (hr : s.Referenced i) :
    (s.heap i).isSome := by
  rcases hr with hr | ⟨t, hr⟩ | ⟨j, o, h1, h2⟩ | ⟨k, h1, h2⟩
  · exact h.roots i hr
  · exact h.args t i hr
  · exact (h.closed j o h1 i h2).2
  · exact h.keyRefs k h1 i h2

theorem deref_some {s : St V K} {k : Key K} {i : Nat} (h : s.deref k = some i) :
    s.table k = some i ∧ (s.heap i).isSome := by
  unfold St.deref at h
  cases ht : s.table k with
  | none => rw [ht] at h; cases h
  | some j =>
    rw [ht] at h
    simp only at h
    split at h
    · cases h; exact ⟨rfl, by assumption⟩
    · cases h

theorem deref_none {s : St V K} {k : Key K} (h : s.deref k = none) {i : Nat}
    (ht : s.table k = some i) : s.heap i = none := by
  unfold St.deref at h
  rw [ht] at h
  simp only at h
  split at h
  · cases h
  · rename_i hn; simpa using hn

theorem deref_none_iff {s : St V K} {k : Key K} :
    s.deref k = none ↔ ∀ i, s.table k = some i → s.heap i = none := by
  constructor
  · intro h i hi; exact deref_none h hi
  · intro h
    unfold St.deref
    cases ht : s.table k with
    | none => rfl
    | some i => simp [h i ht]

/-- `WellTyped` only looks at the objects referenced. -/
theorem WellTyped.mono {s s' : St V K} {o : Obj V} (h : s.WellTyped o)
    (hh : ∀ j ∈ o.refs, s'.heap j = s.heap j) : s'.WellTyped o := by
  cases o with
  | atom ty v => trivial
  | treeAtom a =>
    obtain ⟨ty, v, h⟩ := h
    exact ⟨ty, v, by rw [hh a (by simp [Obj.refs])]; exact h⟩
  | tree cs =>
    intro c hc
    rw [hh c hc]; exact h c hc
  | sym c t =>
    show (∃ a, s'.heap t = some (.treeAtom a)) ∨ (∃ ds, s'.heap t = some (.tree ds))
    rw [hh t (by simp [Obj.refs])]; exact h

theorem Inv.init : Inv G (St.init : St V K) := by
  constructor <;> intros <;>
    simp_all [St.init, PC.req, PC.refs, St.Referenced]

/-- More references from variables, all to objects that were referenced before or are found in
a store. -/
theorem Inv.addRoot {s : St V K} (h : Inv G s) {i : Nat} (hi : (s.heap i).isSome)
    (hu : ∀ o, G o.key → s.heap i = some o → s.table o.key = some i) :
    Inv G { s with roots := i :: s.roots } := by
  refine ⟨h.below, h.closed, h.typed, ?_, h.args, h.pcTyped, h.ownFresh, h.ownSet, h.tableKey,
    h.tableBelow, h.keyRefs, ?_, h.inSet, h.pend⟩
  · intro j hj
    rcases List.mem_cons.1 hj with rfl | hj
    · exact hi
    · exact h.roots j hj
  · intro j o hg hr ho
    by_cases hji : j = i
    · subst hji; exact hu o hg ho
    · refine h.unique j o hg ?_ ho
      rcases hr with hr | hr
      · rcases List.mem_cons.1 hr with rfl | hr
        · exact absurd rfl hji
        · exact Or.inl hr
      · exact Or.inr hr

/-- A thread forgets its call. -/
theorem Inv.setIdle {s : St V K} (h : Inv G s) (t : Nat) :
    Inv G { s with pc := upd s.pc t .idle } := by
  have hpc : ∀ t', (upd s.pc t .idle) t' = s.pc t' ∨ (upd s.pc t .idle) t' = .idle := by
    intro t'
    by_cases ht : t' = t
    · subst ht; right; simp [upd]
    · left; simp [upd, ht]
  refine ⟨h.below, h.closed, h.typed, h.roots, ?_, ?_, ?_, ?_, h.tableKey,
    h.tableBelow, h.keyRefs, ?_, ?_, h.pend⟩
  · intro t' i hi
    simp only at hi
    rcases hpc t' with e | e <;> rw [e] at hi
    · exact h.args t' i hi
    · simp [PC.refs] at hi
  · intro t' r hr
    simp only at hr
    rcases hpc t' with e | e <;> rw [e] at hr
    · exact h.pcTyped t' r hr
    · simp [PC.req] at hr
  · intro t' r i hr
    simp only at hr
    rcases hpc t' with e | e <;> rw [e] at hr
    · exact h.ownFresh t' r i hr
    · cases hr
  · intro t' r i hr
    simp only at hr
    rcases hpc t' with e | e <;> rw [e] at hr
    · exact h.ownSet t' r i hr
    · cases hr
  · intro i o hg hr ho
    refine h.unique i o hg ?_ ho
    rcases hr with hr | ⟨t', hr⟩ | hr
    · exact Or.inl hr
    · simp only at hr
      rcases hpc t' with e | e <;> rw [e] at hr
      · exact Or.inr (Or.inl ⟨t', hr⟩)
      · simp [PC.refs] at hr
    · exact Or.inr (Or.inr hr)
  · intro t' r i hg hr
    simp only at hr
    rcases hpc t' with e | e <;> rw [e] at hr
    · exact h.inSet t' r i hg hr
    · cases hr

/-- A thread's program counter changes to one with given properties. -/
theorem Inv.setPc {s : St V K} (h : Inv G s) (t : Nat) (p : PC V) (r : Obj V) (hp : p.req = some r)
    (hty : s.WellTyped r) (href : ∀ j ∈ r.refs, s.Referenced j)
    (hf : ∀ r i, p = .fresh r i → s.heap i = some r)
    (hs : ∀ r i, p = .inSetdefault r i → s.heap i = some r ∧ s.deref r.key = none) :
    Inv G { s with pc := upd s.pc t p } := by
  have hpc : ∀ t', (upd s.pc t p) t' = s.pc t' ∨ (upd s.pc t p) t' = p := by
    intro t'
    by_cases ht : t' = t
    · subst ht; right; simp [upd]
    · left; simp [upd, ht]
  refine ⟨h.below, h.closed, h.typed, h.roots, ?_, ?_, ?_, ?_, h.tableKey,
    h.tableBelow, h.keyRefs, ?_, ?_, h.pend⟩
  · intro t' i hi
    simp only at hi
    rcases hpc t' with e | e <;> rw [e] at hi
    · exact h.args t' i hi
    · rw [PC.refs_req hp] at hi
      exact h.live (href i hi)
  · intro t' r' hr
    simp only at hr
    rcases hpc t' with e | e <;> rw [e] at hr
    · exact h.pcTyped t' r' hr
    · rw [hp] at hr; cases hr; exact hty
  · intro t' r' i hr
    simp only at hr
    rcases hpc t' with e | e <;> rw [e] at hr
    · exact h.ownFresh t' r' i hr
    · exact hf r' i hr
  · intro t' r' i hr
    simp only at hr
    rcases hpc t' with e | e <;> rw [e] at hr
    · exact h.ownSet t' r' i hr
    · exact (hs r' i hr).1
  · intro i o hg hr ho
    refine h.unique i o hg ?_ ho
    rcases hr with hr | ⟨t', hr⟩ | hr
    · exact Or.inl hr
    · simp only at hr
      rcases hpc t' with e | e <;> rw [e] at hr
      · exact Or.inr (Or.inl ⟨t', hr⟩)
      · rw [PC.refs_req hp] at hr; exact href i hr
    · exact Or.inr (Or.inr hr)
  · intro t' r' i hg hr
    simp only at hr
    rcases hpc t' with e | e <;> rw [e] at hr
    · exact h.inSet t' r' i hg hr
    · exact (hs r' i hr).2

theorem Inv.allocObj {s : St V K} (h : Inv G s) (r : Obj V) (hty : s.WellTyped r)
    (href : ∀ j ∈ r.refs, s.Referenced j) :
    Inv G { s with heap := upd s.heap s.next (some r), next := s.next + 1 } := by
  have hnew : s.heap s.next = none := by
    cases hn : s.heap s.next with
    | none => rfl
    | some o => exact absurd (h.below _ _ hn) (Nat.lt_irrefl _)
  have hold : ∀ i, (s.heap i).isSome → upd s.heap s.next (some r) i = s.heap i := by
    intro i hi
    refine upd_ne _ _ ?_
    rintro rfl; rw [hnew] at hi; cases hi
  have hlive : ∀ i, (s.heap i).isSome → (upd s.heap s.next (some r) i).isSome := by
    intro i hi; rw [hold i hi]; exact hi
  have hcase : ∀ i o, upd s.heap s.next (some r) i = some o →
      (i = s.next ∧ o = r) ∨ s.heap i = some o := by
    intro i o ho
    by_cases hi : i = s.next
    · subst hi; rw [upd_same] at ho; cases ho; exact Or.inl ⟨rfl, rfl⟩
    · rw [upd_ne _ _ hi] at ho; exact Or.inr ho
  have hbelow : ∀ i, (s.heap i).isSome → i < s.next := by
    intro i hi
    obtain ⟨o, ho⟩ := Option.isSome_iff_exists.1 hi
    exact h.below i o ho
  have href' : ∀ i, St.Referenced { s with heap := upd s.heap s.next (some r), next := s.next + 1 } i →
      s.Referenced i := by
    intro i hr
    rcases hr with hr | hr | ⟨j, o, h1, h2⟩ | hr
    · exact Or.inl hr
    · exact Or.inr (Or.inl hr)
    · rcases hcase j o h1 with ⟨_, rfl⟩ | h1
      · exact href i h2
      · exact Or.inr (Or.inr (Or.inl ⟨j, o, h1, h2⟩))
    · exact Or.inr (Or.inr (Or.inr hr))
  refine ⟨?_, ?_, ?_, ?_, ?_, ?_, ?_, ?_, ?_, ?_, ?_, ?_, ?_, ?_⟩
  · intro i o ho
    rcases hcase i o ho with ⟨rfl, _⟩ | ho
    · exact Nat.lt_succ_self _
    · exact Nat.lt_succ_of_lt (h.below i o ho)
  · intro i o ho j hj
    rcases hcase i o ho with ⟨rfl, rfl⟩ | ho
    · have := h.live (href j hj)
      exact ⟨hbelow j this, hlive j this⟩
    · obtain ⟨h1, h2⟩ := h.closed i o ho j hj
      exact ⟨h1, hlive j h2⟩
  · intro i o ho
    rcases hcase i o ho with ⟨rfl, rfl⟩ | ho
    · exact WellTyped.mono hty (fun j hj => hold j (h.live (href j hj)))
    · exact WellTyped.mono (h.typed i o ho) (fun j hj => hold j (h.closed i o ho j hj).2)
  · intro i hi; exact hlive i (h.roots i hi)
  · intro t i hi; exact hlive i (h.args t i hi)
  · intro t r' hr
    refine WellTyped.mono (h.pcTyped t r' hr) (fun j hj => hold j (h.args t j ?_))
    rw [PC.refs_req hr]; exact hj
  · intro t r' i hr
    have := h.ownFresh t r' i hr
    show upd _ _ _ i = _
    rw [hold i (by rw [this]; rfl)]; exact this
  · intro t r' i hr
    have := h.ownSet t r' i hr
    show upd _ _ _ i = _
    rw [hold i (by rw [this]; rfl)]; exact this
  · intro k i o hk ho
    rcases hcase i o ho with ⟨rfl, _⟩ | ho
    · exact absurd (h.tableBelow k _ hk) (Nat.lt_irrefl _)
    · exact h.tableKey k i o hk ho
  · intro k i hk; exact Nat.lt_succ_of_lt (h.tableBelow k i hk)
  · intro k hk j hj; exact hlive j (h.keyRefs k hk j hj)
  · intro i o hg hr ho
    have hr := href' i hr
    refine h.unique i o hg hr ?_
    rw [← hold i (h.live hr)]; exact ho
  · intro t r' i hg hr
    have := h.inSet t r' i hg hr
    rw [deref_none_iff] at this ⊢
    intro j hj
    show upd _ _ _ j = none
    have hj' := h.tableBelow _ _ hj
    rw [upd_ne _ _ (by omega)]
    exact this j hj
  · intro k i hk hi
    refine h.pend k i hk ?_
    have := h.tableBelow k i hk
    rw [← upd_ne s.heap (some r) (show i ≠ s.next by omega)]; exact hi

theorem Inv.store {s : St V K} (h : Inv G s) {t : Nat} {r : Obj V} {i : Nat}
    (hpc : s.pc t = .inSetdefault r i)
    (hex : ∀ t' r' i', G r.key → s.pc t' = .inSetdefault r' i' → r'.key = r.key → t' = t) :
    Inv G { s with table := upd s.table r.key (some i), roots := i :: s.roots,
                   pc := upd s.pc t .idle } := by
  have h' := h.setIdle t
  have hi : s.heap i = some r := h.ownSet t r i hpc
  have hd := fun hg => h.inSet t r i hg hpc
  have hargs : ∀ j ∈ r.refs, s.Referenced j :=
    fun j hj => Or.inr (Or.inl ⟨t, by rw [hpc]; exact hj⟩)
  have hpc' : ∀ t' p, upd s.pc t .idle t' = p → p ≠ .idle → t' ≠ t ∧ s.pc t' = p := by
    intro t' p hp hne
    by_cases ht : t' = t
    · subst ht; rw [upd_same] at hp; exact absurd hp.symm hne
    · rw [upd_ne _ _ ht] at hp; exact ⟨ht, hp⟩
  have hrefd : ∀ j, St.Referenced
      { s with table := upd s.table r.key (some i), roots := i :: s.roots, pc := upd s.pc t .idle }
      j → j = i ∨ s.Referenced j := by
    intro j hr
    rcases hr with hr | ⟨t', hr⟩ | hr | ⟨k, h1, h2⟩
    · rcases List.mem_cons.1 hr with rfl | hr
      · exact Or.inl rfl
      · exact Or.inr (Or.inl hr)
    · simp only at hr
      by_cases ht : t' = t
      · subst ht; rw [upd_same] at hr; simp [PC.refs] at hr
      · rw [upd_ne _ _ ht] at hr; exact Or.inr (Or.inr (Or.inl ⟨t', hr⟩))
    · exact Or.inr (Or.inr (Or.inr (Or.inl hr)))
    · by_cases hk : k = r.key
      · subst hk; rw [Obj.key_refs] at h2; exact Or.inr (hargs j h2)
      · simp only at h1
        rw [upd_ne _ _ hk] at h1
        exact Or.inr (Or.inr (Or.inr (Or.inr ⟨k, h1, h2⟩)))
  refine ⟨h.below, h.closed, h.typed, ?_, h'.args, h'.pcTyped, h'.ownFresh, h'.ownSet, ?_, ?_, ?_,
    ?_, ?_, ?_⟩
  · intro j hj
    rcases List.mem_cons.1 hj with rfl | hj
    · show (s.heap j).isSome; rw [hi]; rfl
    · exact h.roots j hj
  · intro k j o hk ho
    by_cases hkk : k = r.key
    · subst hkk
      simp only at hk
      rw [upd_same] at hk; cases hk
      have ho : s.heap i = some o := ho
      rw [hi] at ho; cases ho; rfl
    · simp only at hk
      rw [upd_ne _ _ hkk] at hk
      exact h.tableKey k j o hk ho
  · intro k j hk
    by_cases hkk : k = r.key
    · subst hkk
      simp only at hk
      rw [upd_same] at hk; cases hk
      exact h.below _ _ hi
    · simp only at hk
      rw [upd_ne _ _ hkk] at hk
      exact h.tableBelow k j hk
  · intro k hk j hj
    by_cases hkk : k = r.key
    · subst hkk; rw [Obj.key_refs] at hj; exact h.live (hargs j hj)
    · simp only at hk
      rw [upd_ne _ _ hkk] at hk
      exact h.keyRefs k hk j hj
  · intro j o hg hr ho
    have ho : s.heap j = some o := ho
    show upd s.table r.key (some i) o.key = some j
    rcases hrefd j hr with rfl | hr
    · rw [hi] at ho; cases ho; exact upd_same _ _ _
    · have hu := h.unique j o hg hr ho
      by_cases hkk : o.key = r.key
      · rw [hkk] at hu hg
        rw [deref_none (hd hg) hu] at ho; cases ho
      · rw [upd_ne _ _ hkk]; exact hu
  · intro t' r' i' hg hp
    obtain ⟨hne, hp⟩ := hpc' t' _ hp (by simp)
    have hkk : r'.key ≠ r.key := fun hk => hne (hex t' r' i' (hk ▸ hg) hp hk)
    have := h.inSet t' r' i' hg hp
    rw [deref_none_iff] at this ⊢
    intro j hj
    simp only at hj
    rw [upd_ne _ _ hkk] at hj
    exact this j hj
  · intro k j hk hj
    by_cases hkk : k = r.key
    · subst hkk
      simp only at hk
      rw [upd_same] at hk; cases hk
      have hj : s.heap i = none := hj
      rw [hi] at hj; cases hj
    · simp only at hk
      rw [upd_ne _ _ hkk] at hk
      exact h.pend k j hk hj

theorem Inv.dropRoots {s : St V K} (h : Inv G s) (l : List Nat) (hl : ∀ i ∈ l, i ∈ s.roots) :
    Inv G { s with roots := l } := by
  refine ⟨h.below, h.closed, h.typed, fun i hi => h.roots i (hl i hi), h.args, h.pcTyped,
    h.ownFresh, h.ownSet, h.tableKey, h.tableBelow, h.keyRefs, ?_, h.inSet, h.pend⟩
  intro i o hg hr ho
  refine h.unique i o hg ?_ ho
  rcases hr with hr | hr
  · exact Or.inl (hl i hr)
  · exact Or.inr hr

theorem Inv.collectObj {s : St V K} (h : Inv G s) {i : Nat} {o : Obj V} (hi : s.heap i = some o)
    (hun : ¬ s.Referenced i) (hown : ∀ t, (s.pc t).own ≠ some i) :
    Inv G { s with heap := upd s.heap i none,
                   pending := if s.table o.key = some i then o.key :: s.pending else s.pending } := by
  have hne : ∀ j o', upd s.heap i none j = some o' → j ≠ i ∧ s.heap j = some o' := by
    intro j o' ho
    by_cases hj : j = i
    · subst hj; rw [upd_same] at ho; cases ho
    · rw [upd_ne _ _ hj] at ho; exact ⟨hj, ho⟩
  have hkeep : ∀ j, s.Referenced j → upd s.heap i none j = s.heap j := by
    intro j hr; refine upd_ne _ _ ?_; rintro rfl; exact hun hr
  have hlive : ∀ j, s.Referenced j → (upd s.heap i none j).isSome := by
    intro j hr; rw [hkeep j hr]; exact h.live hr
  have hattr : ∀ j o', s.heap j = some o' → ∀ c ∈ o'.refs, s.Referenced c :=
    fun j o' ho c hc => Or.inr (Or.inr (Or.inl ⟨j, o', ho, hc⟩))
  refine ⟨?_, ?_, ?_, ?_, ?_, ?_, ?_, ?_, ?_, h.tableBelow, ?_, ?_, ?_, ?_⟩
  · intro j o' ho; exact h.below j o' (hne j o' ho).2
  · intro j o' ho c hc
    have ho := (hne j o' ho).2
    exact ⟨(h.closed j o' ho c hc).1, hlive c (hattr j o' ho c hc)⟩
  · intro j o' ho
    have ho := (hne j o' ho).2
    exact WellTyped.mono (h.typed j o' ho) (fun c hc => hkeep c (hattr j o' ho c hc))
  · intro j hj; exact hlive j (Or.inl hj)
  · intro t j hj; exact hlive j (Or.inr (Or.inl ⟨t, hj⟩))
  · intro t r hr
    refine WellTyped.mono (h.pcTyped t r hr) (fun c hc => hkeep c (Or.inr (Or.inl ⟨t, ?_⟩)))
    rw [PC.refs_req hr]; exact hc
  · intro t r j hp
    have := h.ownFresh t r j hp
    show upd _ _ _ j = _
    rw [upd_ne]
    · exact this
    · rintro rfl
      refine hown t ?_
      have hp : s.pc t = _ := hp
      rw [hp]; rfl
  · intro t r j hp
    have := h.ownSet t r j hp
    show upd _ _ _ j = _
    rw [upd_ne]
    · exact this
    · rintro rfl
      refine hown t ?_
      have hp : s.pc t = _ := hp
      rw [hp]; rfl
  · intro k j o' hk ho; exact h.tableKey k j o' hk (hne j o' ho).2
  · intro k hk j hj; exact hlive j (Or.inr (Or.inr (Or.inr ⟨k, hk, hj⟩)))
  · intro j o' hg hr ho
    refine h.unique j o' hg ?_ (hne j o' ho).2
    rcases hr with hr | hr | ⟨c, o'', h1, h2⟩ | hr
    · exact Or.inl hr
    · exact Or.inr (Or.inl hr)
    · exact Or.inr (Or.inr (Or.inl ⟨c, o'', (hne c o'' h1).2, h2⟩))
    · exact Or.inr (Or.inr (Or.inr hr))
  · intro t r j hg hp
    have := h.inSet t r j hg hp
    rw [deref_none_iff] at this ⊢
    intro c hc
    show upd _ _ _ c = none
    by_cases hci : c = i
    · subst hci; exact upd_same _ _ _
    · rw [upd_ne _ _ hci]; exact this c hc
  · intro k j hk hj
    show k ∈ ite _ _ _
    by_cases hji : j = i
    · subst hji
      have : o.key = k := h.tableKey k j o hk hi
      have hk : s.table k = some j := hk
      rw [← this] at hk
      rw [if_pos hk, this]; simp
    · have hj : upd s.heap i none j = none := hj
      rw [upd_ne _ _ hji] at hj
      have := h.pend k j hk hj
      split
      · exact List.mem_cons_of_mem _ this
      · exact this

theorem Inv.runCallback {s : St V K} (h : Inv G s) (k : Key K) :
    Inv G { s with table := if s.deref k = none then upd s.table k none else s.table,
                   pending := s.pending.erase k } := by
  have htab : ∀ k' i, (if s.deref k = none then upd s.table k none else s.table) k' = some i →
      s.table k' = some i ∧ (k' = k → s.deref k ≠ none) := by
    intro k' i hk
    split at hk
    · by_cases hkk : k' = k
      · subst hkk; rw [upd_same] at hk; cases hk
      · rw [upd_ne _ _ hkk] at hk; exact ⟨hk, fun e => absurd e hkk⟩
    · exact ⟨hk, fun _ => by assumption⟩
  have htab' : ∀ k', (if s.deref k = none then upd s.table k none else s.table) k' ≠ none →
      s.table k' ≠ none := by
    intro k' hk
    obtain ⟨i, hi⟩ := Option.ne_none_iff_exists'.1 hk
    rw [(htab k' i hi).1]; simp
  refine ⟨h.below, h.closed, h.typed, h.roots, h.args, h.pcTyped, h.ownFresh, h.ownSet, ?_, ?_,
    ?_, ?_, ?_, ?_⟩
  · intro k' i o hk ho; exact h.tableKey k' i o (htab k' i hk).1 ho
  · intro k' i hk; exact h.tableBelow k' i (htab k' i hk).1
  · intro k' hk j hj; exact h.keyRefs k' (htab' k' hk) j hj
  · intro i o hg hr ho
    have hu : s.table o.key = some i := by
      refine h.unique i o hg ?_ ho
      rcases hr with hr | hr | hr | ⟨k', h1, h2⟩
      · exact Or.inl hr
      · exact Or.inr (Or.inl hr)
      · exact Or.inr (Or.inr (Or.inl hr))
      · exact Or.inr (Or.inr (Or.inr ⟨k', htab' k' h1, h2⟩))
    show (if s.deref k = none then upd s.table k none else s.table) o.key = some i
    split
    · rename_i hd
      rw [upd_ne]
      · exact hu
      · rintro rfl
        have ho : s.heap i = some o := ho
        rw [deref_none hd hu] at ho; cases ho
    · exact hu
  · intro t r i hg hp
    have := h.inSet t r i hg hp
    rw [deref_none_iff] at this ⊢
    intro j hj
    exact this j (htab _ j hj).1
  · intro k' i hk hi
    obtain ⟨h1, h2⟩ := htab k' i hk
    have hp := h.pend k' i h1 hi
    by_cases hkk : k' = k
    · exfalso
      apply h2 hkk
      subst hkk
      rw [deref_none_iff]
      intro j hj
      rw [h1] at hj; cases hj; exact hi
    · exact (List.mem_erase_of_ne hkk).2 hp

theorem Inv.step {s s' : St V K} {e : Option (Event V)} (h : Inv G s) (hex : ∀ k, G k → ¬ Race s k)
    (hs : Step s e s') : Inv G s' := by
  cases hs with
  | getHit t r i hpc hargs hty hd =>
    obtain ⟨h1, h2⟩ := deref_some hd
    exact h.addRoot h2 (fun o _ ho => by rw [h.tableKey _ _ _ h1 ho]; exact h1)
  | getMiss t r hpc hargs hty hd =>
    exact h.setPc t (.missed r) r rfl hty (fun j hj => Or.inl (hargs j hj))
      (fun r i e => (by cases e)) (fun r i e => (by cases e))
  | alloc t r hpc =>
    have hty : s.WellTyped r := h.pcTyped t r (by rw [hpc]; rfl)
    have href : ∀ j ∈ r.refs, s.Referenced j :=
      fun j hj => Or.inr (Or.inl ⟨t, by rw [hpc]; exact hj⟩)
    have h1 := h.allocObj r hty href
    refine Inv.setPc h1 t (.fresh r s.next) r rfl (h1.pcTyped t r (by
        show (s.pc t).req = _; rw [hpc]; rfl)) ?_ ?_ (fun r i e => (by cases e))
    · intro j hj; exact Or.inr (Or.inl ⟨t, by show j ∈ (s.pc t).refs; rw [hpc]; exact hj⟩)
    · intro r' i e
      cases e
      exact upd_same _ _ _
  | setdefaultHit t r i j hpc hd =>
    obtain ⟨h1, h2⟩ := deref_some hd
    exact (h.addRoot h2 (fun o _ ho => by rw [h.tableKey _ _ _ h1 ho]; exact h1)).setIdle t
  | setdefaultMiss t r i hpc hd =>
    refine h.setPc t (.inSetdefault r i) r rfl (h.pcTyped t r (by rw [hpc]; rfl)) ?_
      (fun r i e => (by cases e)) ?_
    · intro j hj; exact Or.inr (Or.inl ⟨t, by rw [hpc]; exact hj⟩)
    · intro r' i' e; cases e
      exact ⟨h.ownFresh t r i hpc, hd⟩
  | setdefaultStore t r i hpc =>
    exact h.store hpc (fun t' r' i' hg hp hk => Classical.byContradiction fun hne =>
      hex _ hg ⟨t', t, r', r, i', i, hne, hp, hpc, hk, rfl⟩)
  | interrupt t hpc => exact h.setIdle t
  | load i j o hr ho hj =>
    have href : s.Referenced j := Or.inr (Or.inr (Or.inl ⟨i, o, ho, hj⟩))
    exact h.addRoot (h.live href) (fun o' hg ho' => h.unique j o' hg href ho')
  | drop i => exact h.dropRoots _ (fun j hj => List.mem_of_mem_erase hj)
  | collect i o hi hun hown => exact h.collectObj hi hun hown
  | callback k hk => exact h.runCallback k

theorem Inv.mono {G' : Key K → Prop} {s : St V K} (h : Inv G s) (hg : ∀ k, G' k → G k) :
    Inv G' s :=
  ⟨h.below, h.closed, h.typed, h.roots, h.args, h.pcTyped, h.ownFresh, h.ownSet, h.tableKey,
    h.tableBelow, h.keyRefs, fun i o hk => h.unique i o (hg _ hk),
    fun t r i hk => h.inSet t r i (hg _ hk), h.pend⟩

/-- Uniqueness holds for the keys for which there never was a race. -/
theorem History.inv {R : Key K → Prop} {s : St V K} (h : History R s) :
    Inv (fun k => ¬ R k) s ∧ ∀ k, ¬ R k → ¬ Race s k := by
  induction h with
  | start => exact ⟨Inv.init, fun k _ ⟨_, _, _, _, _, _, _, h, _⟩ => by cases h⟩
  | step _ hs ih =>
    exact ⟨(ih.1.step ih.2 hs).mono (fun k hk hr => hk (Or.inl hr)), fun k hk hr => hk (Or.inr hr)⟩

theorem exclusive_race {s : St V K} (h : Exclusive s) (k : Key K) : ¬ Race s k := by
  rintro ⟨t, t', r, r', i, i', hne, h1, h2, h3, h4⟩
  exact hne (h t t' r r' i i' h1 h2 (h3.trans h4.symm))

/-- Executions in which setdefault is exclusive are histories without races. -/
theorem Reach.history {s : St V K} (h : Reach Exclusive s) :
    ∃ R, History R s ∧ ∀ k, ¬ R k := by
  induction h with
  | init _ => exact ⟨_, .start, fun _ h => h⟩
  | step _ hs hp ih =>
    obtain ⟨R, h1, h2⟩ := ih
    exact ⟨_, h1.step hs, fun k hk => hk.elim (h2 k) (exclusive_race hp k)⟩

theorem Reach.inv {s : St V K} (h : Reach Exclusive s) : Inv (fun _ => True) s ∧ Exclusive s := by
  obtain ⟨R, h1, h2⟩ := h.history
  refine ⟨h1.inv.1.mono (fun k _ => h2 k), ?_⟩
  cases h with
  | init hp => exact hp
  | step _ _ hp => exact hp

/-- What the program sees is referenced. -/
theorem Visible.referenced {s : St V K} {i : Nat} (h : Visible s i) : s.Referenced i := by
  cases h with
  | root h => exact Or.inl h
  | arg h => exact Or.inr (Or.inl ⟨_, h⟩)
  | attr h1 h2 h3 => exact Or.inr (Or.inr (Or.inl ⟨_, _, h2, h3⟩))

theorem Inv.same {s : St V K} (h : Inv G s) {i j : Nat} {o o' : Obj V} (hi : s.Referenced i)
    (hj : s.Referenced j) (ho : s.heap i = some o) (ho' : s.heap j = some o')
    (hk : o.key = o'.key) (hg : G o.key) : i = j := by
  have h1 := h.unique i o hg hi ho
  have h2 := h.unique j o' (hk ▸ hg) hj ho'
  rw [hk, h2] at h1
  exact (Option.some.inj h1).symm

end Verif.Store
