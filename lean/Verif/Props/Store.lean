import Verif.Lemmas.Store
import Verif.Lemmas.Topo

/-!
# C01–C04: the global stores
-/

set_option linter.unusedSectionVars false

namespace Verif.Props
open Verif.Store
variable {V K : Type} [DecidableEq K] [PyVal V K] {G R : Key K → Prop}

/-- Induction on expressions, by constructor. -/
theorem Tree.cases {P : Tree K → Prop} (atom : ∀ a, P (.atom a))
    (node : ∀ ts, (∀ t ∈ ts, P t) → P (.node ts)) (t : Tree K) : P t := by
  induction t using Tree.induction with
  | _ t ih =>
    cases t with
    | atom a => exact atom a
    | node ts => exact node ts ih

/-! ### Steps -/

theorem step_heap {s s' : St V K} {e : Option (Event V)} (hi : Inv G s) (h : Step s e s')
    (i : Nat) (o : Obj V) (ho : s.heap i = some o) : s'.heap i = some o ∨ s'.heap i = none := by
  cases h with
  | alloc t r hpc =>
    left
    show upd _ _ _ i = _
    have := hi.below i o ho
    rw [upd_ne _ _ (by omega)]; exact ho
  | collect j o' hj hun hown =>
    show upd _ _ _ i = _ ∨ upd _ _ _ i = _
    by_cases hij : i = j
    · right; rw [hij]; exact upd_same _ _ _
    · left; rw [upd_ne _ _ hij]; exact ho
  | _ => exact Or.inl ho

/-- The object returned by a call, in the state after it. -/
theorem ret_object {s s' : St V K} (hi : Inv G s) {t : Nat} {r : Obj V} {i : Nat}
    (h : Step s (some (.ret t r i)) s') :
    i ∈ s'.roots ∧ ∃ o, s'.heap i = some o ∧ o.key = r.key := by
  cases h with
  | getHit _ _ _ hpc hargs hty hd =>
    obtain ⟨h1, h2⟩ := deref_some hd
    obtain ⟨o, ho⟩ := Option.isSome_iff_exists.1 h2
    exact ⟨by simp, o, ho, hi.tableKey _ _ _ h1 ho⟩
  | setdefaultHit _ _ i' _ hpc hd =>
    obtain ⟨h1, h2⟩ := deref_some hd
    obtain ⟨o, ho⟩ := Option.isSome_iff_exists.1 h2
    exact ⟨by simp, o, ho, hi.tableKey _ _ _ h1 ho⟩
  | setdefaultStore _ _ _ hpc =>
    exact ⟨by simp, r, hi.ownSet t r i hpc, rfl⟩

theorem ret_heap {s s' : St V K} {t : Nat} {r : Obj V} {i : Nat}
    (h : Step s (some (.ret t r i)) s') : s'.heap = s.heap := by
  cases h <;> rfl

theorem ret_referenced {s s' : St V K} {t : Nat} {r : Obj V} {i : Nat} (hi : Inv G s)
    (h : Step s (some (.ret t r i)) s') {j : Nat} (hj : s.Referenced j) {o : Obj V}
    (ho : s.heap j = some o) (hk : o.key = r.key) (hg : G r.key) : i = j := by
  have hu := hi.unique j o (hk ▸ hg) hj ho
  rw [hk] at hu
  cases h with
  | getHit _ _ _ hpc hargs hty hd =>
    have := (deref_some hd).1
    rw [hu] at this; exact (Option.some.inj this).symm
  | setdefaultHit _ _ i' _ hpc hd =>
    have := (deref_some hd).1
    rw [hu] at this; exact (Option.some.inj this).symm
  | setdefaultStore _ _ _ hpc =>
    rw [deref_none (hi.inSet t r i hg hpc) hu] at ho; cases ho

/-! ### C01 -/

theorem ret_atom {s s' : St V K} (hi : Inv G s) {t : Nat} {ty : AtomType} {v : V} {i : Nat}
    (h : Step s (some (.ret t (.atom ty v) i)) s') :
    ∃ v', s'.heap i = some (.atom ty v') ∧ PyVal.key v' = PyVal.key v := by
  obtain ⟨h1, o, h2, h3⟩ := ret_object hi h
  cases o with
  | atom ty' v' =>
    simp only [Obj.key, Key.atom.injEq] at h3
    obtain ⟨rfl, h3⟩ := h3
    exact ⟨v', h2, h3⟩
  | treeAtom a => simp [Obj.key] at h3
  | tree cs => simp [Obj.key] at h3
  | sym c a => simp [Obj.key] at h3

/-- **C01, any schedule.** In every execution: when a call `atom_type(value)` returns the atom `i`,
that atom has the requested atom type and a value equal to the requested one; it is none of the
atoms of other types or values that the program holds; and it is the very atom of that type and value
that the program holds, if it holds one, unless two threads have been inside `setdefault` for that
type and value at the same time. -/
theorem C01_any_schedule (s s' : St V K) (hs : History R s) (t : Nat) (ty : AtomType)
    (v : V) (i : Nat) (h : Step s (some (.ret t (.atom ty v) i)) s') :
    Visible s' i ∧
    (∃ v', s'.heap i = some (.atom ty v') ∧ PyVal.key v' = PyVal.key v) ∧
    (∀ j ty' v', Visible s j → s.heap j = some (.atom ty' v') →
      (i = j → ty' = ty ∧ PyVal.key v' = PyVal.key v) ∧
      (¬ R (.atom ty (PyVal.key v)) → ty' = ty → PyVal.key v' = PyVal.key v → i = j)) := by
  obtain ⟨hi, _⟩ := hs.inv
  have hobj := ret_atom hi h
  refine ⟨.root (ret_object hi h).1, hobj, ?_⟩
  intro j ty' v' hv hj
  refine ⟨?_, ?_⟩
  · rintro rfl
    obtain ⟨w, h4, h5⟩ := hobj
    rw [ret_heap h, hj] at h4
    cases h4
    exact ⟨rfl, h5⟩
  · rintro hR rfl hk
    exact ret_referenced hi h hv.referenced hj (by simp [Obj.key, hk]) hR

/-- **C01.** In every execution in which no two threads are inside `setdefault` for the same
key at the same time: when a call `atom_type(value)` returns the atom `i`, that atom has the
requested atom type and a value equal to the requested one, and among all atoms `j` that the
program holds at that time, `i` is the same object as `j` exactly when the types are the same
and the values are equal. -/
theorem C01_atoms_unique (s s' : St V K) (hs : Reach Exclusive s) (t : Nat) (ty : AtomType)
    (v : V) (i : Nat) (h : Step s (some (.ret t (.atom ty v) i)) s') :
    Visible s' i ∧
    (∃ v', s'.heap i = some (.atom ty v') ∧ PyVal.key v' = PyVal.key v) ∧
    (∀ j ty' v', Visible s j → s.heap j = some (.atom ty' v') →
      (i = j ↔ ty' = ty ∧ PyVal.key v' = PyVal.key v)) := by
  obtain ⟨R, hR, hno⟩ := hs.history
  obtain ⟨h1, h2, h3⟩ := C01_any_schedule s s' hR t ty v i h
  exact ⟨h1, h2, fun j ty' v' hv hj => ⟨(h3 j ty' v' hv hj).1,
    fun hk => (h3 j ty' v' hv hj).2 (hno _) hk.1 hk.2⟩⟩

/-! ### C02 -/

theorem Stands.unique {heap : Nat → Option (Obj V)} (t : Tree K) :
    ∀ (i : Nat) (t' : Tree K), Stands heap i t → Stands heap i t' → t = t' := by
  induction t using Tree.cases with
  | atom a =>
    intro i t' h h'
    unfold Stands at h
    obtain ⟨j, v, h1, h2, h3⟩ := h
    cases t' with
    | atom b =>
      unfold Stands at h'
      obtain ⟨j', v', g1, g2, g3⟩ := h'
      rw [h1] at g1; cases g1
      obtain ⟨ta, va⟩ := a
      obtain ⟨tb, vb⟩ := b
      simp only at h2 h3 g2 g3
      rw [h2] at g2; cases g2
      rw [← h3, ← g3]
    | node ts =>
      unfold Stands at h'
      obtain ⟨cs, g1, _⟩ := h'
      rw [h1] at g1; cases g1
  | node ts ih =>
    intro i t' h h'
    unfold Stands at h
    obtain ⟨cs, h1, h2⟩ := h
    cases t' with
    | atom b =>
      unfold Stands at h'
      obtain ⟨j', v', g1, _⟩ := h'
      rw [h1] at g1; cases g1
    | node ts' =>
      unfold Stands at h'
      obtain ⟨cs', g1, g2⟩ := h'
      rw [h1] at g1; cases g1
      congr 1
      clear h1
      induction ts generalizing cs ts' with
      | nil =>
        cases cs with
        | nil => cases ts' with
          | nil => rfl
          | cons => simp [StandsAll] at g2
        | cons => simp [StandsAll] at h2
      | cons t ts ihts =>
        cases cs with
        | nil => simp [StandsAll] at h2
        | cons c cs =>
          cases ts' with
          | nil => simp [StandsAll] at g2
          | cons t' ts' =>
            unfold StandsAll at h2 g2
            rw [ih t (by simp) c t' h2.1 g2.1,
              ihts (fun t ht => ih t (by simp [ht])) cs h2.2 ts' g2.2]

theorem Stands.exists {s : St V K} (hi : Inv G s) :
    ∀ (n i : Nat), i < n → IsTree s i → ∃ t : Tree K, Stands s.heap i t := by
  intro n
  induction n with
  | zero => intro i h; cases h
  | succ n ih =>
    intro i hn ht
    rcases ht with ⟨a, h⟩ | ⟨cs, h⟩
    · obtain ⟨ty, v, ha⟩ := hi.typed i _ h
      exact ⟨.atom ⟨ty, PyVal.key v⟩, by unfold Stands; exact ⟨a, v, h, ha, rfl⟩⟩
    · have hty := hi.typed i _ h
      have hcl := hi.closed i _ h
      have : ∀ ds : List Nat, (∀ d ∈ ds, d ∈ cs) → ∃ ts, StandsAll s.heap ds ts := by
        intro ds
        induction ds with
        | nil => intro _; exact ⟨[], by simp [StandsAll]⟩
        | cons d ds ihd =>
          intro hd
          obtain ⟨ts, h1⟩ := ihd (fun e he => hd e (by simp [he]))
          have hdc := hd d (by simp)
          have hlt := (hcl d hdc).1
          obtain ⟨t, h2⟩ := ih d (by omega) (hty d hdc)
          exact ⟨t :: ts, by unfold StandsAll; exact ⟨h2, h1⟩⟩
      obtain ⟨ts, hts⟩ := this cs (fun d hd => hd)
      exact ⟨.node ts, by unfold Stands; exact ⟨cs, h, hts⟩⟩

theorem within_trans {heap : Nat → Option (Obj V)} {i c d : Nat} (h : Within heap i c)
    (h' : Within heap c d) : Within heap i d := by
  induction h' with
  | self => exact h
  | attr _ h1 h2 ih => exact .attr ih h1 h2

theorem Stands.injective {s : St V K} (hi : Inv G s) (t : Tree K) :
    ∀ i j : Nat, s.Referenced i → s.Referenced j → Stands s.heap i t → Stands s.heap j t →
      (∀ c o, Within s.heap i c → s.heap c = some o → G o.key) → i = j := by
  have hattr : ∀ {i o c}, s.heap i = some o → c ∈ o.refs → s.Referenced c :=
    fun h hc => Or.inr (Or.inr (Or.inl ⟨_, _, h, hc⟩))
  induction t using Tree.cases with
  | atom a =>
    intro i j ri rj h h' hg
    unfold Stands at h h'
    obtain ⟨b, v, h1, h2, h3⟩ := h
    obtain ⟨b', v', g1, g2, g3⟩ := h'
    have : b = b' := hi.same (hattr h1 (by simp [Obj.refs])) (hattr g1 (by simp [Obj.refs])) h2 g2
      (by simp [Obj.key, h3, g3]) (hg b _ (.attr .self h1 (by simp [Obj.refs])) h2)
    subst this
    exact hi.same ri rj h1 g1 rfl (hg i _ .self h1)
  | node ts ih =>
    intro i j ri rj h h' hg
    unfold Stands at h h'
    obtain ⟨cs, h1, h2⟩ := h
    obtain ⟨cs', g1, g2⟩ := h'
    have hc : ∀ c ∈ cs, s.Referenced c := fun c hc => hattr h1 hc
    have hc' : ∀ c ∈ cs', s.Referenced c := fun c hc => hattr g1 hc
    have hw : ∀ c ∈ cs, ∀ d o, Within s.heap c d → s.heap d = some o → G o.key :=
      fun c hc d o hd => hg d o (within_trans (.attr .self h1 hc) hd)
    have hgi := hg i _ .self h1
    have : cs = cs' := by
      clear h1 g1 hgi
      induction ts generalizing cs cs' with
      | nil =>
        cases cs with
        | nil => cases cs' with
          | nil => rfl
          | cons => simp [StandsAll] at g2
        | cons => simp [StandsAll] at h2
      | cons t ts ihts =>
        cases cs with
        | nil => simp [StandsAll] at h2
        | cons c cs =>
          cases cs' with
          | nil => simp [StandsAll] at g2
          | cons c' cs' =>
            unfold StandsAll at h2 g2
            rw [ih t (by simp) c c' (hc c (by simp)) (hc' c' (by simp)) h2.1 g2.1 (hw c (by simp)),
              ihts (fun t ht => ih t (by simp [ht])) cs h2.2 cs' g2.2
                (fun c h => hc c (by simp [h])) (fun c h => hc' c (by simp [h]))
                (fun c h => hw c (by simp [h]))]
    subst this
    exact hi.same ri rj h1 g1 rfl hgi

theorem Stands.mono {heap heap' : Nat → Option (Obj V)} (t : Tree K) :
    ∀ i, Stands heap i t →
    (∀ j o, heap j = some o → heap' j = some o ∨ heap' j = none) →
    (∀ j o, heap' j = some o → ∀ c ∈ o.refs, (heap' c).isSome) → (heap' i).isSome →
    Stands heap' i t := by
  induction t using Tree.cases with
  | atom a =>
    intro i h hh hc hl
    unfold Stands at h ⊢
    obtain ⟨j, v, h1, h2, h3⟩ := h
    rcases hh i _ h1 with e | e
    · rcases hh j _ h2 with e' | e'
      · exact ⟨j, v, e, e', h3⟩
      · have := hc i _ e j (by simp [Obj.refs])
        rw [e'] at this; cases this
    · rw [e] at hl; cases hl
  | node ts ih =>
    intro i h hh hc hl
    unfold Stands at h ⊢
    obtain ⟨cs, h1, h2⟩ := h
    rcases hh i _ h1 with e | e
    · refine ⟨cs, e, ?_⟩
      have hlive : ∀ c ∈ cs, (heap' c).isSome := hc i _ e
      clear h1 e hl
      induction ts generalizing cs with
      | nil =>
        cases cs with
        | nil => simp [StandsAll]
        | cons => simp [StandsAll] at h2
      | cons t ts ihts =>
        cases cs with
        | nil => simp [StandsAll] at h2
        | cons c cs =>
          unfold StandsAll at h2 ⊢
          exact ⟨ih t (by simp) c h2.1 hh hc (hlive c (by simp)),
            ihts (fun t ht => ih t (by simp [ht])) cs h2.2 (fun d hd => hlive d (by simp [hd]))⟩
    · rw [e] at hl; cases hl

/-- **C02, any schedule.** In every execution: every `Tree` the program holds stands for exactly one
expression; if two stand for the same expression, they are the same object, unless there has been a
race for the object itself or one of the objects it is made of. -/
theorem C02_any_schedule (s : St V K) (hs : History R s) :
    (∀ i, Visible s i → IsTree s i → ∃ t, Stands s.heap i t ∧ ∀ t', Stands s.heap i t' → t' = t) ∧
    (∀ i j t, Visible s i → Visible s j → Stands s.heap i t → Stands s.heap j t →
      (∀ c o, Within s.heap i c → s.heap c = some o → ¬ R o.key) → i = j) ∧
    (∀ i j c a, Visible s i → Visible s j → s.heap i = some (.sym c a) →
      s.heap j = some (.sym c a) → ¬ R (.sym c a) → i = j) := by
  obtain ⟨hi, _⟩ := hs.inv
  refine ⟨?_, ?_, ?_⟩
  · intro i _ ht
    obtain ⟨t, h⟩ := Stands.exists hi (i + 1) i (Nat.lt_succ_self i) ht
    exact ⟨t, h, fun t' h' => Stands.unique t' i t h' h⟩
  · intro i j t vi vj h h' hw
    exact Stands.injective hi t i j vi.referenced vj.referenced h h' hw
  · intro i j c a vi vj h h' hR
    exact hi.same vi.referenced vj.referenced h h' rfl hR

/-- **C02.** In every execution in which no two threads are inside `setdefault` for the same
key at the same time: every `Tree` the program holds stands for exactly one expression, two
`Tree`s it holds are the same object exactly when they stand for the same expression, and two
`Sym`/`Expr` objects exactly when they are of the same class and wrap the same `Tree`. -/
theorem C02_identity_is_structural (s : St V K) (hs : Reach Exclusive s) :
    (∀ i, Visible s i → IsTree s i → ∃ t, Stands s.heap i t ∧ ∀ t', Stands s.heap i t' → t' = t) ∧
    (∀ i j t t', Visible s i → Visible s j → Stands s.heap i t → Stands s.heap j t' →
      (i = j ↔ t = t')) ∧
    (∀ i j c c' a b, Visible s i → Visible s j → s.heap i = some (.sym c a) →
      s.heap j = some (.sym c' b) → (i = j ↔ c = c' ∧ a = b)) := by
  obtain ⟨R, hR, hno⟩ := hs.history
  obtain ⟨h1, h2, h3⟩ := C02_any_schedule s hR
  refine ⟨h1, ?_, ?_⟩
  · intro i j t t' vi vj h h'
    constructor
    · rintro rfl; exact Stands.unique t i t' h h'
    · rintro rfl; exact h2 i j t vi vj h h' (fun c o _ _ => hno _)
  · intro i j c c' a b vi vj h h'
    constructor
    · rintro rfl; rw [h] at h'; cases h'; exact ⟨rfl, rfl⟩
    · rintro ⟨rfl, rfl⟩; exact h3 i j c a vi vj h h' (hno _)

/-- **C02, construction.** In every execution: when a call `Tree.atom(a)` or `Tree(*children)` returns,
the object returned stands for the atom, or for the expression with those children; a call `cls(tree)`
of a subclass of `Sym` returns an object of that class that wraps that very tree; and a `Tree` returned
is the object the program already holds for that expression, if it holds one and there has been no race
for that or one of the objects it is made of.  What an object stands for does not change while the object
is alive. -/
theorem C02_constructors (s s' : St V K) (hs : History R s) :
    (∀ t a i ty v, Step s (some (.ret t (.treeAtom a) i)) s' → s.heap a = some (.atom ty v) →
      Stands s'.heap i (.atom ⟨ty, PyVal.key v⟩)) ∧
    (∀ t cs i ts, Step s (some (.ret t (.tree cs) i)) s' → StandsAll s.heap cs ts →
      Stands s'.heap i (.node ts)) ∧
    (∀ t c a i, Step s (some (.ret t (.sym c a) i)) s' → s'.heap i = some (.sym c a)) ∧
    (∀ t r i j e, Step s (some (.ret t r i)) s' → Visible s j → Stands s.heap j e →
      Stands s'.heap i e → (∀ c o, Within s.heap j c → s.heap c = some o → ¬ R o.key) → i = j) ∧
    (∀ ev i e, Step s ev s' → Stands s.heap i e → (s'.heap i).isSome → Stands s'.heap i e) := by
  obtain ⟨hi, hex⟩ := hs.inv
  have hnode : ∀ t cs i, Step s (some (.ret t (.tree cs) i)) s' → s'.heap i = some (.tree cs) := by
    intro t cs i h
    obtain ⟨_, o, h2, h3⟩ := ret_object hi h
    cases o with
    | atom _ _ => simp [Obj.key] at h3
    | treeAtom _ => simp [Obj.key] at h3
    | tree ds => simp only [Obj.key, Key.tree.injEq] at h3; subst h3; exact h2
    | sym _ _ => simp [Obj.key] at h3
  have hatom : ∀ t a i, Step s (some (.ret t (.treeAtom a) i)) s' →
      s'.heap i = some (.treeAtom a) := by
    intro t a i h
    obtain ⟨_, o, h2, h3⟩ := ret_object hi h
    cases o with
    | atom _ _ => simp [Obj.key] at h3
    | treeAtom b => simp only [Obj.key, Key.treeAtom.injEq] at h3; subst h3; exact h2
    | tree ds => simp [Obj.key] at h3
    | sym _ _ => simp [Obj.key] at h3
  refine ⟨?_, ?_, ?_, ?_, ?_⟩
  · intro t a i ty v h ha
    unfold Stands
    exact ⟨a, v, hatom t a i h, by rw [ret_heap h]; exact ha, rfl⟩
  · intro t cs i ts h hts
    unfold Stands
    exact ⟨cs, hnode t cs i h, by rw [ret_heap h]; exact hts⟩
  · intro t c a i h
    obtain ⟨_, o, h2, h3⟩ := ret_object hi h
    cases o with
    | atom _ _ => simp [Obj.key] at h3
    | treeAtom _ => simp [Obj.key] at h3
    | tree ds => simp [Obj.key] at h3
    | sym c' b =>
      simp only [Obj.key, Key.sym.injEq] at h3
      obtain ⟨rfl, rfl⟩ := h3
      exact h2
  · intro t r i j e h vj hj hi' hw
    have hheap := ret_heap h
    rw [hheap] at hi'
    have hroot := (ret_object hi h).1
    -- the two stand for the same expression in the state after the call
    have hi2 : Inv (fun k => ¬ R k) s' := hi.step hex h
    have hrj : s'.Referenced j := by
      rcases vj.referenced with hr | ⟨t', hr⟩ | ⟨c, o, h1, h2⟩ | ⟨k, h1, h2⟩
      · left; cases h <;> simp [hr]
      · cases h with
        | getHit _ _ _ hpc hargs hty hd => exact Or.inr (Or.inl ⟨t', hr⟩)
        | setdefaultHit _ _ i' _ hpc hd =>
          obtain ⟨hd1, hd2⟩ := deref_some hd
          by_cases ht : t' = t
          · subst ht
            rw [hpc] at hr
            exact Or.inr (Or.inr (Or.inr ⟨r.key, by show s.table _ ≠ none; rw [hd1]; simp,
              by rw [Obj.key_refs]; exact hr⟩))
          · exact Or.inr (Or.inl ⟨t', by show j ∈ PC.refs (upd _ _ _ t'); rw [upd_ne _ _ ht]; exact hr⟩)
        | setdefaultStore _ _ _ hpc =>
          by_cases ht : t' = t
          · subst ht
            rw [hpc] at hr
            exact Or.inr (Or.inr (Or.inl ⟨i, r, hi.ownSet _ r i hpc, hr⟩))
          · exact Or.inr (Or.inl ⟨t', by show j ∈ PC.refs (upd _ _ _ t'); rw [upd_ne _ _ ht]; exact hr⟩)
      · exact Or.inr (Or.inr (Or.inl ⟨c, o, by rw [hheap]; exact h1, h2⟩))
      · cases h with
        | getHit _ _ _ hpc hargs hty hd => exact Or.inr (Or.inr (Or.inr ⟨k, h1, h2⟩))
        | setdefaultHit _ _ i' _ hpc hd => exact Or.inr (Or.inr (Or.inr ⟨k, h1, h2⟩))
        | setdefaultStore _ _ _ hpc =>
          refine Or.inr (Or.inr (Or.inr ⟨k, ?_, h2⟩))
          show upd _ _ _ k ≠ none
          by_cases hk : k = r.key
          · rw [hk, upd_same]; simp
          · rw [upd_ne _ _ hk]; exact h1
    refine (Stands.injective hi2 e j i hrj (Or.inl hroot) ?_ ?_ ?_).symm
    · rw [hheap]; exact hj
    · rw [hheap]; exact hi'
    · rw [hheap]; exact hw
  · intro ev i e h hst hl
    have hi2 : Inv (fun k => ¬ R k) s' := hi.step hex h
    exact Stands.mono e i hst (step_heap hi h) (fun j o ho c hc => (hi2.closed j o ho c hc).2) hl

/-! ### C03 -/

/-- **C03, partial.** In every execution in which no two threads are inside `setdefault` for
the same key at the same time: when a call by any thread returns `i`, and the program still
holds an object `j` that an equal call (by any thread, at any earlier time) has returned, then
`i` and `j` are the same object.  Missing: executions in which two threads are inside
`setdefault` at the same time, for which the statement is false
(`C03_concurrent_construction_false`). -/
theorem C03_concurrent_construction_partial (s s' : St V K) (hs : Reach Exclusive s) (t : Nat)
    (r r' : Obj V) (i j : Nat) (h : Step s (some (.ret t r i)) s') (hj : Visible s j)
    (hobj : s.heap j = some r') (hk : r'.key = r.key) : i = j :=
  ret_referenced hs.inv.1 h hj.referenced hobj hk trivial

/-- **C03, what a race can do.** In every execution whatever: if the program holds two different
objects that stand for the same expression, then two threads have been inside `setdefault` at the same
time for one of the objects that the first is made of (or itself), and likewise for the second; if a
call returns an object other than the one the program already holds for the same arguments, two threads
have been inside `setdefault` for these arguments at the same time. -/
theorem C03_duplicates_need_race (s : St V K) (hs : History R s) :
    (∀ i j e, Visible s i → Visible s j → Stands s.heap i e → Stands s.heap j e → i ≠ j →
      (∃ c o, Within s.heap i c ∧ s.heap c = some o ∧ R o.key) ∧
      (∃ c o, Within s.heap j c ∧ s.heap c = some o ∧ R o.key)) ∧
    (∀ s' t r r' i j, Step s (some (.ret t r i)) s' → Visible s j → s.heap j = some r' →
      r'.key = r.key → i ≠ j → R r.key) := by
  have key : ∀ i j e, Visible s i → Visible s j → Stands s.heap i e → Stands s.heap j e → i ≠ j →
      ∃ c o, Within s.heap i c ∧ s.heap c = some o ∧ R o.key := by
    intro i j e vi vj h h' hne
    refine Classical.byContradiction fun hno => hne ?_
    exact (C02_any_schedule s hs).2.1 i j e vi vj h h' (fun c o h1 h2 h3 => hno ⟨c, o, h1, h2, h3⟩)
  refine ⟨fun i j e vi vj h h' hne => ⟨key i j e vi vj h h' hne, key j i e vj vi h' h hne.symm⟩, ?_⟩
  intro s' t r r' i j h hj hobj hk hne
  exact Classical.byContradiction fun hno =>
    hne (ret_referenced hs.inv.1 h hj.referenced hobj hk hno)

theorem single_exclusive {s : St V K} (h : SingleThreaded s) : Exclusive s := by
  intro t t' r r' i i' h1 h2 _
  have e1 : t = 0 := by
    by_cases ht : t = 0
    · exact ht
    · rw [h t ht] at h1; cases h1
  have e2 : t' = 0 := by
    by_cases ht : t' = 0
    · exact ht
    · rw [h t' ht] at h2; cases h2
  rw [e1, e2]

/-- Single-threaded programs satisfy the hypothesis of C01–C04. -/
theorem C03_single_threaded {s : St V K} (h : Reach SingleThreaded s) : Reach Exclusive s := by
  induction h with
  | init hp => exact .init (single_exclusive hp)
  | step _ hs hp ih => exact .step ih hs (single_exclusive hp)

/-- A Python value: an `int` or a `bool`. -/
inductive PyNum where
  | int (n : Int)
  | bool (b : Bool)
deriving DecidableEq

/-- Python's `==` on them: `False == 0`, `True == 1`. -/
instance : PyVal PyNum Int where
  key
    | .int n => n
    | .bool b => if b then 1 else 0

/-- An atom type. -/
def integerTy : AtomType := ⟨2, "Integer"⟩

/-- `Integer(1)` made by one thread, then `Tree.atom` of it, and `Integer(True)` by another
thread: a run that meets the hypotheses of C01, C02, C03 and C04.  `Integer(True)` is the very
object `Integer(1)`, so its value is `1`, not `True`. -/
theorem C01_value_is_equal_not_identical : ∃ (s s' : St PyNum Int) (i a : Nat),
    Reach Exclusive s ∧ Visible s i ∧ s.heap i = some (.atom integerTy (.int 1)) ∧
    Visible s a ∧ Stands s.heap a (.atom ⟨integerTy, 1⟩) ∧
    Step s (some (.ret 7 (.atom integerTy (.bool true)) i)) s' := by
  have ex : ∀ (s : St PyNum Int), (∀ t, t ≠ 0 → s.pc t = .idle) → Exclusive s :=
    fun s h => single_exclusive h
  have pcs : ∀ (p : PC PyNum) (t : Nat), t ≠ 0 → upd (fun _ => PC.idle) 0 p t = .idle :=
    fun p t h => upd_ne _ _ h
  have r0 : Reach Exclusive (St.init : St PyNum Int) := .init (ex _ (fun _ _ => rfl))
  have r1 := r0.step (.getMiss _ 0 (.atom integerTy (.int 1)) rfl (by simp [Obj.refs]) trivial rfl)
    (ex _ (by intro t ht; simp [St.init, upd, ht]))
  have r2 := r1.step (.alloc _ 0 _ rfl) (ex _ (by intro t ht; simp [St.init, upd, ht]))
  have r3 := r2.step (.setdefaultMiss _ 0 _ _ rfl rfl)
    (ex _ (by intro t ht; simp [St.init, upd, ht]))
  have r4 := r3.step (.setdefaultStore _ 0 _ _ rfl)
    (ex _ (by intro t ht; simp [St.init, upd, ht]))
  have r5 := r4.step (.getMiss _ 0 (.treeAtom 0) rfl (by simp [Obj.refs, St.init])
    ⟨integerTy, .int 1, rfl⟩ rfl) (ex _ (by intro t ht; simp [St.init, upd, ht]))
  have r6 := r5.step (.alloc _ 0 _ rfl) (ex _ (by intro t ht; simp [St.init, upd, ht]))
  have r7 := r6.step (.setdefaultMiss _ 0 _ _ rfl rfl)
    (ex _ (by intro t ht; simp [St.init, upd, ht]))
  have r8 := r7.step (.setdefaultStore _ 0 _ _ rfl)
    (ex _ (by intro t ht; simp [St.init, upd, ht]))
  refine ⟨_, _, 0, 1, r8, .root (by simp [St.init]), rfl, .root (by simp [St.init]), ?_,
    .getHit _ 7 _ 0 rfl (by simp [Obj.refs]) trivial rfl⟩
  unfold Stands
  exact ⟨0, .int 1, rfl, rfl, rfl⟩

/-- **C03 is false as stated.** Two threads call `Integer(1)`; both look it up before either
has stored it, and both pass the lookup inside `setdefault` before either stores: the program
then holds two different objects for `Integer(1)`, one returned to each thread (and `==` on
them is `False`).  `WeakValueDictionary.setdefault` is not atomic. -/
theorem C03_concurrent_construction_false : ∃ (s s' s'' : St PyNum Int) (i j : Nat),
    Reach (fun _ => True) s ∧
    Step s (some (.ret 0 (.atom integerTy (.int 1)) i)) s' ∧
    Step s' (some (.ret 1 (.atom integerTy (.int 1)) j)) s'' ∧
    i ≠ j ∧ Visible s'' i ∧ Visible s'' j ∧
    s''.heap i = some (.atom integerTy (.int 1)) ∧ s''.heap j = some (.atom integerTy (.int 1)) := by
  have r0 : Reach (fun _ => True) (St.init : St PyNum Int) := .init trivial
  have r1 := r0.step (.getMiss _ 0 (.atom integerTy (.int 1)) rfl (by simp [Obj.refs]) trivial rfl)
    trivial
  have r2 := r1.step (.getMiss _ 1 (.atom integerTy (.int 1)) rfl (by simp [Obj.refs]) trivial rfl)
    trivial
  have r3 := r2.step (.alloc _ 0 _ rfl) trivial
  have r4 := r3.step (.alloc _ 1 _ rfl) trivial
  have r5 := r4.step (.setdefaultMiss _ 0 _ _ rfl rfl) trivial
  have r6 := r5.step (.setdefaultMiss _ 1 _ _ rfl rfl) trivial
  exact ⟨_, _, _, 0, 1, r6, .setdefaultStore _ 0 _ _ rfl, .setdefaultStore _ 1 _ _ rfl, by decide,
    .root (by simp [St.init]), .root (by simp [St.init]), rfl, rfl⟩

/-- A race: two threads make `Integer(1)` at the same time and get different atoms; the expressions
`Tree.atom` makes of them are different objects that stand for the same expression.  There was a race
for `Integer(1)`, and for nothing else: this history meets the hypotheses of `C01_any_schedule`,
`C02_any_schedule`, `C02_constructors`, `C03_duplicates_need_race` and C04. -/
example : ∃ (R : Key Int → Prop) (s : St PyNum Int), History R s ∧
    R (.atom integerTy 1) ∧ (∀ k, R k → k = .atom integerTy 1) ∧
    Visible s 2 ∧ Visible s 3 ∧
    Stands s.heap 2 (.atom ⟨integerTy, 1⟩) ∧ Stands s.heap 3 (.atom ⟨integerTy, 1⟩) := by
  have r0 : History (fun _ => False) (St.init : St PyNum Int) := .start
  have r1 := r0.step (.getMiss _ 0 (.atom integerTy (.int 1)) rfl (by simp [Obj.refs]) trivial rfl)
  have r2 := r1.step (.getMiss _ 1 (.atom integerTy (.int 1)) rfl (by simp [Obj.refs]) trivial rfl)
  have r3 := r2.step (.alloc _ 0 _ rfl)
  have r4 := r3.step (.alloc _ 1 _ rfl)
  have r5 := r4.step (.setdefaultMiss _ 0 _ _ rfl rfl)
  have r6 := r5.step (.setdefaultMiss _ 1 _ _ rfl rfl)
  have r7 := r6.step (.setdefaultStore _ 0 _ _ rfl)
  have r8 := r7.step (.setdefaultStore _ 1 _ _ rfl)
  have r9 := r8.step (.getMiss _ 0 (.treeAtom 0) rfl (by simp [Obj.refs, St.init]) ⟨_, _, rfl⟩ rfl)
  have r10 := r9.step (.alloc _ 0 _ rfl)
  have r11 := r10.step (.setdefaultMiss _ 0 _ _ rfl rfl)
  have r12 := r11.step (.setdefaultStore _ 0 _ _ rfl)
  have r13 := r12.step (.getMiss _ 0 (.treeAtom 1) rfl (by simp [Obj.refs, St.init]) ⟨_, _, rfl⟩ rfl)
  have r14 := r13.step (.alloc _ 0 _ rfl)
  have r15 := r14.step (.setdefaultMiss _ 0 _ _ rfl rfl)
  have r16 := r15.step (.setdefaultStore _ 0 _ _ rfl)
  refine ⟨_, _, r16, ?_, ?_, .root (by simp [St.init]), .root (by simp [St.init]), ?_, ?_⟩
  · refine Or.inl (Or.inl (Or.inl (Or.inl (Or.inl (Or.inl (Or.inl (Or.inl (Or.inl (Or.inl (Or.inr ?_))))))))))
    exact ⟨0, 1, _, _, _, _, by decide, rfl, rfl, rfl, rfl⟩
  · -- only in the sixth state are two threads inside `setdefault`
    have alone : ∀ {s : St PyNum Int} (k), (∀ t, t ≠ 0 → ∀ r i, s.pc t ≠ .inSetdefault r i) →
        ¬ Race s k := by
      rintro s k h ⟨t, t', r, r', i, i', hne, h1, h2, _⟩
      by_cases ht : t = 0
      · exact h t' (fun h' => hne (by rw [ht, h'])) r' i' h2
      · exact h t ht r i h1
    have alone1 : ∀ {s : St PyNum Int} (k), (∀ t, t ≠ 1 → ∀ r i, s.pc t ≠ .inSetdefault r i) →
        ¬ Race s k := by
      rintro s k h ⟨t, t', r, r', i, i', hne, h1, h2, _⟩
      by_cases ht : t = 1
      · exact h t' (fun h' => hne (by rw [ht, h'])) r' i' h2
      · exact h t ht r i h1
    intro k hk
    rcases hk with ((((((((((((((((h | h) | h) | h) | h) | h) | h) | h) | h) | h) | h) | h) | h) | h) | h) | h) | h)
    · exact h.elim
    iterate 5
      refine absurd h (alone k ?_)
      intro t ht r i
      by_cases h1 : t = 1 <;> simp [St.init, upd, ht, h1]
    · obtain ⟨t, t', r, r', i, i', hne, h1, h2, h3, h4⟩ := h
      by_cases ht : t = 0
      · subst ht
        simp only [upd] at h1
        simp at h1
        rw [← h3, ← h1.1]
        rfl
      · by_cases ht1 : t = 1
        · subst ht1
          simp only [upd] at h1
          simp at h1
          rw [← h3, ← h1.1]
          rfl
        · simp [St.init, upd, ht, ht1] at h1
    · refine absurd h (alone1 k ?_)
      intro t ht r i
      by_cases h1 : t = 0 <;> simp [St.init, upd, ht, h1]
    iterate 9
      refine absurd h (alone k ?_)
      intro t ht r i
      by_cases h1 : t = 1 <;> simp [St.init, upd, ht, h1]
  · unfold Stands; exact ⟨0, .int 1, rfl, rfl, rfl⟩
  · unfold Stands; exact ⟨1, .int 1, rfl, rfl, rfl⟩

/-! ### C04 -/

/-- **C04.** In every execution, whatever the schedule: everything the program holds is alive, and so is
everything that is referenced by a live object; a lookup only finds live objects, built from
arguments equal to those looked up; a store entry whose object is gone has a callback due that
removes it, so that the stores hold live objects only when no callback is due; and no step
changes an object, other than by freeing it. -/
theorem C04_stores (s : St V K) (hs : History R s) :
    (∀ i, Visible s i → ∃ o, s.heap i = some o) ∧
    (∀ i o, s.heap i = some o → ∀ j ∈ o.refs, ∃ o', s.heap j = some o') ∧
    (∀ k i, s.deref k = some i → ∃ o, s.heap i = some o ∧ o.key = k) ∧
    (∀ k i, s.table k = some i → s.heap i = none → k ∈ s.pending) ∧
    (s.pending = [] → ∀ k i, s.table k = some i → ∃ o, s.heap i = some o ∧ o.key = k) ∧
    (∀ e s', Step s e s' → ∀ i o, s.heap i = some o → s'.heap i = some o ∨ s'.heap i = none) := by
  obtain ⟨hi, _⟩ := hs.inv
  refine ⟨?_, ?_, ?_, hi.pend, ?_, fun e s' h => step_heap hi h⟩
  · intro i hv; exact Option.isSome_iff_exists.1 (hi.live hv.referenced)
  · intro i o ho j hj; exact Option.isSome_iff_exists.1 (hi.closed i o ho j hj).2
  · intro k i hd
    obtain ⟨h1, h2⟩ := deref_some hd
    obtain ⟨o, ho⟩ := Option.isSome_iff_exists.1 h2
    exact ⟨o, ho, hi.tableKey k i o h1 ho⟩
  · intro hp k i hk
    cases ho : s.heap i with
    | none => have := hi.pend k i hk ho; rw [hp] at this; cases this
    | some o => exact ⟨o, rfl, hi.tableKey k i o hk ho⟩

/-- **C04, no permanent entries.** In every execution a program that drops all its
references can, with the collector running, return to empty stores: while no thread is in a
call and there are no variables, some unreferenced object or some due callback remains as long
as the heap or a store is not empty. -/
theorem C04_collectable (s : St V K) (hs : History R s) (hroots : s.roots = [])
    (hidle : ∀ t, s.pc t = .idle)
    (hne : (∃ i o, s.heap i = some o) ∨ (∃ k i, s.table k = some i)) :
    (∃ i o, s.heap i = some o ∧ ¬ s.Referenced i ∧ ∀ t, (s.pc t).own ≠ some i) ∨
    (∃ k i, s.table k = some i ∧ s.heap i = none ∧ k ∈ s.pending) := by
  obtain ⟨hi, _⟩ := hs.inv
  by_cases hdead : ∃ k i, s.table k = some i ∧ s.heap i = none
  · obtain ⟨k, i, h1, h2⟩ := hdead
    exact Or.inr ⟨k, i, h1, h2, hi.pend k i h1 h2⟩
  · left
    -- every store entry is live, so some object is live; take the newest one
    have hlive : ∃ i o, s.heap i = some o := by
      rcases hne with h | ⟨k, i, h⟩
      · exact h
      · cases ho : s.heap i with
        | none => exact absurd ⟨k, i, h, ho⟩ hdead
        | some o => exact ⟨i, o, ho⟩
    have hmax : ∀ n, (∃ i o, s.heap i = some o ∧ s.next ≤ i + n) →
        ∃ i o, s.heap i = some o ∧ ∀ j o', s.heap j = some o' → j ≤ i := by
      intro n
      induction n with
      | zero =>
        rintro ⟨i, o, ho, hn⟩
        have := hi.below i o ho
        omega
      | succ n ih =>
        rintro ⟨i, o, ho, hn⟩
        by_cases hup : ∃ j o', s.heap j = some o' ∧ i < j
        · obtain ⟨j, o', hj, hlt⟩ := hup
          exact ih ⟨j, o', hj, by omega⟩
        · refine ⟨i, o, ho, fun j o' hj => ?_⟩
          by_cases hle : j ≤ i
          · exact hle
          · exact absurd ⟨j, o', hj, by omega⟩ hup
    obtain ⟨i0, o0, h0⟩ := hlive
    obtain ⟨i, o, ho, hm⟩ := hmax s.next ⟨i0, o0, h0, by omega⟩
    refine ⟨i, o, ho, ?_, fun t => by rw [hidle t]; simp [PC.own]⟩
    rintro (h | ⟨t, h⟩ | ⟨j, o', h1, h2⟩ | ⟨k, h1, h2⟩)
    · rw [hroots] at h; cases h
    · rw [hidle t] at h; simp [PC.refs] at h
    · have := (hi.closed j o' h1 i h2).1
      have := hm j o' h1
      omega
    · obtain ⟨j, hj⟩ := Option.ne_none_iff_exists'.1 h1
      cases hjo : s.heap j with
      | none => exact hdead ⟨k, j, hj, hjo⟩
      | some o' =>
        have hkey := hi.tableKey k j o' hj hjo
        rw [← hkey, Obj.key_refs] at h2
        have := (hi.closed j o' hjo i h2).1
        have := hm j o' hjo
        omega

/-- **C04, afresh.** When the store has no live object for the arguments, an undisturbed call
returns a new object, different from all objects there have been. -/
theorem C04_created_afresh (s : St V K) (hs : History R s) (t : Nat) (r : Obj V)
    (hidle : s.pc t = .idle) (hargs : ∀ j ∈ r.refs, j ∈ s.roots) (hty : s.WellTyped r)
    (hnone : ∀ i o, s.heap i = some o → o.key = r.key → s.table r.key ≠ some i) :
    ∃ s1 s2 s3 s4 i, Step s none s1 ∧ Step s1 none s2 ∧ Step s2 none s3 ∧
      Step s3 (some (.ret t r i)) s4 ∧ i = s.next ∧ s.heap i = none ∧ s4.heap i = some r := by
  obtain ⟨hi, _⟩ := hs.inv
  have hnew : s.heap s.next = none := by
    cases hn : s.heap s.next with
    | none => rfl
    | some o => exact absurd (hi.below _ _ hn) (Nat.lt_irrefl _)
  have hd : s.deref r.key = none := by
    rw [deref_none_iff]
    intro i hk
    cases ho : s.heap i with
    | none => rfl
    | some o => exact absurd hk (hnone i o ho (hi.tableKey _ _ _ hk ho))
  refine ⟨_, _, _, _, s.next, .getMiss s t r hidle hargs hty hd, .alloc _ t r (upd_same _ _ _),
    .setdefaultMiss _ t r s.next (upd_same _ _ _) ?_, .setdefaultStore _ t r s.next (upd_same _ _ _),
    rfl, hnew, upd_same _ _ _⟩
  rw [deref_none_iff] at hd ⊢
  intro i hk
  show upd _ _ _ i = none
  have := hi.tableBelow _ _ hk
  rw [upd_ne _ _ (show i ≠ s.next by omega)]
  exact hd i hk

/-- A run with a collection: `Integer(1)` is made, dropped and collected; the callback is due;
making it again gives a new object. -/
example : ∃ (s : St PyNum Int), Reach Exclusive s ∧ s.roots = [] ∧ s.heap 0 = none ∧
    s.table (.atom integerTy 1) = some 0 ∧ s.pending = [.atom integerTy 1] ∧
    (∀ i o, s.heap i = some o → o.key = (Obj.atom integerTy (PyNum.int 1)).key →
      s.table (.atom integerTy 1) ≠ some i) := by
  have ex : ∀ (s : St PyNum Int), (∀ t, t ≠ 0 → s.pc t = .idle) → Exclusive s :=
    fun s h => single_exclusive h
  have r0 : Reach Exclusive (St.init : St PyNum Int) := .init (ex _ (fun _ _ => rfl))
  have r1 := r0.step (.getMiss _ 0 (.atom integerTy (.int 1)) rfl (by simp [Obj.refs]) trivial rfl)
    (ex _ (by intro t ht; simp [St.init, upd, ht]))
  have r2 := r1.step (.alloc _ 0 _ rfl) (ex _ (by intro t ht; simp [St.init, upd, ht]))
  have r3 := r2.step (.setdefaultMiss _ 0 _ _ rfl rfl)
    (ex _ (by intro t ht; simp [St.init, upd, ht]))
  have r4 := r3.step (.setdefaultStore _ 0 _ _ rfl)
    (ex _ (by intro t ht; simp [St.init, upd, ht]))
  have r5 := r4.step (.drop _ 0) (ex _ (by intro t ht; simp [St.init, upd, ht]))
  have hpc : ∀ t : Nat, upd (upd (upd (upd (fun _ => (PC.idle : PC PyNum)) 0
      (.missed (.atom integerTy (.int 1)))) 0 (.fresh (.atom integerTy (.int 1)) 0)) 0
      (.inSetdefault (.atom integerTy (.int 1)) 0)) 0 .idle t = .idle := by
    intro t; simp only [upd]; split <;> rfl
  have r6 := r5.step (.collect _ 0 (.atom integerTy (.int 1)) rfl (by
      rintro (h | ⟨t, h⟩ | ⟨j, o, h1, h2⟩ | ⟨k, h1, h2⟩)
      · simp [St.init] at h
      · have := hpc t
        simp only [St.init] at h
        rw [this] at h; simp [PC.refs] at h
      · by_cases hj : j = 0
        · subst hj; cases h1; simp [Obj.refs] at h2
        · simp [St.init, upd, hj] at h1
      · by_cases hk : k = (Obj.atom integerTy (PyNum.int 1)).key
        · rw [hk] at h2; simp [Obj.key, Key.refs] at h2
        · simp [St.init, upd, hk] at h1)
    (by
      intro t
      have := hpc t
      simp only [St.init]
      rw [this]; simp [PC.own])) (ex _ (by intro t ht; simp [St.init, upd, ht]))
  refine ⟨_, r6, by simp [St.init], rfl, rfl, rfl, ?_⟩
  intro i o ho hk
  by_cases hi : i = 0
  · subst hi; cases ho
  · simp [St.init, upd, hi] at ho

end Verif.Props
