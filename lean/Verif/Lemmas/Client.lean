import Verif.Props.Store
import Verif.Spec.Client

/-!
# Programs on objects follow programs on values
-/

set_option linter.unusedSectionVars false

namespace Verif.Store
open Verif.Props
variable {V K α : Type} [DecidableEq K] [PyVal V K] {G R : Key K → Prop}

/-! ### Handles -/

theorem held_append {hs : List (Option Nat)} {l : List (Option Nat)} {h i : Nat}
    (hh : held (hs ++ l) h = some i) :
    held hs h = some i ∨ (hs.length ≤ h ∧ l[h - hs.length]? = some (some i)) := by
  unfold held at hh ⊢
  by_cases hlt : h < hs.length
  · rw [List.getElem?_append_left hlt] at hh; exact Or.inl hh
  · rw [List.getElem?_append_right (by omega)] at hh
    refine Or.inr ⟨by omega, ?_⟩
    cases hx : l[h - hs.length]? with
    | none => rw [hx] at hh; simp at hh
    | some y => rw [hx] at hh; simp at hh; rw [hh]

theorem held_lt {hs : List (Option Nat)} {h i : Nat} (hh : held hs h = some i) : h < hs.length := by
  unfold held at hh
  by_cases hlt : h < hs.length
  · exact hlt
  · rw [List.getElem?_eq_none (by omega)] at hh; simp at hh

theorem held_set {hs : List (Option Nat)} {g h i : Nat} (hh : held (hs.set g none) h = some i) :
    held hs h = some i := by
  unfold held at hh ⊢
  rw [List.getElem?_set] at hh
  split at hh
  · split at hh <;> simp at hh
  · exact hh

/-! ### What objects stand for -/

theorem Is.mono {heap heap' : Nat → Option (Obj V)} {i : Nat} {x : Ex K} (h : Is heap i x)
    (hh : ∀ j o, heap j = some o → heap' j = some o ∨ heap' j = none)
    (hc : ∀ j o, heap' j = some o → ∀ c ∈ o.refs, (heap' c).isSome)
    (hl : (heap' i).isSome) : Is heap' i x := by
  cases x with
  | atom a =>
    obtain ⟨v, h1, h2⟩ := h
    rcases hh i _ h1 with e | e
    · exact ⟨v, e, h2⟩
    · rw [e] at hl; cases hl
  | tree t => exact Stands.mono t i h hh hc hl
  | sym c t =>
    obtain ⟨j, h1, h2⟩ := h
    rcases hh i _ h1 with e | e
    · exact ⟨j, e, Stands.mono t j h2 hh hc (hc i _ e j (by simp [Obj.refs]))⟩
    · rw [e] at hl; cases hl

theorem stands_isTree {heap : Nat → Option (Obj V)} {i : Nat} {t : Tree K} (h : Stands heap i t) :
    (∃ a, heap i = some (.treeAtom a)) ∨ (∃ cs, heap i = some (.tree cs)) := by
  cases t with
  | atom a => unfold Stands at h; obtain ⟨j, v, h1, _⟩ := h; exact Or.inl ⟨j, h1⟩
  | node ts => unfold Stands at h; obtain ⟨cs, h1, _⟩ := h; exact Or.inr ⟨cs, h1⟩

theorem Is.unique {heap : Nat → Option (Obj V)} {i : Nat} {x y : Ex K} (h : Is heap i x)
    (h' : Is heap i y) : x = y := by
  cases x with
  | atom a =>
    obtain ⟨v, h1, h2⟩ := h
    cases y with
    | atom b =>
      obtain ⟨w, g1, g2⟩ := h'
      rw [h1] at g1
      obtain ⟨ta, va⟩ := a
      obtain ⟨tb, vb⟩ := b
      simp only [Option.some.injEq, Obj.atom.injEq] at g1 h2 g2
      rw [g1.1, ← h2, ← g2, g1.2]
    | tree t =>
      rcases stands_isTree h' with ⟨_, e⟩ | ⟨_, e⟩ <;> rw [h1] at e <;> cases e
    | sym c t => obtain ⟨_, e, _⟩ := h'; rw [h1] at e; cases e
  | tree t =>
    cases y with
    | atom b =>
      obtain ⟨w, g1, _⟩ := h'
      rcases stands_isTree h with ⟨_, e⟩ | ⟨_, e⟩ <;> rw [g1] at e <;> cases e
    | tree t' => rw [Stands.unique t i t' h h']
    | sym c t' =>
      obtain ⟨_, g1, _⟩ := h'
      rcases stands_isTree h with ⟨_, e⟩ | ⟨_, e⟩ <;> rw [g1] at e <;> cases e
  | sym c t =>
    obtain ⟨j, h1, h2⟩ := h
    cases y with
    | atom b => obtain ⟨w, g1, _⟩ := h'; rw [h1] at g1; cases g1
    | tree t' => rcases stands_isTree h' with ⟨_, e⟩ | ⟨_, e⟩ <;> rw [h1] at e <;> cases e
    | sym c' t' =>
      obtain ⟨j', g1, g2⟩ := h'
      rw [h1] at g1; cases g1
      rw [Stands.unique t j t' h2 g2]

theorem Is.injective {s : St V K} (hi : Inv G s) {x : Ex K} {i j : Nat} (ri : s.Referenced i)
    (rj : s.Referenced j) (h : Is s.heap i x) (h' : Is s.heap j x)
    (hg : ∀ c o, Within s.heap i c → s.heap c = some o → G o.key) : i = j := by
  have hattr : ∀ {i o c}, s.heap i = some o → c ∈ o.refs → s.Referenced c :=
    fun h hc => Or.inr (Or.inr (Or.inl ⟨_, _, h, hc⟩))
  cases x with
  | atom a =>
    obtain ⟨v, h1, h2⟩ := h
    obtain ⟨w, g1, g2⟩ := h'
    exact hi.same ri rj h1 g1 (by simp [Obj.key, h2, g2]) (hg i _ .self h1)
  | tree t => exact Stands.injective hi t i j ri rj h h' hg
  | sym c t =>
    obtain ⟨a, h1, h2⟩ := h
    obtain ⟨b, g1, g2⟩ := h'
    have : a = b := Stands.injective hi t a b (hattr h1 (by simp [Obj.refs]))
      (hattr g1 (by simp [Obj.refs])) h2 g2
      (fun c o hc ho => hg c o (within_trans (.attr .self h1 (by simp [Obj.refs])) hc) ho)
    subst this
    exact hi.same ri rj h1 g1 rfl (hg i _ .self h1)

theorem Mean.mono {s s' : St V K} {hs : List (Option Nat)} {vals : List (Ex K)}
    (h : Mean s.heap hs vals)
    (hh : ∀ j o, s.heap j = some o → s'.heap j = some o ∨ s'.heap j = none)
    (hi : Inv G s') (hold : Holds s' hs) : Mean s'.heap hs vals := by
  refine ⟨h.1, fun n i hn => ?_⟩
  obtain ⟨x, h1, h2⟩ := h.2 n i hn
  exact ⟨x, h1, h2.mono hh (fun j o ho c hc => (hi.closed j o ho c hc).2) (hi.roots i (hold n i hn))⟩

/-! ### Histories -/

theorem History.race {s : St V K} (h : History R s) : (fun k => R k ∨ Race s k) = R := by
  funext k
  apply propext
  constructor
  · rintro (h' | h')
    · exact h'
    · cases h with
      | start => obtain ⟨_, _, _, _, _, _, _, h, _⟩ := h'; cases h
      | step _ _ => exact Or.inr h'
  · exact Or.inl

theorem History.loads {s : St V K} (h : History R s) {i : Nat} {o : Obj V} (hi : i ∈ s.roots)
    (ho : s.heap i = some o) : ∀ l : List Nat, (∀ j ∈ l, j ∈ o.refs) →
    History R { s with roots := l ++ s.roots } := by
  intro l
  induction l with
  | nil => intro _; exact h
  | cons j l ih =>
    intro hl
    have h1 := ih (fun k hk => hl k (by simp [hk]))
    have h2 := h1.step (.load _ i j o (by show i ∈ l ++ s.roots; simp [hi]) ho (hl j (by simp)))
    have h3 := h1.race
    have : (fun k => R k ∨ Race ({ s with roots := j :: (l ++ s.roots) } : St V K) k) = R := h3
    rw [this] at h2
    exact h2

/-! ### The simulation -/

theorem mapM_held {heap : Nat → Option (Obj V)} {hs : List (Option Nat)} {vals : List (Ex K)}
    (hm : Mean heap hs vals)
    (hty : ∀ j x, Is heap j x → ((∃ a, heap j = some (.treeAtom a)) ∨ (∃ ds, heap j = some (.tree ds))) →
      ∃ t, x = .tree t) :
    ∀ (cs is : List Nat), cs.mapM (held hs) = some is →
      (∀ c ∈ is, (∃ a, heap c = some (.treeAtom a)) ∨ (∃ ds, heap c = some (.tree ds))) →
      ∃ ts, cs.mapM (treeAt vals) = some ts ∧ StandsAll heap is ts := by
  intro cs
  induction cs with
  | nil => intro is h _; simp at h; subst h; exact ⟨[], by simp, by simp [StandsAll]⟩
  | cons c cs ih =>
    intro is h hw
    rw [List.mapM_cons] at h
    cases hc : held hs c with
    | none => rw [hc] at h; simp at h
    | some i =>
      cases hcs : cs.mapM (held hs) with
      | none => rw [hc, hcs] at h; simp at h
      | some is' =>
        rw [hc, hcs] at h
        simp at h
        subst h
        obtain ⟨ts, h1, h2⟩ := ih is' hcs (fun d hd => hw d (by simp [hd]))
        obtain ⟨x, h3, h4⟩ := hm.2 c i hc
        obtain ⟨t, rfl⟩ := hty i x h4 (hw i (by simp))
        refine ⟨t :: ts, ?_, by unfold StandsAll; exact ⟨h4, h2⟩⟩
        rw [List.mapM_cons, h1]
        simp [treeAt, h3]

theorem is_tree {heap : Nat → Option (Obj V)} {j : Nat} {x : Ex K} (h : Is heap j x)
    (ht : (∃ a, heap j = some (.treeAtom a)) ∨ (∃ ds, heap j = some (.tree ds))) : ∃ t, x = .tree t := by
  cases x with
  | atom a =>
    obtain ⟨v, h1, _⟩ := h
    rcases ht with ⟨_, e⟩ | ⟨_, e⟩ <;> rw [h1] at e <;> cases e
  | tree t => exact ⟨t, rfl⟩
  | sym c t =>
    obtain ⟨v, h1, _⟩ := h
    rcases ht with ⟨_, e⟩ | ⟨_, e⟩ <;> rw [h1] at e <;> cases e

theorem ret_typed {s s' : St V K} (hi : Inv G s) {t : Nat} {r : Obj V} {i : Nat}
    (h : Step s (some (.ret t r i)) s') : s.WellTyped r := by
  cases h with
  | getHit _ _ _ hpc hargs hty hd => exact hty
  | setdefaultHit _ _ i' _ hpc hd => exact hi.pcTyped t r (by rw [hpc]; rfl)
  | setdefaultStore _ _ _ hpc => exact hi.pcTyped t r (by rw [hpc]; rfl)

/-- The object that a constructor returns stands for the value of the call. -/
theorem made_is {s s' : St V K} (hi : Inv G s) {me : Nat} {c r : Obj V} {i : Nat}
    {hs : List (Option Nat)} {vals : List (Ex K)} (hm : Mean s.heap hs vals)
    (hr : resolve hs c = some r) (h : Step s (some (.ret me r i)) s') :
    ∃ x, valueOf vals c = some x ∧ Is s'.heap i x := by
  have hty := ret_typed hi h
  obtain ⟨_, o, ho, hk⟩ := ret_object hi h
  have hheap := ret_heap h
  cases c with
  | atom ty v =>
    cases hr
    obtain ⟨v', h1, h2⟩ := ret_atom hi h
    exact ⟨_, rfl, v', h1, h2⟩
  | treeAtom a =>
    simp only [resolve, Option.map_eq_some_iff] at hr
    obtain ⟨j, hj, rfl⟩ := hr
    obtain ⟨ty, v, hv⟩ := hty
    have ho' : o = .treeAtom j := by
      cases o <;> simp [Obj.key] at hk
      rw [hk]
    subst ho'
    obtain ⟨x, h1, h2⟩ := hm.2 a j hj
    have : x = .atom ⟨ty, PyVal.key v⟩ := h2.unique (y := .atom ⟨ty, PyVal.key v⟩) ⟨v, hv, rfl⟩
    subst this
    refine ⟨.tree (.atom ⟨ty, PyVal.key v⟩), by simp [valueOf, h1], ?_⟩
    show Stands _ _ _
    unfold Stands
    exact ⟨j, v, ho, by rw [hheap]; exact hv, rfl⟩
  | tree cs =>
    simp only [resolve, Option.map_eq_some_iff] at hr
    obtain ⟨is, his, rfl⟩ := hr
    have ho' : o = .tree is := by
      cases o <;> simp [Obj.key] at hk
      rw [hk]
    subst ho'
    obtain ⟨ts, h1, h2⟩ := mapM_held hm (fun j x => is_tree) cs is his hty
    refine ⟨.tree (.node ts), by simp [valueOf, h1], ?_⟩
    show Stands _ _ _
    unfold Stands
    exact ⟨is, ho, by rw [hheap]; exact h2⟩
  | sym c a =>
    simp only [resolve, Option.map_eq_some_iff] at hr
    obtain ⟨j, hj, rfl⟩ := hr
    have ho' : o = .sym c j := by
      cases o <;> simp [Obj.key] at hk
      rw [hk.1, hk.2]
    subst ho'
    obtain ⟨x, h1, h2⟩ := hm.2 a j hj
    obtain ⟨t, rfl⟩ := is_tree h2 hty
    exact ⟨.sym c t, by simp [valueOf, treeAt, h1], j, ho, by rw [hheap]; exact h2⟩

theorem standsAll_get {heap : Nat → Option (Obj V)} : ∀ (cs : List Nat) (ts : List (Tree K)),
    StandsAll heap cs ts → ∀ n i : Nat, cs[n]? = some i → ∃ t, ts[n]? = some t ∧ Stands heap i t := by
  intro cs
  induction cs with
  | nil => intro ts _ n i h; simp at h
  | cons c cs ih =>
    intro ts h n i hn
    cases ts with
    | nil => simp [StandsAll] at h
    | cons t ts =>
      unfold StandsAll at h
      cases n with
      | zero => simp at hn; subst hn; exact ⟨t, rfl, h.1⟩
      | succ n => simpa using ih ts h.2 n i (by simpa using hn)

theorem standsAll_length {heap : Nat → Option (Obj V)} : ∀ (cs : List Nat) (ts : List (Tree K)),
    StandsAll heap cs ts → cs.length = ts.length := by
  intro cs
  induction cs with
  | nil => intro ts h; cases ts <;> simp [StandsAll] at h; rfl
  | cons c cs ih =>
    intro ts h
    cases ts with
    | nil => simp [StandsAll] at h
    | cons t ts => unfold StandsAll at h; simp [ih ts h.2]

/-- The parts of an object stand for the parts of its value. -/
theorem Is.parts {heap : Nat → Option (Obj V)} {i : Nat} {x : Ex K} {o : Obj V} (h : Is heap i x)
    (ho : heap i = some o) (n : Nat) :
    o.view n = x.view n ∧ o.refs.length = x.parts.length ∧
    ∀ m j : Nat, o.refs[m]? = some j → ∃ y, x.parts[m]? = some y ∧ Is heap j y := by
  cases x with
  | atom a =>
    obtain ⟨v, h1, h2⟩ := h
    rw [ho] at h1; cases h1
    exact ⟨by simp [Obj.view, Ex.view, h2], rfl, by simp [Obj.refs]⟩
  | tree t =>
    cases t with
    | atom a =>
      have h' : Stands heap i (.atom a) := h
      unfold Stands at h'
      obtain ⟨j, v, h1, h2, h3⟩ := h'
      rw [ho] at h1; cases h1
      refine ⟨rfl, rfl, ?_⟩
      intro m k hk
      cases m with
      | zero => simp [Obj.refs] at hk; subst hk; exact ⟨.atom a, rfl, v, h2, h3⟩
      | succ m => simp [Obj.refs] at hk
    | node ts =>
      have h' : Stands heap i (.node ts) := h
      unfold Stands at h'
      obtain ⟨cs, h1, h2⟩ := h'
      rw [ho] at h1; cases h1
      have hl := standsAll_length cs ts h2
      refine ⟨by simp [Obj.view, Ex.view, hl], by simp [Obj.refs, Ex.parts, hl], ?_⟩
      intro m j hj
      obtain ⟨t, h3, h4⟩ := standsAll_get cs ts h2 m j hj
      exact ⟨.tree t, by simp [Ex.parts, h3], h4⟩
  | sym c t =>
    obtain ⟨j, h1, h2⟩ := h
    rw [ho] at h1; cases h1
    refine ⟨rfl, rfl, ?_⟩
    intro m k hk
    cases m with
    | zero => simp [Obj.refs] at hk; subst hk; exact ⟨.tree t, rfl, h2⟩
    | succ m => simp [Obj.refs] at hk

theorem mean_append {heap : Nat → Option (Obj V)} {hs : List (Option Nat)} {vals xs : List (Ex K)}
    {is : List Nat} (h : Mean heap hs vals) (hl : is.length = xs.length)
    (hx : ∀ m j : Nat, is[m]? = some j → ∃ y, xs[m]? = some y ∧ Is heap j y) :
    Mean heap (hs ++ is.map some) (vals ++ xs) := by
  refine ⟨by simp [h.1, hl], ?_⟩
  intro n i hn
  rcases held_append hn with h' | ⟨hle, h'⟩
  · obtain ⟨x, h1, h2⟩ := h.2 n i h'
    refine ⟨x, ?_, h2⟩
    rw [List.getElem?_append_left]
    · exact h1
    · rw [← h.1]; exact held_lt h'
  · have h'' : is[n - hs.length]? = some i := by
      rw [List.getElem?_map] at h'
      cases hx : is[n - hs.length]? with
      | none => rw [hx] at h'; simp at h'
      | some y => rw [hx] at h'; simp at h'; rw [h']
    obtain ⟨y, h1, h2⟩ := hx _ _ h''
    refine ⟨y, ?_, h2⟩
    rw [List.getElem?_append_right (by rw [← h.1]; exact hle), ← h.1]
    exact h1

theorem ret_roots {s s' : St V K} {t : Nat} {r : Obj V} {i : Nat}
    (h : Step s (some (.ret t r i)) s') : s'.roots = i :: s.roots := by
  cases h <;> rfl

/-- The state after a call returns. -/
theorem made_mean {s s' : St V K} (hist : History R s) {me : Nat} {c r : Obj V} {i : Nat}
    {hs : List (Option Nat)} {vals : List (Ex K)} (holds : Holds s hs) (mean : Mean s.heap hs vals)
    (hr : resolve hs c = some r) (hstep : Step s (some (.ret me r i)) s') :
    History (fun k => R k ∨ Race s' k) s' ∧ Holds s' (hs ++ [some i]) ∧
    ∃ x, valueOf vals c = some x ∧ Mean s'.heap (hs ++ [some i]) (vals ++ [x]) := by
  obtain ⟨hi, hex⟩ := hist.inv
  have hist' := hist.step hstep
  have hroots := ret_roots hstep
  have hholds : Holds s' hs := fun h j hj => by rw [hroots]; simp [holds h j hj]
  have hm := mean.mono (step_heap hi hstep) hist'.inv.1 hholds
  obtain ⟨x, h1, h2⟩ := made_is hi mean hr hstep
  refine ⟨hist', ?_, x, h1, ?_⟩
  · intro h j hj
    rcases held_append hj with h' | ⟨_, h'⟩
    · exact hholds h j h'
    · show j ∈ s'.roots
      rw [hroots]
      cases hn : h - hs.length with
      | zero => rw [hn] at h'; simp at h'; simp [h']
      | succ n => rw [hn] at h'; simp at h'
  · refine mean_append hm (is := [i]) (xs := [x]) rfl ?_
    intro m j hj
    cases m with
    | zero => simp at hj; subst hj; exact ⟨x, rfl, h2⟩
    | succ m => simp at hj

/-- The state after attributes are read. -/
theorem look_mean {s : St V K} (hist : History R s) {h i : Nat} {o : Obj V}
    {hs : List (Option Nat)} {vals : List (Ex K)} (holds : Holds s hs) (mean : Mean s.heap hs vals)
    (hh : held hs h = some i) (ho : s.heap i = some o) :
    History R { s with roots := o.refs ++ s.roots } ∧
    Holds { s with roots := o.refs ++ s.roots } (hs ++ o.refs.map some) ∧
    ∃ x, vals[h]? = some x ∧ o.view hs.length = x.view vals.length ∧
      Mean s.heap (hs ++ o.refs.map some) (vals ++ x.parts) := by
  have hin := holds h i hh
  have hist' := hist.loads hin ho o.refs (fun j hj => hj)
  obtain ⟨x, h1, h2⟩ := mean.2 h i hh
  have hlen : hs.length = vals.length := mean.1
  obtain ⟨h3, h4, h5⟩ := h2.parts ho hs.length
  refine ⟨hist', ?_, x, h1, ?_, mean_append mean h4 h5⟩
  · intro n j hj
    show j ∈ o.refs ++ s.roots
    rcases held_append hj with h' | ⟨_, h'⟩
    · simp [holds n j h']
    · have : some j ∈ o.refs.map some := List.mem_of_getElem? h'
      simp at this
      simp [this]
  · rw [h3, hlen]

/-- What a step of the process does to the thread's program is nothing, or what the step of the
program on values does; for comparisons there must not have been a race. -/
theorem run_sim {me : Nat} {c c' : Cfg V K α} {vals : List (Ex K)} (hist : History R c.st)
    (holds : Holds c.st c.hs) (mean : Mean c.st.heap c.hs vals)
    (clean : ∀ h h' k, c.prog = .same h h' k → Clean R c)
    (run : Run me c c') :
    History (fun k => R k ∨ Race c'.st k) c'.st ∧ Holds c'.st c'.hs ∧
    ∃ vals', ((vals', c'.prog) = (vals, c.prog) ∨
        valueStep (vals, c.prog) = some (vals', c'.prog)) ∧
      Mean c'.st.heap c'.hs vals' := by
  obtain ⟨hi, hex⟩ := hist.inv
  cases run with
  | store e hstep hne hcall hroots =>
    have hist' := hist.step hstep
    exact ⟨hist', hroots, vals, Or.inl rfl, mean.mono (step_heap hi hstep) hist'.inv.1 hroots⟩
  | @made s s' hs c k r i hr hstep =>
    obtain ⟨g1, g2, x, g3, g4⟩ := made_mean hist holds mean hr hstep
    refine ⟨g1, g2, vals ++ [x], Or.inr ?_, g4⟩
    have := mean.1
    simp only [valueStep, g3, Option.map_some]
    rw [this]
  | @same s hs h h' k i j hh hh' =>
    refine ⟨by show History (fun k => R k ∨ Race s k) s; rw [hist.race]; exact hist, holds, vals, Or.inr ?_, mean⟩
    obtain ⟨x, h1, h2⟩ := mean.2 h i hh
    obtain ⟨y, h3, h4⟩ := mean.2 h' j hh'
    have : decide (x = y) = decide (i = j) := by
      by_cases hij : i = j
      · subst hij
        simp [h2.unique h4]
      · have : x ≠ y := by
          rintro rfl
          exact hij (Is.injective hi (Or.inl (holds h i hh)) (Or.inl (holds h' j hh')) h2 h4
            (fun d o hd ho => clean h h' k rfl h i d o hh hd ho))
        simp [hij, this]
    simp only [valueStep, h1, h3, this]
  | @look s hs h k i o hh ho =>
    obtain ⟨g1, g2, x, g3, g4, g5⟩ := look_mean hist holds mean hh ho
    refine ⟨by rw [g1.race]; exact g1, g2, vals ++ x.parts, Or.inr ?_, g5⟩
    simp only [valueStep, g3, Option.map_some, g4]
  | @loop s hs σ β body x k =>
    exact ⟨by show History (fun k => R k ∨ Race s k) s; rw [hist.race]; exact hist, holds, vals,
      Or.inr rfl, mean⟩
  | @forget s hs p h =>
    refine ⟨by show History (fun k => R k ∨ Race s k) s; rw [hist.race]; exact hist,
      fun n i hn => holds n i (held_set hn), vals, Or.inl rfl, ?_, fun n i hn => mean.2 n i (held_set hn)⟩
    have := mean.1
    simp [this]

/-- An execution of a program follows the program on values. -/
theorem exec_sim {me : Nat} {c c' : Cfg V K α} {R' : Key K → Prop} {vals : List (Ex K)}
    (hist : History R c.st) (holds : Holds c.st c.hs) (mean : Mean c.st.heap c.hs vals)
    (ex : Exec me Clean R c R' c') :
    History R' c'.st ∧ Holds c'.st c'.hs ∧ Clean R' c' ∧
    ∃ vals', ValueRun (vals, c.prog) (vals', c'.prog) ∧ Mean c'.st.heap c'.hs vals' := by
  induction ex with
  | refl h => exact ⟨hist, holds, h, vals, .refl, mean⟩
  | step _ hrun hP ih =>
    obtain ⟨h1, h2, h3, vals', h4, h5⟩ := ih
    obtain ⟨g1, g2, vals'', g3, g4⟩ := run_sim h1 h2 h5 (fun _ _ _ _ => h3) hrun
    refine ⟨g1, g2, hP, vals'', ?_, g4⟩
    rcases g3 with g3 | g3
    · rw [g3]; exact h4
    · exact h4.step g3

/-! ### Programs that do not compare -/

theorem NoCompare.bind {p : Prog V K α} (h : NoCompare p) : ∀ {β : Type} {f : α → Prog V K β},
    (∀ a, NoCompare (f a)) → NoCompare (p.bind f) := by
  induction h with
  | ret a => intro β f hf; exact hf a
  | raise e => intro β f hf; exact .raise e
  | make c _ ih => intro β f hf; exact .make c (fun h => ih h hf)
  | look g _ ih => intro β f hf; exact .look g (fun o => ih o hf)
  | loop x hb _ _ ihk => intro β f hf; exact .loop x hb (fun b => ihk b hf)

theorem NoCompare.run {me : Nat} {c c' : Cfg V K α} (h : NoCompare c.prog) (run : Run me c c') :
    NoCompare c'.prog := by
  cases run with
  | store => exact h
  | made => cases h with | make _ hk => exact hk _
  | same => cases h
  | look => cases h with | look _ hk => exact hk _
  | loop body x k =>
    cases h with
    | loop _ hb hk =>
      refine (hb x).bind (fun a => ?_)
      cases a with
      | inl y => exact .loop y hb hk
      | inr b => exact hk b
  | forget => exact h

theorem exec_noCompare {me : Nat} {c c' : Cfg V K α} {R' : Key K → Prop} {vals : List (Ex K)}
    {P : (Key K → Prop) → Cfg V K α → Prop}
    (hist : History R c.st) (holds : Holds c.st c.hs) (mean : Mean c.st.heap c.hs vals)
    (hp : NoCompare c.prog) (ex : Exec me P R c R' c') :
    History R' c'.st ∧ Holds c'.st c'.hs ∧ NoCompare c'.prog ∧
    ∃ vals', ValueRun (vals, c.prog) (vals', c'.prog) ∧ Mean c'.st.heap c'.hs vals' := by
  induction ex with
  | refl h => exact ⟨hist, holds, hp, vals, .refl, mean⟩
  | @step R' c' c'' _ hrun hP ih =>
    obtain ⟨h1, h2, h3, vals', h4, h5⟩ := ih
    obtain ⟨g1, g2, vals'', g3, g4⟩ := run_sim h1 h2 h5
      (fun _ _ _ he => by rw [he] at h3; cases h3) hrun
    refine ⟨g1, g2, h3.run hrun, vals'', ?_, g4⟩
    rcases g3 with g3 | g3
    · rw [g3]; exact h4
    · exact h4.step g3

/-! ### Finishing -/

theorem alone_exclusive {me : Nat} {s : St V K} (h : ∀ t, t ≠ me → s.pc t = .idle) : Exclusive s := by
  intro t t' r r' i i' h1 h2 _
  by_cases ht : t = me
  · by_cases ht' : t' = me
    · rw [ht, ht']
    · rw [h t' ht'] at h2; cases h2
  · rw [h t ht] at h1; cases h1

theorem Exec.mono {me : Nat} {c c' : Cfg V K α} {R R' : Key K → Prop}
    {P Q : (Key K → Prop) → Cfg V K α → Prop} (h : Exec me P R c R' c')
    (hPQ : ∀ R c, P R c → Q R c) : Exec me Q R c R' c' := by
  induction h with
  | refl h => exact .refl (hPQ _ _ h)
  | step _ hr hp ih => exact ih.step hr (hPQ _ _ hp)

theorem Exec.trans {me : Nat} {c c' c'' : Cfg V K α} {R R' R'' : Key K → Prop}
    {P : (Key K → Prop) → Cfg V K α → Prop} (h : Exec me P R c R' c') (h' : Exec me P R' c' R'' c'') :
    Exec me P R c R'' c'' := by
  induction h' with
  | refl _ => exact h
  | step _ hr hp ih => exact ih.step hr hp

/-- The executions without any race. -/
theorem Exec.quiet {me : Nat} {c c' : Cfg V K α} {R R' : Key K → Prop} (hR : ∀ k, ¬ R k)
    (h : Exec me (fun _ c => Exclusive c.st) R c R' c') :
    (∀ k, ¬ R' k) ∧ Exec me Clean R c R' c' := by
  induction h with
  | refl h => exact ⟨hR, .refl (fun _ _ _ o _ _ _ hk => hR _ hk)⟩
  | @step R' c' c'' _ hr hp ih =>
    have : ∀ k, ¬ (R' k ∨ Race c''.st k) :=
      fun k hk => hk.elim (ih.1 k) (exclusive_race hp k)
    exact ⟨this, ih.2.step hr (fun _ _ _ o _ _ _ hk => this _ hk)⟩

theorem Exec.step0 {me : Nat} {c c' c'' : Cfg V K α}
    (h : Exec me (fun _ c => Exclusive c.st) (fun _ => False) c (fun _ => False) c')
    (hr : Run me c' c'') (he : Exclusive c''.st) :
    Exec me (fun _ c => Exclusive c.st) (fun _ => False) c (fun _ => False) c'' := by
  have := h.step hr he
  have heq : (fun k => False ∨ Race c''.st k) = (fun _ => False) := by
    funext k
    apply propext
    exact ⟨fun h => h.elim id (exclusive_race he k), fun h => h.elim⟩
  rw [heq] at this
  exact this

/-- Every handle has an object. -/
def Alive (hs : List (Option Nat)) : Prop := ∀ h, h < hs.length → ∃ i, held hs h = some i

theorem alive_append {hs : List (Option Nat)} (h : Alive hs) (is : List Nat) :
    Alive (hs ++ is.map some) := by
  intro n hn
  by_cases hlt : n < hs.length
  · obtain ⟨i, hi⟩ := h n hlt
    refine ⟨i, ?_⟩
    unfold held at hi ⊢
    rw [List.getElem?_append_left hlt]; exact hi
  · have hlt' : n - hs.length < is.length := by simp at hn; omega
    refine ⟨is[n - hs.length], ?_⟩
    unfold held
    rw [List.getElem?_append_right (by omega), List.getElem?_map, List.getElem?_eq_getElem hlt']
    rfl

theorem resolve_ok {s : St V K} {hs : List (Option Nat)} {vals : List (Ex K)} {c : Obj V} {x : Ex K}
    (hh : Holds s hs) (hm : Mean s.heap hs vals) (ha : Alive hs) (hx : valueOf vals c = some x) :
    ∃ r, resolve hs c = some r ∧ s.WellTyped r ∧ ∀ j ∈ r.refs, j ∈ s.roots := by
  have hget : ∀ n y, vals[n]? = some y → ∃ i, held hs n = some i ∧ Is s.heap i y := by
    intro n y hn
    have hlt := (List.getElem?_eq_some_iff.1 hn).1
    obtain ⟨i, hi⟩ := ha n (by rw [hm.1]; exact hlt)
    obtain ⟨z, h1, h2⟩ := hm.2 n i hi
    rw [hn] at h1; cases h1
    exact ⟨i, hi, h2⟩
  have htree : ∀ n t, treeAt vals n = some t → ∃ i, held hs n = some i ∧ Stands s.heap i t := by
    intro n t hn
    unfold treeAt at hn
    split at hn
    · rename_i t' h'
      cases hn
      exact hget n _ h'
    · cases hn
  cases c with
  | atom ty v => exact ⟨_, rfl, trivial, by simp [Obj.refs]⟩
  | treeAtom a =>
    simp only [valueOf] at hx
    split at hx
    · rename_i a' ha'
      obtain ⟨i, h1, v, h2, _⟩ := hget a _ ha'
      refine ⟨.treeAtom i, by simp [resolve, h1], ⟨_, v, h2⟩, ?_⟩
      intro j hj
      simp [Obj.refs] at hj
      subst hj
      exact hh a _ h1
    · cases hx
  | tree cs =>
    simp only [valueOf, Option.map_eq_some_iff] at hx
    obtain ⟨ts, hts, _⟩ := hx
    have : ∀ (cs : List Nat) (ts : List (Tree K)), cs.mapM (treeAt vals) = some ts →
        ∃ is, cs.mapM (held hs) = some is ∧ ∀ j ∈ is, j ∈ s.roots ∧
          ((∃ a, s.heap j = some (.treeAtom a)) ∨ (∃ ds, s.heap j = some (.tree ds))) := by
      intro cs
      induction cs with
      | nil => intro ts _; exact ⟨[], rfl, by simp⟩
      | cons c cs ih =>
        intro ts h
        rw [List.mapM_cons] at h
        cases hc : treeAt vals c with
        | none => rw [hc] at h; simp at h
        | some t =>
          cases hcs : cs.mapM (treeAt vals) with
          | none => rw [hc, hcs] at h; simp at h
          | some ts' =>
            obtain ⟨is, h1, h2⟩ := ih ts' hcs
            obtain ⟨i, h3, h4⟩ := htree c t hc
            refine ⟨i :: is, by rw [List.mapM_cons, h3, h1]; rfl, ?_⟩
            intro j hj
            simp at hj
            rcases hj with rfl | hj
            · exact ⟨hh c _ h3, stands_isTree h4⟩
            · exact h2 j hj
    obtain ⟨is, h1, h2⟩ := this cs ts hts
    exact ⟨.tree is, by simp [resolve, h1], fun j hj => (h2 j hj).2, fun j hj => (h2 j hj).1⟩
  | sym c t =>
    simp only [valueOf, Option.map_eq_some_iff] at hx
    obtain ⟨t', ht', _⟩ := hx
    obtain ⟨i, h1, h2⟩ := htree t t' ht'
    refine ⟨.sym c i, by simp [resolve, h1], stands_isTree h2, ?_⟩
    intro j hj
    simp [Obj.refs] at hj
    subst hj
    exact hh t _ h1

/-- A step of the program on values can be made in the process. -/
theorem completes_step {me : Nat} {s : St V K} {hs : List (Option Nat)} {p p' : Prog V K α}
    {vals vals' : List (Ex K)} (hist : History (fun _ => False) s) (idle : ∀ t, s.pc t = .idle)
    (holds : Holds s hs) (mean : Mean s.heap hs vals) (alive : Alive hs)
    (hstep : valueStep (vals, p) = some (vals', p')) :
    ∃ s' hs', Exec me (fun _ c => Exclusive c.st) (fun _ => False) ⟨s, hs, p⟩ (fun _ => False) ⟨s', hs', p'⟩ ∧
      History (fun _ => False) s' ∧ (∀ t, s'.pc t = .idle) ∧ Holds s' hs' ∧ Mean s'.heap hs' vals' ∧
      Alive hs' := by
  have hex : Exclusive s := alone_exclusive (me := me) (fun t _ => idle t)
  have hnoRace : ∀ s' : St V K, Exclusive s' →
      (fun k => False ∨ Race s' k) = (fun _ => False) := by
    intro s' he
    funext k
    exact propext ⟨fun h => h.elim id (exclusive_race he k), fun h => h.elim⟩
  have refl0 : Exec me (fun _ c => Exclusive c.st) (fun _ => False) ⟨s, hs, p⟩ (fun _ => False) ⟨s, hs, p⟩ :=
    .refl hex
  cases p with
  | ret a => cases hstep
  | raise e => cases hstep
  | make c k =>
    simp only [valueStep, Option.map_eq_some_iff, Prod.mk.injEq] at hstep
    obtain ⟨x, h1, h2, h3⟩ := hstep
    subst h2; subst h3
    obtain ⟨r, hr, hty, hargs⟩ := resolve_ok holds mean alive h1
    have hlen : vals.length = hs.length := mean.1.symm
    rw [hlen]
    cases hd : s.deref r.key with
    | some i =>
      have hst : Step s (some (.ret me r i)) { s with roots := i :: s.roots } :=
        .getHit s me r i (idle me) hargs hty hd
      have hex' : Exclusive { s with roots := i :: s.roots } := hex
      obtain ⟨g1, g2, y, g3, g4⟩ := made_mean hist holds mean hr hst
      rw [h1] at g3; cases g3
      rw [hnoRace _ hex'] at g1
      exact ⟨_, _, refl0.step0 (.made r i hr hst) hex', g1, idle, g2, g4, alive_append alive [i]⟩
    | none =>
      -- look up, make, look up, store
      let s1 : St V K := { s with pc := upd s.pc me (.missed r) }
      have st1 : Step s none s1 := .getMiss s me r (idle me) hargs hty hd
      have p1 : ∀ t, t ≠ me → s1.pc t = .idle := fun t ht => by
        show upd _ _ _ t = _; rw [upd_ne _ _ ht]; exact idle t
      let s2 : St V K := { s1 with heap := upd s1.heap s1.next (some r), next := s1.next + 1,
                                   pc := upd s1.pc me (.fresh r s1.next) }
      have st2 : Step s1 none s2 := .alloc s1 me r (upd_same _ _ _)
      have p2 : ∀ t, t ≠ me → s2.pc t = .idle := fun t ht => by
        show upd _ _ _ t = _; rw [upd_ne _ _ ht]; exact p1 t ht
      let s3 : St V K := { s2 with pc := upd s2.pc me (.inSetdefault r s1.next) }
      have hd2 : s2.deref r.key = none := by
        rw [deref_none_iff] at hd ⊢
        intro j hj
        have hj' : s.table r.key = some j := hj
        have := hist.inv.1.tableBelow _ _ hj'
        show upd _ _ _ j = none
        rw [upd_ne _ _ (by show j ≠ s.next; omega)]
        exact hd j hj'
      have st3 : Step s2 none s3 := .setdefaultMiss s2 me r s1.next (upd_same _ _ _) hd2
      have p3 : ∀ t, t ≠ me → s3.pc t = .idle := fun t ht => by
        show upd _ _ _ t = _; rw [upd_ne _ _ ht]; exact p2 t ht
      let s4 : St V K := { s3 with table := upd s3.table r.key (some s1.next),
                                   roots := s1.next :: s3.roots, pc := upd s3.pc me .idle }
      have st4 : Step s3 (some (.ret me r s1.next)) s4 := .setdefaultStore s3 me r s1.next (upd_same _ _ _)
      have p4 : ∀ t, s4.pc t = .idle := fun t => by
        show upd _ _ _ t = _
        by_cases ht : t = me
        · rw [ht, upd_same]
        · rw [upd_ne _ _ ht]; exact p3 t ht
      have e1 : Exclusive s1 := alone_exclusive p1
      have e2 : Exclusive s2 := alone_exclusive p2
      have e3 : Exclusive s3 := alone_exclusive p3
      have e4 : Exclusive s4 := alone_exclusive (me := me) (fun t _ => p4 t)
      have hi1 := hist.step st1
      rw [hnoRace _ e1] at hi1
      have hi2 := hi1.step st2
      rw [hnoRace _ e2] at hi2
      have hi3 := hi2.step st3
      rw [hnoRace _ e3] at hi3
      have holds3 : Holds s3 hs := holds
      have mean3 : Mean s3.heap hs vals := by
        have m1 : Mean s1.heap hs vals := mean
        exact (m1.mono (s := s1) (s' := s2) (step_heap hi1.inv.1 st2) hi2.inv.1 holds)
      have x1 := refl0.step0 (.store none st1 (by simp) (fun _ r' hr' => by
        have h : upd s.pc me (.missed r) me = .missed r' := hr'
        rw [upd_same] at h
        cases h
        exact ⟨c, k, rfl, hr⟩) holds (fun _ h0 => by
        have h : upd _ me _ me = PC.idle := h0
        rw [upd_same] at h; cases h)) e1
      have x2 := x1.step0 (.store none st2 (by simp) (fun h0 r' _ => by
        have h : upd s.pc me (.missed r) me = .idle := h0
        rw [upd_same] at h; cases h) holds (fun _ h0 => by
        have h : upd _ me _ me = PC.idle := h0
        rw [upd_same] at h; cases h)) e2
      have x3 := x2.step0 (.store none st3 (by simp) (fun h0 r' _ => by
        have h : upd s1.pc me (.fresh r s1.next) me = .idle := h0
        rw [upd_same] at h; cases h) holds (fun _ h0 => by
        have h : upd _ me _ me = PC.idle := h0
        rw [upd_same] at h; cases h)) e3
      have x4 := x3.step0 (.made r s1.next hr st4) e4
      obtain ⟨g1, g2, y, g3, g4⟩ := made_mean hi3 holds3 mean3 hr st4
      rw [h1] at g3; cases g3
      rw [hnoRace _ e4] at g1
      exact ⟨_, _, x4, g1, p4, g2, g4, alive_append alive [s1.next]⟩
  | same h h' k =>
    simp only [valueStep] at hstep
    split at hstep
    · rename_i x y hx hy
      cases hstep
      obtain ⟨i, hi⟩ := alive h (by rw [mean.1]; exact (List.getElem?_eq_some_iff.1 hx).1)
      obtain ⟨j, hj⟩ := alive h' (by rw [mean.1]; exact (List.getElem?_eq_some_iff.1 hy).1)
      have hrun : Run me ⟨s, hs, .same h h' k⟩ ⟨s, hs, k (decide (i = j))⟩ := .same i j hi hj
      have : decide (i = j) = decide (x = y) := by
        obtain ⟨x', g1, g2⟩ := mean.2 h i hi
        obtain ⟨y', g3, g4⟩ := mean.2 h' j hj
        rw [hx] at g1; cases g1
        rw [hy] at g3; cases g3
        by_cases hij : i = j
        · subst hij
          simp [g2.unique g4]
        · have : x ≠ y := by
            rintro rfl
            exact hij (Is.injective hist.inv.1 (Or.inl (holds h i hi)) (Or.inl (holds h' j hj)) g2 g4
              (fun d o hd ho hk => hk))
          simp [hij, this]
      rw [this] at hrun
      exact ⟨s, hs, refl0.step0 hrun hex, hist, idle, holds, mean, alive⟩
    · cases hstep
  | look h k =>
    simp only [valueStep, Option.map_eq_some_iff, Prod.mk.injEq] at hstep
    obtain ⟨x, h1, h2, h3⟩ := hstep
    subst h2; subst h3
    obtain ⟨i, hi⟩ := alive h (by rw [mean.1]; exact (List.getElem?_eq_some_iff.1 h1).1)
    obtain ⟨o, ho⟩ := Option.isSome_iff_exists.1 (hist.inv.1.roots i (holds h i hi))
    obtain ⟨g1, g2, y, g3, g4, g5⟩ := look_mean hist holds mean hi ho
    rw [h1] at g3; cases g3
    rw [← g4]
    exact ⟨_, _, refl0.step0 (.look i o hi ho) hex, g1, idle, g2, g5, alive_append alive o.refs⟩
  | loop body x k =>
    cases hstep
    exact ⟨s, hs, refl0.step0 (.loop body x k) hex, hist, idle, holds, mean, alive⟩

theorem completes_run {me : Nat} {s : St V K} {hs : List (Option Nat)}
    {vals : List (Ex K)} {p : Prog V K α} {d : List (Ex K) × Prog V K α}
    (hist : History (fun _ => False) s) (idle : ∀ t, s.pc t = .idle)
    (holds : Holds s hs) (mean : Mean s.heap hs vals) (alive : Alive hs)
    (hrun : ValueRun (vals, p) d) :
    ∃ s' hs', Exec me (fun _ c => Exclusive c.st) (fun _ => False) ⟨s, hs, p⟩ (fun _ => False) ⟨s', hs', d.2⟩ ∧
      History (fun _ => False) s' ∧ (∀ t, s'.pc t = .idle) ∧ Holds s' hs' ∧ Mean s'.heap hs' d.1 ∧
      Alive hs' := by
  induction hrun with
  | refl =>
    exact ⟨s, hs, .refl (alone_exclusive (me := me) (fun t _ => idle t)), hist, idle, holds, mean, alive⟩
  | @step d d' _ hs' ih =>
    obtain ⟨s1, hs1, h1, h2, h3, h4, h5, h6⟩ := ih
    obtain ⟨v, q⟩ := d
    obtain ⟨v', q'⟩ := d'
    obtain ⟨s2, hs2, g1, g2⟩ := completes_step (me := me) h2 h3 h4 h5 h6 hs'
    exact ⟨s2, hs2, h1.trans g1, g2⟩

end Verif.Store
