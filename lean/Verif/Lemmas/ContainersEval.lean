import Verif.Lemmas.ContainersDiff

/-!
# Lemmas about containers on a heap: evaluation
-/

namespace Verif.Mem
open Verif Spec
variable {V T α β : Type} {h h0 : Heap V T}

theorem _root_.Verif.Spec.Outside.refl (h : Heap V T) : Outside h h :=
  ⟨Nat.le_refl _, fun _ _ _ => rfl, fun _ ha => Or.inl ha⟩

theorem _root_.Verif.Spec.Outside.trans {h h' h'' : Heap V T} (a : Outside h h') (b : Outside h' h'') :
    Outside h h'' := by
  obtain ⟨a1, a2, a3⟩ := a
  obtain ⟨b1, b2, b3⟩ := b
  refine ⟨Nat.le_trans a1 b1, ?_, ?_⟩
  · intro r hr hu
    rw [b2 r (by omega) ?_, a2 r hr hu]
    intro hm
    rcases a3 r hm with hm | hm
    · exact hu hm
    · omega
  · intro r hr
    rcases b3 r hr with hm | hm
    · rcases a3 r hm with hm | hm
      · exact Or.inl hm
      · exact Or.inr (by omega)
    · exact Or.inr (by omega)

theorem _root_.Verif.Spec.OnlyNew.outside {h h' : Heap V T} (a : OnlyNew h h') : Outside h h' := by
  refine ⟨a.le, ?_, ?_⟩
  · intro r hr _
    obtain ⟨t, ht⟩ := a.1
    rw [← ht, List.getElem?_append_left hr]
  · intro r hr
    rw [a.2] at hr
    exact Or.inl hr

/-- New objects, and changes to objects that did not exist. -/
theorem _root_.Verif.Spec.Outside.set {h h' : Heap V T} (a : Outside h h') {r : Nat}
    (hr : h.objs.length ≤ r) (o : Obj V T) : Outside h { h' with objs := h'.objs.set r o } := by
  obtain ⟨a1, a2, a3⟩ := a
  refine ⟨by simpa using a1, ?_, by simpa using a3⟩
  intro b hb hu
  have : r ≠ b := by omega
  simp only [List.getElem?_set_ne this]
  exact a2 b hb hu

theorem _root_.Verif.Spec.Outside.give {h h' : Heap V T} (a : Outside h h') {r : Nat}
    (hr : h.objs.length ≤ r) (hr' : r < h'.objs.length) :
    Outside h { h' with user := r :: h'.user } := by
  obtain ⟨a1, a2, a3⟩ := a
  refine ⟨a1, a2, ?_⟩
  intro b hb
  rcases List.mem_cons.1 hb with rfl | hb
  · exact Or.inr ⟨hr, hr'⟩
  · exact a3 b hb

theorem _root_.Verif.Spec.Sound.outside {h h' : Heap V T} (hs : Sound h) (a : Outside h h') : Sound h' := by
  intro r hr
  rcases a.2.2 r hr with hm | hm
  · exact Nat.lt_of_lt_of_le (hs r hm) a.1
  · exact hm.2

theorem _root_.Verif.Spec.Sound.new {h h' : Heap V T} (hs : Sound h) (a : OnlyNew h h') : Sound h' :=
  hs.outside a.outside

/-- An object that existed and that outside code cannot reach. -/
def Private (h : Heap V T) (r : Nat) (o : Obj V T) : Prop := h.objs[r]? = some o ∧ r ∉ h.user

theorem Private.outside {h' : Heap V T} {r : Nat} {o : Obj V T} (hp : Private h r o) (a : Outside h h') :
    Private h' r o := by
  obtain ⟨h1, h2⟩ := hp
  obtain ⟨a1, a2, a3⟩ := a
  refine ⟨?_, ?_⟩
  · rw [a2 r (get_lt h1) h2]; exact h1
  · intro hm
    rcases a3 r hm with hm | hm
    · exact h2 hm
    · exact absurd (get_lt h1) (by omega)

theorem behaves_post {keep : Nat → Prop} {c : M V T T} {R : PyM T} (hb : Behaves keep c h R) :
    Post c h (fun v h' => R = .ok v ∧ Outside h h' ∧ ∀ a, keep a → h'.objs[a]? = h.objs[a]?)
      (fun e h' => R = .error e ∧ Outside h h' ∧ ∀ a, keep a → h'.objs[a]? = h.objs[a]?) := by
  obtain ⟨h1, h2, h3⟩ := hb
  unfold Post
  cases hc : c h with
  | mk r h' =>
    rw [hc] at h1 h2 h3
    cases r with
    | ok a => exact ⟨h1.symm, h2, h3⟩
    | error e => exact ⟨h1.symm, h2, h3⟩

variable [DecidableEq V] [HasNone T]

omit [HasNone T] in
theorem evalAtom_post {keep : Nat → Prop} {ev : Evaluator V T} {E : Verif.Evaluator PyM V T}
    (hi : Implements keep ev E) (t : Tree V) :
    Post (ev.evalAtom t) h
      (fun v h' => E.evalAtom t = .ok v ∧ Outside h h' ∧ ∀ a, keep a → h'.objs[a]? = h.objs[a]?)
      (fun e h' => E.evalAtom t = .error e ∧ Outside h h' ∧ ∀ a, keep a → h'.objs[a]? = h.objs[a]?) := by
  unfold Evaluator.evalAtom Verif.Evaluator.evalAtom
  cases t.value with
  | error err =>
    refine post_bind (post_lift (fun _ hh => by cases hh) (fun e he => ?_))
    cases he
    exact ⟨rfl, Outside.refl _, fun _ _ => rfl⟩
  | ok av =>
    refine post_bind (post_lift (fun _ hh => ?_) (fun e he => by cases he))
    cases hh
    simp only
    cases hg : ev.atoms.get? av.atomType with
    | none =>
      rw [(hi.atom _).2 hg]
      exact behaves_post (hi.genericAtom t h)
    | some f =>
      obtain ⟨F, hF, hb⟩ := (hi.atom _).1 f hg
      rw [hF]
      exact behaves_post (hb _ h)

theorem evalLeaf_post {keep : Nat → Prop} {ev : Evaluator V T} {E : Verif.Evaluator PyM V T}
    (hi : Implements keep ev E) {vr : Nat} {d : Dict (Tree V) T} (hv : h.objs[vr]? = some (.vals d))
    (t : Tree V) :
    Post (ev.evalLeaf vr t) h
      (fun v h' => E.evalLeaf d t = .ok v ∧ Outside h h' ∧ ∀ a, keep a → h'.objs[a]? = h.objs[a]?)
      (fun e h' => E.evalLeaf d t = .error e ∧ Outside h h' ∧
        ∀ a, keep a → h'.objs[a]? = h.objs[a]?) := by
  unfold Evaluator.evalLeaf Verif.Evaluator.evalLeaf
  refine post_bind (post_readVals hv ?_)
  cases d.get? t with
  | none => exact evalAtom_post hi t
  | some v =>
    simp only
    split
    · exact evalAtom_post hi t
    · exact post_pure ⟨rfl, Outside.refl _, fun _ _ => rfl⟩

omit [HasNone T] in
theorem evalOperation_post {keep : Nat → Prop} {ev : Evaluator V T} {E : Verif.Evaluator PyM V T}
    (hi : Implements keep ev E) (head : Tree V) {r : Nat} {vs : List T} (hr : IsVals h r vs)
    (hk : ¬ keep r) (hle : h0.objs.length ≤ r) (ho : Outside h0 h)
    (hks : ∀ a, keep a → h.objs[a]? = h0.objs[a]?) :
    Post (ev.evalOperation head r) h
      (fun v h' => E.evalOperation head vs = .ok v ∧ Outside h0 h' ∧
        (∀ a, keep a → h'.objs[a]? = h0.objs[a]?) ∧ ∀ a o, a ≠ r → Private h a o → Private h' a o)
      (fun e h' => E.evalOperation head vs = .error e ∧ Outside h0 h' ∧
        (∀ a, keep a → h'.objs[a]? = h0.objs[a]?)) := by
  have hgive : Outside h0 { h with user := r :: h.user } := ho.give hle (get_lt hr)
  have hpg : ∀ a o, a ≠ r → Private h a o → Private { h with user := r :: h.user } a o := by
    rintro a o hne ⟨h1, h2⟩
    exact ⟨h1, by simp [hne, h2]⟩
  unfold Evaluator.evalOperation Verif.Evaluator.evalOperation
  cases hg : ev.operations.get? head with
  | none =>
    rw [hi.none _ hg]
    refine post_bind (post_give ?_)
    refine (behaves_post (hi.genericOperation head vs { h with user := r :: h.user } r hr List.mem_cons_self hk)).mono ?_ ?_
    · rintro v h' ⟨h1, h2, h3⟩
      exact ⟨h1, hgive.trans h2, fun a ha => (h3 a ha).trans (hks a ha),
        fun a o hne hp => (hpg a o hne hp).outside h2⟩
    · rintro v h' ⟨h1, h2, h3⟩
      exact ⟨h1, hgive.trans h2, fun a ha => (h3 a ha).trans (hks a ha)⟩
  | some f =>
    cases f with
    | star f =>
      obtain ⟨F, hF, hb⟩ := hi.star _ f hg
      rw [hF]
      refine post_bind (post_readValues hr ?_)
      refine (behaves_post (hb vs h)).mono ?_ ?_
      · rintro v h' ⟨h1, h2, h3⟩
        exact ⟨h1, ho.trans h2, fun a ha => (h3 a ha).trans (hks a ha),
          fun a o _ hp => hp.outside h2⟩
      · rintro v h' ⟨h1, h2, h3⟩
        exact ⟨h1, ho.trans h2, fun a ha => (h3 a ha).trans (hks a ha)⟩
    | seq f =>
      obtain ⟨F, hF, hb⟩ := hi.seq _ f hg
      rw [hF]
      refine post_bind (post_give ?_)
      refine (behaves_post (hb vs { h with user := r :: h.user } r hr List.mem_cons_self hk)).mono ?_ ?_
      · rintro v h' ⟨h1, h2, h3⟩
        exact ⟨h1, hgive.trans h2, fun a ha => (h3 a ha).trans (hks a ha),
          fun a o hne hp => (hpg a o hne hp).outside h2⟩
      · rintro v h' ⟨h1, h2, h3⟩
        exact ⟨h1, hgive.trans h2, fun a ha => (h3 a ha).trans (hks a ha)⟩

omit [DecidableEq V] [HasNone T] in
theorem private_new {h' : Heap V T} (hs : Sound h) (a : OnlyNew h h') {r : Nat} {o : Obj V T}
    (hr : h.objs.length ≤ r) (ho : h'.objs[r]? = some o) : Private h' r o := by
  refine ⟨ho, ?_⟩
  rw [a.2]
  intro hm
  have := hs r hm
  omega

omit [DecidableEq V] [HasNone T] in
theorem Private.new {h' : Heap V T} {r : Nat} {o : Obj V T} (hp : Private h r o) (a : OnlyNew h h') :
    Private h' r o := hp.outside a.outside

omit [DecidableEq V] [HasNone T] in
theorem Private.set {r r' : Nat} {o o' : Obj V T} (hp : Private h r o) (hne : r' ≠ r) :
    Private { h with objs := h.objs.set r' o' } r o :=
  ⟨get_set_other hp.1 hne, hp.2⟩

/-- The containers that `eval_forward` is made of. -/
theorem evalForward_post {keep : Nat → Prop} {ev : Evaluator V T} {E : Verif.Evaluator PyM V T}
    (hi : Implements keep ev E) (hs : Sound h) (hkeep : ∀ a, keep a → a < h.objs.length) {vr : Nat}
    {d : Dict (Tree V) T} (hv : h.objs[vr]? = some (.vals d)) (hvk : keep vr ∨ vr ∉ h.user)
    (e : Tree V) :
    Post (ev.evalForward e vr) h
      (fun v h' => E.evalForward e d = .ok v ∧ Outside h h' ∧ ∀ a, keep a → h'.objs[a]? = h.objs[a]?)
      (fun err h' => E.evalForward e d = .error err ∧ Outside h h' ∧
        ∀ a, keep a → h'.objs[a]? = h.objs[a]?) := by
  unfold Evaluator.evalForward
  refine post_bind ((forwardGraph_post e).of_noErr ?_)
  rintro g h1 ⟨G, hG, n1, ⟨ga, gh, cells, gc, gf⟩, hfr, -⟩
  have hl1 := n1.le
  have hga := hfr g.atoms (by simp [graphRefs])
  have hgo := hfr g.operations (by simp [graphRefs])
  have hin : innerRefs h1 g.operations = cells.flatMap cellRefs := by simp [innerRefs, gc]
  have hgi : ∀ c ∈ cells, ∀ a ∈ cellRefs c, h.objs.length ≤ a := by
    intro c hc a ha
    refine hfr a ?_
    simp only [graphRefs, hin, List.mem_append, List.mem_flatMap]
    exact Or.inr ⟨c, hc, ha⟩
  refine post_bind (post_new fun st h2 es el2 n2 gs => ?_)
  have n12 := n1.trans n2
  have pa : Private h2 g.atoms _ := private_new hs n12 hga (n2.get ga)
  have po : Private h2 g.operations _ := private_new hs n12 hgo (n2.get gc)
  have pin : ∀ (k r : Nat) (is : List Nat) (t : Tree V), cells[k]? = some (Cell.op t r) → IsInts h1 r is →
      Private h2 r (.list (is.map .int)) := by
    intro k r is t hc hr
    exact private_new hs n12 (hgi _ (List.mem_of_getElem? hc) r (by simp [cellRefs])) (n2.get hr)
  have hlp : ∀ {γ : Type} (x : PyM γ), (liftPy x : PyM γ) = x := by
    intro γ x
    cases x <;> rfl
  have hF : E.evalForward e d = (do
      let s ← E.evalAtomsLoop d [] G.atoms
      let s ← E.evalOpsLoop s G.operations
      pyLast s) := by
    unfold Verif.Evaluator.evalForward
    rw [hG]
    simp only [hlp]; rfl
  have hne1 : st ≠ g.atoms := by have := get_lt ga; omega
  have hne2 : st ≠ g.operations := by have := get_lt gc; omega
  have hne3 : ∀ (r : Nat) (is : List Nat), IsInts h1 r is → st ≠ r := by
    intro r is hr
    have := get_lt hr
    omega
  have hlk : ∀ a, keep a → st ≠ a := by
    intro a ha
    have := hkeep a ha
    omega
  have hvne : st ≠ vr := by
    have := get_lt hv
    omega
  refine post_bind ((post_forList (cells := G.atoms.map .tree)
    (fun k h' => Outside h h' ∧ (∀ a, keep a → h'.objs[a]? = h.objs[a]?) ∧
      (∀ a o, st ≠ a → Private h2 a o → Private h' a o) ∧ h'.objs[vr]? = some (.vals d) ∧
      ∃ s, Private h' st (.list (s.map .val)) ∧
      E.evalAtomsLoop d [] G.atoms = E.evalAtomsLoop d s (G.atoms.drop k))
    (fun err h' => E.evalForward e d = .error err ∧ Outside h h' ∧
        ∀ a, keep a → h'.objs[a]? = h.objs[a]?)
    (fun k h' hi => (hi.2.2.1 _ _ hne1 pa).1) ?_ ?_).mono ?_ fun _ _ h => h)
  · rintro k c h' hc ⟨hout, hks, hpr, hv', s, hst, heq⟩
    obtain ⟨t, ht, rfl⟩ := map_get hc
    rw [drop_of_get ht] at heq
    have hx : E.evalAtomsLoop d s (t :: G.atoms.drop (k + 1)) =
      (do let v ← E.evalLeaf d t
          E.evalAtomsLoop d (s ++ [v]) (G.atoms.drop (k + 1))) := rfl
    rw [hx] at heq
    unfold Evaluator.atomsBody
    refine post_bind (post_pure (post_bind ((evalLeaf_post hi hv' t).mono ?_ ?_)))
    · rintro v h'' ⟨hval, hout', hks'⟩
      refine post_append (hst.outside hout').1 ⟨(hout.trans hout').set (by omega) _, ?_, ?_, ?_,
        s ++ [v], ⟨?_, (hst.outside hout').2⟩, ?_⟩
      · intro a ha
        simp only [List.getElem?_set_ne (hlk a ha)]
        exact (hks' a ha).trans (hks a ha)
      · intro a o hne hp
        exact ((hpr a o hne hp).outside hout').set hne
      · refine get_set_other ?_ hvne
        rcases hvk with hvk | hvk
        · rw [hks' vr hvk, hv']
        · have hpv : Private h' vr (.vals d) :=
            Private.outside (h := h) ⟨hv, hvk⟩ hout
          exact (hpv.outside hout').1
      · rw [List.map_append]
        exact get_set_self (hst.outside hout').1
      · rw [heq, hval]; rfl
    · rintro err h'' ⟨herr, hout', hks'⟩
      refine ⟨?_, hout.trans hout', fun a ha => (hks' a ha).trans (hks a ha)⟩
      rw [hF, heq, herr]; rfl
  · exact ⟨n12.outside, fun a ha => by
      have := hkeep a ha
      obtain ⟨t, ht⟩ := n12.1
      rw [← ht, List.getElem?_append_left this],
      fun a o _ hp => hp, n12.get hv, [], private_new hs n12 (by omega) gs, rfl⟩
  rintro _ h3 ⟨hout3, hks3, hpr3, -, s3, hst3, heq3⟩
  rw [List.length_map, List.drop_length] at heq3
  have heq3' : E.evalAtomsLoop d [] G.atoms = .ok s3 := heq3
  rw [heq3'] at hF
  refine post_bind ((post_forList (cells := cells)
    (fun k h' => Outside h h' ∧ (∀ a, keep a → h'.objs[a]? = h.objs[a]?) ∧
      (∀ a o, st ≠ a → Private h2 a o → Private h' a o) ∧
      ∃ s, Private h' st (.list (s.map .val)) ∧
      E.evalOpsLoop s3 G.operations = E.evalOpsLoop s (G.operations.drop k))
    (fun err h' => E.evalForward e d = .error err ∧ Outside h h' ∧
        ∀ a, keep a → h'.objs[a]? = h.objs[a]?)
    (fun k h' hi => (hi.2.2.1 _ _ hne2 po).1) ?_ ?_).mono ?_ fun _ _ h => h)
  · rintro k c h' hc ⟨hout, hks, hpr, s, hst, heq⟩
    obtain ⟨⟨func, is⟩, hop, r, rfl, hr⟩ := forall₂_get gf hc
    rw [drop_of_get hop] at heq
    have hx : E.evalOpsLoop s ((func, is) :: G.operations.drop (k + 1)) =
      (do let vs ← (is.mapM (fun i => pyGet s i) : PyM (List T))
          let v ← E.evalOperation func vs
          E.evalOpsLoop (s ++ [v]) (G.operations.drop (k + 1))) := by
      conv => lhs; unfold Verif.Evaluator.evalOpsLoop
      rw [hlp]
    rw [hx] at heq
    unfold Evaluator.opsBody
    refine post_bind (post_readInts (hpr r _ (hne3 r is hr) (pin k r is _ hc hr)).1 (post_bind
      (post_readValues hst.1 (post_bind (post_lift (fun vs hvs => ?_) (fun err herr => ?_))))))
    · rw [hvs] at heq
      refine post_bind (post_new fun ar h4 ea el4 n4 gar => ?_)
      have hl := hout.1
      have hout4 := hout.trans n4.outside
      refine post_bind ((evalOperation_post (h0 := h) hi func (vs := vs) gar ?_ (by omega) hout4 ?_).mono
        ?_ ?_)
      · intro hk
        have := hkeep _ hk
        omega
      · intro a ha
        have := hkeep a ha
        obtain ⟨t, ht⟩ := n4.1
        rw [← ht, List.getElem?_append_left (by omega)]
        exact hks a ha
      · rintro v h5 ⟨hval, hout5, hks5, hpr5⟩
        have hstn : st ≠ ar := by have := get_lt hst.1; omega
        have hst5 := hpr5 st _ hstn (hst.new n4)
        refine post_append hst5.1 ⟨hout5.set (by omega) _, ?_, ?_, s ++ [v], ⟨?_, hst5.2⟩, ?_⟩
        · intro a ha
          simp only [List.getElem?_set_ne (hlk a ha)]
          exact hks5 a ha
        · intro a o hne hp
          have := hpr a o hne hp
          exact (hpr5 a o (by have := get_lt this.1; omega) (this.new n4)).set hne
        · rw [List.map_append]
          exact get_set_self hst5.1
        · rw [heq]
          show (do let v ← E.evalOperation func vs; _) = _
          rw [hval]; rfl
      · rintro err h5 ⟨herr, hout5, hks5⟩
        refine ⟨?_, hout5, hks5⟩
        rw [hF]
        show (do let r ← E.evalOpsLoop s3 G.operations; _) = _
        rw [heq]
        show (do let r ← (do let v ← E.evalOperation func vs; _); _) = _
        rw [herr]; rfl
    · refine ⟨?_, hout, hks⟩
      rw [hF]
      show (do let r ← E.evalOpsLoop s3 G.operations; _) = _
      rw [heq, herr]; rfl
  · exact ⟨hout3, hks3, hpr3, s3, hst3, rfl⟩
  · rintro _ h' ⟨hout, hks, _, s, hst, heq⟩
    have hl : cells.length = G.operations.length := gf.length_eq
    rw [hl, List.drop_length] at heq
    have heq' : E.evalOpsLoop s3 G.operations = .ok s := heq
    refine post_bind (post_readValues hst.1 (post_lift (fun a ha => ⟨?_, hout, hks⟩)
      (fun er he => ⟨?_, hout, hks⟩)))
    · rw [hF]
      show (do let r ← E.evalOpsLoop s3 G.operations; _) = _
      rw [heq']; exact ha
    · rw [hF]
      show (do let r ← E.evalOpsLoop s3 G.operations; _) = _
      rw [heq']; exact he

end Verif.Mem
