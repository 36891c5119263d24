import Verif.Lemmas.ContainersEval
import Verif.Model.Sym

/-!
# Lemmas about containers on a heap: rules, and programs that use the library
-/

namespace Verif.Mem
open Verif Spec
variable {V T α β : Type} {h h0 : Heap V T}

/-! ### Evaluation with the values copied -/

theorem symCall_post [HasNone T] {keep : Nat → Prop} {h : Heap Val T} {ev : Evaluator Val T}
    {E : Verif.Evaluator PyM Val T}
    (hi : Implements keep ev E) (hs : Sound h) (hkeep : ∀ a, keep a → a < h.objs.length)
    (values : Option Nat) (d : Option (Dict Expr T))
    (hd : match values, d with
      | none, none => True
      | some r, some d => h.objs[r]? = some (.vals d)
      | _, _ => False) (e : Expr) :
    Post (ev.symCall e values) h
      (fun v h' => symEvalCall E e d = .ok v ∧ Outside h h' ∧ ∀ a, keep a → h'.objs[a]? = h.objs[a]?)
      (fun err h' => symEvalCall E e d = .error err ∧ Outside h h' ∧
        ∀ a, keep a → h'.objs[a]? = h.objs[a]?) := by
  unfold Evaluator.symCall
  have key : ∀ (D : Dict Expr T), symEvalCall E e d = E.evalForward e D →
      Post (do let r ← M.alloc (.vals D); ev.evalForward e r) h
        (fun v h' => symEvalCall E e d = .ok v ∧ Outside h h' ∧ ∀ a, keep a → h'.objs[a]? = h.objs[a]?)
        (fun err h' => symEvalCall E e d = .error err ∧ Outside h h' ∧
          ∀ a, keep a → h'.objs[a]? = h.objs[a]?) := by
    intro D hD
    rw [hD]
    refine post_bind (post_new fun r h1 er el n g => ?_)
    have hold : ∀ a, keep a → h1.objs[a]? = h.objs[a]? := by
      intro a ha
      obtain ⟨t, ht⟩ := n.1
      rw [← ht, List.getElem?_append_left (hkeep a ha)]
    refine (evalForward_post hi (hs.new n) ?_ g (Or.inr ?_) e).mono ?_ ?_
    · intro a ha
      have := hkeep a ha
      omega
    · rw [n.2]
      intro hm
      have := hs r hm
      omega
    · rintro v h' ⟨h1, h2, h3⟩
      exact ⟨h1, n.outside.trans h2, fun a ha => (h3 a ha).trans (hold a ha)⟩
    · rintro v h' ⟨h1, h2, h3⟩
      exact ⟨h1, n.outside.trans h2, fun a ha => (h3 a ha).trans (hold a ha)⟩
  cases values with
  | none =>
    cases d with
    | none => exact key Dict.empty rfl
    | some d => exact hd.elim
  | some r =>
    cases d with
    | none => exact hd.elim
    | some d =>
      have := key (Dict.ofPairs d.items) rfl
      unfold Evaluator.newValues
      refine post_bind (post_bind (post_readVals hd ?_))
      unfold Post at this ⊢
      exact this

/-! ### Differentiators -/

theorem post_run {c : M V T α} {Q : α → Heap V T → Prop} {E : PyErr → Heap V T → Prop}
    (hp : Post c h Q E) :
    (∃ a, (c h).1 = .ok a ∧ Q a (c h).2) ∨ (∃ e, (c h).1 = .error e ∧ E e (c h).2) := by
  unfold Post at hp
  cases hc : c h with
  | mk r h' =>
    rw [hc] at hp
    cases r with
    | ok a => exact Or.inl ⟨a, rfl, hp⟩
    | error e => exact Or.inr ⟨e, rfl, hp⟩

theorem setItem_post {h : Heap Val T} (p : Props Val) (P : DiffProps Val)
    (d : Dict (Tree Val × Nat) Subs) (hd : h.objs[p.diffRules]? = some (.rules d))
    (expr sym dexpr : Expr) :
    Post (p.setItem expr sym dexpr) h
      (fun _ h' => ∃ head index f F h1,
        SymDifferentiator.setItem P expr sym dexpr = .ok (P.addDiffRule head index F) ∧
        OnlyNew h h1 ∧ IsSubs h1 f F ∧ NewAndDistinct h (subsRefs h1 f) ∧
        h' = { h1 with objs := h1.objs.set p.diffRules (.rules (d.set (head, index) f)) })
      (fun e h' => SymDifferentiator.setItem P expr sym dexpr = .error e ∧ OnlyNew h h') := by
  unfold Props.setItem SymDifferentiator.setItem
  refine post_bind (post_lift (fun head hh => ?_) (fun err he => ?_))
  · rw [hh]
    show Post (if (expr.children.drop 1).count sym ≠ 1 then _ else _) h _ _
    simp only [bind, Except.bind]
    split
    · refine post_lift (fun _ hh => by cases hh) (fun err he => ?_)
      cases he
      exact ⟨rfl, OnlyNew.refl _⟩
    · refine post_bind (post_new fun ar h1 ea el n1 ga => ?_)
      refine post_bind ((subsNew_post dexpr ar (expr.children.drop 1) ga).of_noErr ?_)
      rintro f h2 ⟨F, hF, n2, hs, hfr⟩
      refine post_bind (post_readRules (n2.get (n1.get hd)) (post_write ?_))
      refine ⟨head, (expr.children.drop 1).idxOf sym, f, F, h2, ?_, n1.trans n2, hs, ⟨?_, hfr.2⟩, rfl⟩
      · rw [hF]; rfl
      · intro r hr
        have := hfr.1 r hr
        have := n1.le
        omega
  · rw [he]
    exact ⟨rfl, OnlyNew.refl _⟩

/-! ### Programs that use the library -/

/-- A `SubsFunc` whose containers outside code cannot reach. -/
def PSubs (h : Heap V T) (f : Subs) (F : SubsFunc V) : Prop :=
  IsSubs h f F ∧ ∀ a ∈ subsRefs h f, a ∉ h.user

/-- A `DiffProperties` whose containers outside code cannot reach. -/
def PProps (h : Heap V T) (p : Props V) (P : DiffProps V) : Prop :=
  IsProps h p P ∧ ∀ a ∈ propsRefs h p, a ∉ h.user

theorem subsRefs_list {f : Subs} {F : SubsFunc V} (hs : IsSubs h f F) {a : Nat}
    (ha : a ∈ subsRefs h f) : ∃ l, h.objs[a]? = some (.list l) := by
  obtain ⟨h1, h2, cells, h3, h4⟩ := hs
  have hin : innerRefs h f.operations = cells.flatMap cellRefs := by simp [innerRefs, h3]
  simp only [subsRefs, hin, List.mem_append, List.mem_cons, List.not_mem_nil, or_false,
    List.mem_flatMap] at ha
  rcases ha with (rfl | rfl) | ⟨c, hc, hac⟩
  · exact ⟨_, h2⟩
  · exact ⟨_, h3⟩
  · obtain ⟨k, hk⟩ := List.mem_iff_getElem?.1 hc
    obtain ⟨is, -, r, rfl, hr⟩ := forall₂_get h4 hk
    simp only [cellRefs, List.mem_singleton] at hac
    subst hac
    exact ⟨_, hr⟩

/-- Lists that outside code cannot reach stay as they are. -/
def KeepsLists (h h' : Heap V T) : Prop :=
  ∀ a l, Private h a (.list l) → Private h' a (.list l)

theorem subsRefs_keep {h' : Heap V T} {f : Subs} {F : SubsFunc V} (hs : PSubs h f F)
    (hk : KeepsLists h h') : subsRefs h' f = subsRefs h f := by
  obtain ⟨⟨h1, h2, cells, h3, h4⟩, hu⟩ := hs
  have := hk f.operations cells ⟨h3, hu _ (by simp [subsRefs])⟩
  unfold subsRefs innerRefs
  rw [h3, this.1]

theorem PSubs.keep {h' : Heap V T} {f : Subs} {F : SubsFunc V} (hs : PSubs h f F)
    (hk : KeepsLists h h') : PSubs h' f F := by
  refine ⟨hs.1.mono ?_, ?_⟩
  · intro a o ha ho
    obtain ⟨l, hl⟩ := subsRefs_list hs.1 ha
    rw [hl] at ho
    cases ho
    exact (hk a l ⟨hl, hs.2 a ha⟩).1
  · intro a ha
    rw [subsRefs_keep hs hk] at ha
    obtain ⟨l, hl⟩ := subsRefs_list hs.1 ha
    exact (hk a l ⟨hl, hs.2 a ha⟩).2

theorem PProps.mk' {p : Props V} {P : DiffProps V} (e1 : p.zero = P.zero) (e2 : p.one = P.one)
    (e3 : p.add = P.add) (e4 : p.mul = P.mul) (hd : Private h p.distributive (.set P.distributive))
    (d : Dict (Tree V × Nat) Subs) (hr : Private h p.diffRules (.rules d))
    (hf : List.Forall₂ (fun a b => a.1 = b.1 ∧ PSubs h a.2 b.2) d.items P.diffRules.items) :
    PProps h p P := by
  refine ⟨⟨e1, e2, e3, e4, hd.1, d, hr.1, forall₂_imp_mem hf fun a b _ hab => ⟨hab.1, hab.2.1⟩⟩, ?_⟩
  intro a ha
  simp only [propsRefs, ruleRefs, hr.1, List.mem_append, List.mem_cons, List.not_mem_nil, or_false,
    List.mem_flatMap] at ha
  rcases ha with (rfl | rfl) | ⟨c, hc, hac⟩
  · exact hd.2
  · exact hr.2
  · obtain ⟨k, hk⟩ := List.mem_iff_getElem?.1 hc
    obtain ⟨b, -, -, hb⟩ := forall₂_get hf hk
    exact hb.2 a hac

theorem PProps.parts {p : Props V} {P : DiffProps V} (hp : PProps h p P) :
    p.zero = P.zero ∧ p.one = P.one ∧ p.add = P.add ∧ p.mul = P.mul ∧
    Private h p.distributive (.set P.distributive) ∧ ∃ d, Private h p.diffRules (.rules d) ∧
    List.Forall₂ (fun a b => a.1 = b.1 ∧ PSubs h a.2 b.2) d.items P.diffRules.items := by
  obtain ⟨⟨h1, h2, h3, h4, h5, d, h6, h7⟩, hu⟩ := hp
  refine ⟨h1, h2, h3, h4, ⟨h5, hu _ (by simp [propsRefs])⟩, d, ⟨h6, hu _ (by simp [propsRefs])⟩, ?_⟩
  refine forall₂_imp_mem h7 ?_
  rintro a b ha ⟨hk, hs⟩
  refine ⟨hk, hs, fun r hr => hu r ?_⟩
  simp only [propsRefs, ruleRefs, h6, List.mem_append, List.mem_flatMap]
  exact Or.inr ⟨a, ha, hr⟩

theorem PProps.keep {h' : Heap V T} {p : Props V} {P : DiffProps V} (hp : PProps h p P)
    (hk : KeepsLists h h')
    (hd : ∀ o, Private h p.distributive o → Private h' p.distributive o)
    (hr : ∀ o, Private h p.diffRules o → Private h' p.diffRules o) : PProps h' p P := by
  obtain ⟨h1, h2, h3, h4, h5, d, h6, h7⟩ := hp.parts
  exact PProps.mk' h1 h2 h3 h4 (hd _ h5) d (hr _ h6)
    (forall₂_imp_mem h7 fun a b _ hab => ⟨hab.1, hab.2.keep hk⟩)

/-- What holds in every state that a program can reach. -/
structure Inv {T : Type} (s : Session T) (t : Meanings) : Prop where
  sound : Sound s.heap
  subs : List.Forall₂ (PSubs s.heap) s.subs t.subs
  diffs : List.Forall₂ (PProps s.heap) s.diffs t.diffs
  sets : (s.diffs.map (·.distributive)).Nodup
  dicts : (s.diffs.map (·.diffRules)).Nodup

/-- Steps that leave everything alone that outside code cannot reach. -/
theorem Inv.outside {T : Type} {s : Session T} {t : Meanings} (hi : Inv s t) {h' : Heap Val T}
    (ho : Outside s.heap h') : Inv { s with heap := h' } t where
  sound := hi.sound.outside ho
  subs := forall₂_imp_mem hi.subs fun _ _ _ hs => hs.keep fun _ _ hp => hp.outside ho
  diffs := forall₂_imp_mem hi.diffs fun _ _ _ hs => hs.keep (fun _ _ hp => hp.outside ho)
    (fun _ hp => hp.outside ho) (fun _ hp => hp.outside ho)
  sets := hi.sets
  dicts := hi.dicts

theorem outside_gives {h h' : Heap V T} (ho : Outside h h') (rs : List Nat)
    (hr : ∀ r ∈ rs, h.objs.length ≤ r ∧ r < h'.objs.length) :
    Outside h { h' with user := rs ++ h'.user } := by
  obtain ⟨a1, a2, a3⟩ := ho
  refine ⟨a1, a2, ?_⟩
  intro b hb
  rcases List.mem_append.1 hb with hb | hb
  · exact Or.inr (hr b hb)
  · exact a3 b hb

theorem graphRefs_lt {g : Graph} {G : ForwardGraph V} (hg : IsGraph h g G) {a : Nat}
    (ha : a ∈ graphRefs h g) : a < h.objs.length := by
  obtain ⟨h1, h2, cells, h3, h4⟩ := hg
  have hin : innerRefs h g.operations = cells.flatMap cellRefs := by simp [innerRefs, h3]
  simp only [graphRefs, hin, List.mem_append, List.mem_cons, List.not_mem_nil, or_false,
    List.mem_flatMap] at ha
  rcases ha with (rfl | rfl | rfl) | ⟨c, hc, hac⟩
  · exact get_lt h1
  · exact get_lt h2
  · exact get_lt h3
  · obtain ⟨k, hk⟩ := List.mem_iff_getElem?.1 hc
    obtain ⟨is, -, r, rfl, hr⟩ := forall₂_get h4 hk
    simp only [cellRefs, List.mem_singleton] at hac
    subst hac
    exact get_lt hr

theorem run_ok {c : M V T α} {Q : α → Heap V T → Prop} {E : PyErr → Heap V T → Prop} {a : α}
    {h' : Heap V T} (hp : Post c h Q E) (hr : c h = (.ok a, h')) : Q a h' := by
  unfold Post at hp
  rw [hr] at hp
  exact hp

theorem run_any {c : M V T α} {P : Heap V T → Prop} {Q : α → Heap V T → Prop}
    {E : PyErr → Heap V T → Prop} (hp : Post c h Q E) (h1 : ∀ a h', Q a h' → P h')
    (h2 : ∀ e h', E e h' → P h') : P (c h).2 := by
  rcases post_run hp with ⟨a, -, hq⟩ | ⟨a, -, hq⟩
  · exact h1 _ _ hq
  · exact h2 _ _ hq

theorem forall₂_set {γ δ : Type} {R R' : γ → δ → Prop} {l : List γ} {l' : List δ}
    (hf : List.Forall₂ R l l') : ∀ (i : Nat) (a : γ) (b' : δ), l[i]? = some a → R' a b' →
    (∀ (j : Nat) a b, j ≠ i → l[j]? = some a → R a b → R' a b) → List.Forall₂ R' l (l'.set i b') := by
  induction hf with
  | nil => intro i a b' ha; simp at ha
  | @cons x y l l' hxy hf ih =>
    intro i a b' ha hi ho
    cases i with
    | zero =>
      cases ha
      refine .cons hi ?_
      have hrest : ∀ (j : Nat) a b, l[j]? = some a → R a b → R' a b := fun j a b hj hR =>
        ho (j + 1) a b (by omega) (by simpa using hj) hR
      clear ih ho
      refine forall₂_imp_mem hf ?_
      intro a b hm hR
      obtain ⟨k, hk⟩ := List.mem_iff_getElem?.1 hm
      exact hrest k a b hk hR
    | succ i =>
      refine .cons (ho 0 x y (by omega) rfl hxy) (ih i a b' (by simpa using ha) hi ?_)
      intro j a b hj hja hR
      exact ho (j + 1) a b (by omega) (by simpa using hja) hR

theorem nodup_other {γ : Type} {f : γ → Nat} {l : List γ} (hn : (l.map f).Nodup) {i j : Nat} {a b : γ}
    (ha : l[i]? = some a) (hb : l[j]? = some b) (hne : j ≠ i) : f b ≠ f a := by
  intro heq
  have h1 : (l.map f)[i]? = some (f a) := by rw [List.getElem?_map, ha]; rfl
  have h2 : (l.map f)[j]? = some (f a) := by rw [List.getElem?_map, hb, ← heq]; rfl
  have hlt : i < (l.map f).length := (List.getElem?_eq_some_iff.1 h1).1
  exact hne ((List.getElem?_inj hlt hn).1 (h1.trans h2.symm)).symm

theorem Inv.diff_get {T : Type} {s : Session T} {t : Meanings} (hi : Inv s t) {i : Nat}
    {p : Props Val} {P : DiffProps Val} (hp : s.diffs[i]? = some p) (hP : t.diffs[i]? = some P) :
    PProps s.heap p P := by
  obtain ⟨P', hP', hpp⟩ := forall₂_get hi.diffs hp
  rw [hP] at hP'
  cases hP'
  exact hpp

theorem private_write {r : Nat} {o o' : Obj V T} (hp : Private h r o) :
    Private { h with objs := h.objs.set r o' } r o' := ⟨get_set_self hp.1, hp.2⟩

theorem keepsLists_write {r : Nat} {o o' : Obj V T} (hr : h.objs[r]? = some o) (hne : ∀ l, o ≠ .list l) :
    KeepsLists h { h with objs := h.objs.set r o' } := by
  intro a l hp
  refine hp.set ?_
  rintro rfl
  rw [hp.1] at hr
  exact hne l (Option.some.inj hr).symm

theorem NewAndDistinct.private {h' : Heap V T} {f : Subs} {F : SubsFunc V} (hs : Sound h)
    (hn : OnlyNew h h') (hf : IsSubs h' f F) (hd : NewAndDistinct h (subsRefs h' f)) : PSubs h' f F := by
  refine ⟨hf, ?_⟩
  intro a ha hm
  rw [hn.2] at hm
  have := hs a hm
  have := hd.1 a ha
  omega

theorem reaches_inv [HasNone T] {s : Session T} {t : Meanings} (hr : Reaches s t) : Inv s t := by
  induction hr with
  | start h hs => exact ⟨hs, .nil, .nil, by simp, by simp⟩
  | outside h' _ ho ih => exact ih.outside ho
  | @sort s t heads exclude l e r h' _ hl hrun ih =>
    obtain ⟨h1, h2, h3⟩ := run_ok (topologicalSort_post heads exclude l hl e) hrun
    exact ih.outside (h1.outside.give h2 (get_lt h3))
  | @split s t exclude l e a b c h' _ hl hrun ih =>
    obtain ⟨h1, ⟨h2, -⟩, h3, h4, h5⟩ := run_ok (topologicalSplit_post exclude l hl e) hrun
    refine ih.outside (outside_gives h1.outside _ ?_)
    intro r hr
    refine ⟨h2 r hr, ?_⟩
    simp only [List.mem_cons, List.not_mem_nil, or_false] at hr
    rcases hr with rfl | rfl | rfl
    · exact get_lt h3
    · exact get_lt h4
    · exact get_lt h5
  | @graph s t e g h' _ hrun ih =>
    obtain ⟨G, -, h1, h2, h3, -⟩ := run_ok (forwardGraph_post e) hrun
    exact ih.outside (outside_gives h1.outside _ fun r hr => ⟨h3 r hr, graphRefs_lt h2 hr⟩)
  | @newSubs s t e args ps f h' F _ hps hrun hF ih =>
    obtain ⟨F', hF', h1, h2, h3⟩ := run_ok (subsNew_post e args ps hps) hrun
    rw [hF] at hF'
    cases hF'
    have := ih.outside h1.outside
    exact ⟨this.sound, List.rel_append this.subs (.cons (NewAndDistinct.private ih.sound h1 h2 h3) .nil),
      this.diffs, this.sets, this.dicts⟩
  | @callSubs s t f args _ hf ih =>
    obtain ⟨k, hk⟩ := List.mem_iff_getElem?.1 hf
    obtain ⟨F, -, hfF⟩ := forall₂_get ih.subs hk
    exact ih.outside (run_any (subsCall_post f F hfF.1 args) (fun _ _ hh => hh.2.outside)
      (fun _ _ hh => hh.2.outside))
  | @newDiff s t add mul zero one p h' _ hrun ih =>
    have hpost : Post (Props.new add mul zero one) s.heap (fun p h' => OnlyNew s.heap h' ∧
        s.heap.objs.length ≤ p.distributive ∧ s.heap.objs.length ≤ p.diffRules ∧
        PProps h' p (SymDifferentiator.new add mul zero one)) noErr := by
      unfold Props.new
      refine post_bind (post_new fun a h1 ea el n1 ga => post_bind (post_new fun b h2 eb el2 n2 gb =>
        post_pure ⟨n1.trans n2, by simp only; omega, by simp only; omega, ?_⟩))
      exact PProps.mk' rfl rfl rfl rfl (private_new ih.sound (n1.trans n2) (by simp only; omega) (n2.get ga))
        Dict.empty (private_new ih.sound (n1.trans n2) (by simp only; omega) gb) .nil
    obtain ⟨h1, h2, h3, h4⟩ := run_ok hpost hrun
    have := ih.outside h1.outside
    refine ⟨this.sound, this.subs, List.rel_append this.diffs (.cons h4 .nil), ?_, ?_⟩
    · rw [List.map_append, List.nodup_append]
      refine ⟨ih.sets, by simp, ?_⟩
      intro a ha b hb hab
      obtain ⟨q, hq, rfl⟩ := List.mem_map.1 ha
      obtain ⟨k, hk⟩ := List.mem_iff_getElem?.1 hq
      obtain ⟨Q, -, hQ⟩ := forall₂_get ih.diffs hk
      have hlt := get_lt hQ.parts.2.2.2.2.1.1
      simp only [List.map_cons, List.map_nil, List.mem_singleton] at hb
      omega
    · rw [List.map_append, List.nodup_append]
      refine ⟨ih.dicts, by simp, ?_⟩
      intro a ha b hb hab
      obtain ⟨q, hq, rfl⟩ := List.mem_map.1 ha
      obtain ⟨k, hk⟩ := List.mem_iff_getElem?.1 hq
      obtain ⟨Q, -, hQ⟩ := forall₂_get ih.diffs hk
      obtain ⟨d, hd, -⟩ := hQ.parts.2.2.2.2.2
      have hlt := get_lt hd.1
      simp only [List.map_cons, List.map_nil, List.mem_singleton] at hb
      omega
  | @addDistributive s t i p P head _ hp hP ih =>
    have hpp := ih.diff_get hp hP
    obtain ⟨e1, e2, e3, e4, hset, d, hrules, hf⟩ := hpp.parts
    have hpost : Post (p.addDistributive head) s.heap (fun _ h' => h' = { s.heap with
        objs := s.heap.objs.set p.distributive (.set (head :: P.distributive)) }) noErr := by
      unfold Props.addDistributive
      exact post_addSet hset.1 rfl
    have hrun : (p.addDistributive head s.heap).2 = { s.heap with
        objs := s.heap.objs.set p.distributive (.set (head :: P.distributive)) } :=
      run_any hpost (fun _ _ hh => hh) (fun _ _ hh => hh.elim)
    rw [hrun]
    have hk : KeepsLists s.heap { s.heap with
        objs := s.heap.objs.set p.distributive (.set (head :: P.distributive)) } :=
      keepsLists_write hset.1 (by simp)
    have hsr : ∀ q Q, PProps s.heap q Q → q.diffRules ≠ p.distributive := by
      intro q Q hq
      obtain ⟨d', hd', -⟩ := hq.parts.2.2.2.2.2
      exact ne_of_get hd'.1 hset.1 (by simp)
    refine ⟨?_, forall₂_imp_mem ih.subs fun _ _ _ hs => hs.keep hk, ?_, ih.sets, ih.dicts⟩
    · intro a ha
      simpa using ih.sound a ha
    · refine forall₂_set ih.diffs i p _ hp ?_ ?_
      · exact PProps.mk' e1 e2 e3 e4 (private_write hset) d (hrules.set (hsr p P hpp).symm)
          (forall₂_imp_mem hf fun a b _ hab => ⟨hab.1, hab.2.keep hk⟩)
      · intro j q Q hj hq hQ
        exact hQ.keep hk (fun o ho => ho.set (nodup_other ih.sets hp hq hj).symm)
          (fun o ho => ho.set (hsr q Q hQ).symm)
  | @assign s t i p P expr sym dexpr P' _ hp hP hset ih =>
    have hpp := ih.diff_get hp hP
    obtain ⟨e1, e2, e3, e4, hdist, d, hrules, hf⟩ := hpp.parts
    rcases post_run (setItem_post p P d hrules.1 expr sym dexpr) with
      ⟨_, -, head, index, f, F, h1, hok, hn, hsf, hfr, hh'⟩ | ⟨e, -, herr, -⟩
    · rw [hset] at hok
      cases hok
      rw [hh']
      have ih1 := ih.outside hn.outside
      have hk : KeepsLists h1 { h1 with
          objs := h1.objs.set p.diffRules (.rules (d.set (head, index) f)) } :=
        keepsLists_write (hn.get hrules.1) (by simp)
      have hsr : ∀ q Q, PProps h1 q Q → q.distributive ≠ p.diffRules := by
        intro q Q hq
        exact ne_of_get hq.parts.2.2.2.2.1.1 (hn.get hrules.1) (by simp)
      have hpp1 : PProps h1 p P := ih1.diff_get (s := { s with heap := h1 }) hp hP
      refine ⟨?_, forall₂_imp_mem ih1.subs fun _ _ _ hs => hs.keep hk, ?_, ih.sets, ih.dicts⟩
      · intro a ha
        simpa using ih1.sound a ha
      · refine forall₂_set ih1.diffs i p _ hp ?_ ?_
        · refine PProps.mk' e1 e2 e3 e4 ((hdist.new hn).set (hsr p P hpp1).symm) _
            (private_write (hrules.new hn)) ?_
          refine rules_assign (forall₂_imp_mem hf fun a b _ hab => ⟨hab.1, ?_⟩) _ ?_
          · exact (hab.2.keep fun _ _ hp => hp.new hn).keep hk
          · exact (NewAndDistinct.private ih.sound hn hsf hfr).keep hk
        · intro j q Q hj hq hQ
          exact hQ.keep hk (fun o ho => ho.set (hsr q Q hQ).symm)
            (fun o ho => ho.set (nodup_other ih.dicts hp hq hj).symm)
    · rw [hset] at herr
      cases herr
  | @assignError s t i p P expr sym dexpr err _ hp hP hset ih =>
    have hpp := ih.diff_get hp hP
    obtain ⟨e1, e2, e3, e4, hdist, d, hrules, hf⟩ := hpp.parts
    rcases post_run (setItem_post p P d hrules.1 expr sym dexpr) with
      ⟨_, -, head, index, f, F, h1, hok, hn, hsf, hfr, hh'⟩ | ⟨e, -, herr, hn⟩
    · rw [hset] at hok
      cases hok
    · exact ih.outside hn.outside
  | @diff s t p e sym n _ hp ih =>
    obtain ⟨k, hk⟩ := List.mem_iff_getElem?.1 hp
    obtain ⟨P, -, hP⟩ := forall₂_get ih.diffs hk
    exact ih.outside (run_any (iterate_post p P sym n.toNat s.heap e hP.1)
      (fun _ _ hh => hh.1.outside) (fun _ _ hh => hh.1.outside))
  | @evaluate s t ev E e r d _ hi hv ih =>
    exact ih.outside (run_any (evalForward_post hi ih.sound (fun a ha => by subst ha; exact get_lt hv) hv
      (Or.inl rfl) e) (fun _ _ hh => hh.2.1) (fun _ _ hh => hh.2.1))
  | @symEvaluate s t ev E e values _ hi hv ih =>
    cases values with
    | none =>
      exact ih.outside (run_any (symCall_post hi ih.sound (fun a ha => ha.elim) none none trivial e)
        (fun _ _ hh => hh.2.1) (fun _ _ hh => hh.2.1))
    | some r =>
      obtain ⟨d, hd⟩ := hv r rfl
      exact ih.outside (run_any (symCall_post hi ih.sound (fun a ha => ha.elim) (some r) (some d) hd e)
        (fun _ _ hh => hh.2.1) (fun _ _ hh => hh.2.1))

end Verif.Mem
