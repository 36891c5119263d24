import Verif.Lemmas.ClientLogic
import Verif.Lemmas.Dict

/-!
# The programs of `Model/ClientTree.lean` on values: sorting and graphs
-/

set_option linter.unusedSectionVars false

namespace Verif.Store
open List (Forall₂)
variable {V K α β A B : Type} [DecidableEq K] [PyVal V K] {vals vals' : List (Ex K)}

theorem At.mono {h : Nat} {t : Tree K} (ha : At vals h t) (hp : vals <+: vals') : At vals' h t := by
  obtain ⟨l, rfl⟩ := hp
  unfold At at *
  rw [List.getElem?_append_left]
  · exact ha
  · exact (List.getElem?_eq_some_iff.1 ha).1

theorem Ats.mono {hs : List Nat} {ts : List (Tree K)} (ha : Ats vals hs ts) (hp : vals <+: vals') :
    Ats vals' hs ts := ha.imp (fun _ _ h => h.mono hp)

theorem Ats.length {hs : List Nat} {ts : List (Tree K)} (ha : Ats vals hs ts) :
    hs.length = ts.length := ha.length_eq

theorem Ats.nil : Ats vals [] ([] : List (Tree K)) := Forall₂.nil
theorem Ats.cons {h : Nat} {t : Tree K} {hs : List Nat} {ts : List (Tree K)} (h1 : At vals h t)
    (h2 : Ats vals hs ts) : Ats vals (h :: hs) (t :: ts) := Forall₂.cons h1 h2
theorem Ats.append {hs hs' : List Nat} {ts ts' : List (Tree K)} (h1 : Ats vals hs ts)
    (h2 : Ats vals hs' ts') : Ats vals (hs ++ hs') (ts ++ ts') := List.rel_append h1 h2
theorem Ats.one {h : Nat} {t : Tree K} (h1 : At vals h t) : Ats vals [h] [t] := Forall₂.cons h1 .nil

theorem forall₂_getElem? {R : α → β → Prop} {l : List α} {m : List β} (h : Forall₂ R l m) (n : Nat) :
    (l[n]? = none ∧ m[n]? = none) ∨ ∃ a b, l[n]? = some a ∧ m[n]? = some b ∧ R a b := by
  induction h generalizing n with
  | nil => left; simp
  | @cons a b l m hab _ ih =>
    cases n with
    | zero => right; exact ⟨a, b, rfl, rfl, hab⟩
    | succ n => simpa using ih n

theorem pyGet_rel {R : α → β → Prop} {l : List α} {m : List β} (h : Forall₂ R l m) (n : Nat) :
    Agree R (pyGet l n) (pyGet m n) := by
  rcases forall₂_getElem? h n with ⟨h1, h2⟩ | ⟨a, b, h1, h2, h3⟩
  · simp [pyGet, h1, h2, Agree]
  · simp [pyGet, h1, h2, Agree, h3]

theorem snoc_cases (l : List α) : l = [] ∨ ∃ r a, l = r ++ [a] := by
  rcases List.eq_nil_or_concat l with h | ⟨r, a, h⟩
  · exact Or.inl h
  · exact Or.inr ⟨r, a, by simpa using h⟩

theorem forall₂_snoc {R : α → β → Prop} {l : List α} {a : α} {m : List β} (h : Forall₂ R (l ++ [a]) m) :
    ∃ m' b, m = m' ++ [b] ∧ Forall₂ R l m' ∧ R a b := by
  induction l generalizing m with
  | nil =>
    cases h with
    | cons h1 h2 => cases h2; exact ⟨[], _, rfl, .nil, h1⟩
  | cons c l ih =>
    cases h with
    | @cons _ b _ m h1 h2 =>
      obtain ⟨m', b', rfl, h3, h4⟩ := ih h2
      exact ⟨b :: m', b', rfl, .cons h1 h3, h4⟩

theorem pyPop_snoc (l : List α) (a : α) : pyPop (l ++ [a]) = some (a, l) := by
  simp [pyPop]

theorem pyPop_rel {R : α → β → Prop} {l : List α} {m : List β} (h : Forall₂ R l m) :
    (pyPop l = none ∧ pyPop m = none) ∨
    ∃ a r b s, pyPop l = some (a, r) ∧ pyPop m = some (b, s) ∧ R a b ∧ Forall₂ R r s := by
  rcases snoc_cases l with rfl | ⟨r, a, rfl⟩
  · cases h; exact Or.inl ⟨rfl, rfl⟩
  · obtain ⟨s, b, rfl, h1, h2⟩ := forall₂_snoc h
    exact Or.inr ⟨a, r, b, s, pyPop_snoc _ _, pyPop_snoc _ _, h2, h1⟩

theorem pyLast_rel {R : α → β → Prop} {l : List α} {m : List β} (h : Forall₂ R l m) :
    Agree R (pyLast l) (pyLast m) := by
  rcases snoc_cases l with rfl | ⟨r, a, rfl⟩
  · cases h; simp [pyLast, Agree]
  · obtain ⟨s, b, rfl, h1, h2⟩ := forall₂_snoc h
    simp [pyLast, Agree, h2]

theorem Computes.ofPy {rel : List (Ex K) → α → A → Prop} {r : PyM α} {x : PyM A}
    (h : Agree (rel vals) r x) : Computes vals (Prog.ofPy r : Prog V K α) rel x :=
  ⟨r, vals, .refl, List.prefix_refl _, h⟩

/-! ### Comparisons and constructors -/

theorem computes_same {h h' : Nat} {t t' : Tree K} {k : Bool → Prog V K α}
    {rel : List (Ex K) → α → A → Prop} {x : PyM A} (h1 : At vals h t) (h2 : At vals h' t')
    (hk : Computes vals (k (decide (t = t'))) rel x) : Computes vals (.same h h' k) rel x := by
  refine Computes.step (p' := k (decide (t = t'))) (vals' := vals) ?_ (List.prefix_refl _) hk
  unfold At at h1 h2
  simp only [valueStep, h1, h2]
  congr 3
  simp

theorem computes_eq {h h' : Nat} {t t' : Tree K} (h1 : At vals h t) (h2 : At vals h' t') :
    Computes vals (Prog.eq h h' : Prog V K Bool) (fun _ b c => b = c) (.ok (decide (t = t'))) :=
  computes_same h1 h2 (.ret rfl)

theorem computes_mem {h : Nat} {t : Tree K} {hs : List Nat} {ts : List (Tree K)} (h1 : At vals h t)
    (h2 : Ats vals hs ts) :
    Computes vals (Prog.mem h hs : Prog V K Bool) (fun _ b c => b = c) (.ok (decide (t ∈ ts))) := by
  induction h2 with
  | nil => exact .ret (by simp)
  | @cons h' t' hs ts h3 _ ih =>
    unfold Prog.mem
    refine computes_same h1 h3 ?_
    by_cases ht : t = t'
    · simp only [ht, decide_true, if_true]
      exact .ret (by simp)
    · simp only [ht, decide_false, Bool.false_eq_true, if_false]
      have : decide (t ∈ t' :: ts) = decide (t ∈ ts) := by simp [ht]
      rw [this]
      exact ih

theorem treeAt_at {h : Nat} {t : Tree K} (ha : At vals h t) : treeAt vals h = some t := by
  unfold At at ha
  simp [treeAt, ha]

theorem mapM_treeAt {hs : List Nat} {ts : List (Tree K)} (h : Ats vals hs ts) :
    hs.mapM (treeAt vals) = some ts := by
  induction h with
  | nil => rfl
  | cons h1 _ ih => rw [List.mapM_cons, treeAt_at h1, ih]; rfl

theorem computes_tree {cs : List Nat} {ts : List (Tree K)} (h : Ats vals cs ts) :
    Computes vals (Prog.tree cs : Prog V K Nat) At (.ok (.node ts)) := by
  refine Computes.step (p' := .ret vals.length) (vals' := vals ++ [.tree (.node ts)]) ?_
    (List.prefix_append _ _) (.ret ?_)
  · simp only [Prog.tree, valueStep, valueOf, mapM_treeAt h, Option.map_some]
  · simp [At]

theorem computes_call {f : Nat} {t : Tree K} {cs : List Nat} {ts : List (Tree K)} (hf : At vals f t)
    (h : Ats vals cs ts) :
    Computes vals (Prog.call f cs : Prog V K Nat) At (.ok (t.call ts)) :=
  computes_tree (.cons hf h)

theorem ats_range' (ts : List (Tree K)) : ∀ pre : List (Ex K),
    Ats (pre ++ ts.map .tree) (List.range' pre.length ts.length) ts := by
  induction ts with
  | nil => intro pre; exact .nil
  | cons t ts ih =>
    intro pre
    have := ih (pre ++ [.tree t])
    simp only [List.length_append, List.length_cons, List.length_nil, List.append_assoc,
      List.cons_append, List.nil_append] at this
    simp only [List.length_cons, List.range'_succ, List.map_cons]
    refine .cons ?_ this
    simp [At]

theorem computes_children {h : Nat} {t : Tree K} (ha : At vals h t) :
    Computes vals (Prog.children h : Prog V K (List Nat)) Ats (.ok t.children) := by
  unfold At at ha
  cases t with
  | atom a =>
    refine Computes.step (p' := .ret []) (vals' := vals ++ [.atom a]) ?_ (List.prefix_append _ _)
      (.ret .nil)
    simp only [valueStep, Prog.children, ha, Option.map_some, Ex.parts, Ex.view]
  | node ts =>
    refine Computes.step (p' := .ret (List.range' vals.length ts.length))
      (vals' := vals ++ ts.map .tree) ?_ (List.prefix_append _ _) (.ret (ats_range' ts vals))
    simp only [valueStep, Prog.children, ha, Option.map_some, Ex.parts, Ex.view]

/-! ### Comprehensions -/

theorem computes_each {f : α → Prog V K β} {F : A → PyM B} {relI : List (Ex K) → α → A → Prop}
    {relO : List (Ex K) → β → B → Prop}
    (monoI : ∀ {v v' : List (Ex K)} {a b}, relI v a b → v <+: v' → relI v' a b)
    (monoO : ∀ {v v' : List (Ex K)} {a b}, relO v a b → v <+: v' → relO v' a b)
    (h : ∀ v a b, vals <+: v → relI v a b → Computes v (f a) relO (F b)) :
    ∀ (v : List (Ex K)) (as : List α) (bs : List A), vals <+: v → Forall₂ (relI v) as bs →
      Computes v (Prog.each f as) (fun v' => Forall₂ (relO v')) (bs.mapM F) := by
  intro v as
  induction as generalizing v with
  | nil => intro bs hv hab; cases hab; exact .ret .nil
  | cons a as ih =>
    intro bs hv hab
    cases hab with
    | @cons _ b _ bs h1 h2 =>
      rw [List.mapM_cons]
      refine Computes.bind (h v a b hv h1) ?_
      intro v' c d hp hcd
      refine Computes.bind (ih v' bs (hv.trans hp) (h2.imp (fun _ _ h => monoI h hp))) ?_
      intro v'' cs ds hp' hcds
      exact .pure (.cons (monoO hcd hp') hcds)

theorem computes_keep {f : Nat → Prog V K Bool} {F : Tree K → Bool}
    (h : ∀ v a b, vals <+: v → At v a b → Computes v (f a) (fun _ x y => x = y) (.ok (F b))) :
    ∀ (v : List (Ex K)) (as : List Nat) (bs : List (Tree K)), vals <+: v → Ats v as bs →
      Computes v (Prog.keep f as) Ats (.ok (bs.filter F)) := by
  intro v as
  induction as generalizing v with
  | nil => intro bs hv hab; cases hab; exact .ret .nil
  | cons a as ih =>
    intro bs hv hab
    cases hab with
    | @cons _ b _ bs h1 h2 =>
      refine Computes.bindOk (h v a b hv h1) ?_
      rintro v' _ hp rfl
      refine Computes.bindOk (ih v' bs (hv.trans hp) (Ats.mono h2 hp)) ?_
      intro v'' r hp' hr
      refine .pure ?_
      rw [List.filter_cons]
      split
      · exact .cons ((h1.mono hp).mono hp') hr
      · exact hr

theorem computes_anyOf {f : Nat → Prog V K Bool} {F : Tree K → Bool}
    (h : ∀ v a b, vals <+: v → At v a b → Computes v (f a) (fun _ x y => x = y) (.ok (F b))) :
    ∀ (v : List (Ex K)) (as : List Nat) (bs : List (Tree K)), vals <+: v → Ats v as bs →
      Computes v (Prog.anyOf f as) (fun _ x y => x = y) (.ok (bs.any F)) := by
  intro v as
  induction as generalizing v with
  | nil => intro bs hv hab; cases hab; exact .ret rfl
  | cons a as ih =>
    intro bs hv hab
    cases hab with
    | @cons _ b _ bs h1 h2 =>
      refine Computes.bindOk (h v a b hv h1) ?_
      rintro v' _ hp rfl
      refine Computes.bindOk (ih v' bs (hv.trans hp) (Ats.mono h2 hp)) ?_
      rintro v'' _ hp' rfl
      exact .pure (by simp)

/-! ### Dictionaries -/

/-- The dictionary of objects means the dictionary of expressions. -/
def DictAt {W : Type} (vals : List (Ex K)) (d : List (Nat × W)) (D : Dict (Tree K) W) : Prop :=
  ∃ l : List (Tree K × W), Forall₂ (fun p q => At vals p.1 q.1 ∧ p.2 = q.2) d l ∧
    ∀ t, Dict.lookup t l = D.get? t

theorem DictAt.mono {W : Type} {d : List (Nat × W)} {D : Dict (Tree K) W} (h : DictAt vals d D)
    (hp : vals <+: vals') : DictAt vals' d D := by
  obtain ⟨l, h1, h2⟩ := h
  exact ⟨l, h1.imp (fun _ _ h => ⟨h.1.mono hp, h.2⟩), h2⟩

theorem DictAt.empty {W : Type} : DictAt vals [] (Dict.empty : Dict (Tree K) W) :=
  ⟨[], .nil, fun _ => rfl⟩

theorem DictAt.set {W : Type} {d : List (Nat × W)} {D : Dict (Tree K) W} (h : DictAt vals d D)
    {n : Nat} {t : Tree K} (ht : At vals n t) (w : W) : DictAt vals ((n, w) :: d) (D.set t w) := by
  obtain ⟨l, h1, h2⟩ := h
  refine ⟨(t, w) :: l, .cons ⟨ht, rfl⟩ h1, fun u => ?_⟩
  rw [Dict.get?_set]
  simp only [Dict.lookup, h2]

theorem DictAt.update {W : Type} : ∀ (hs : List Nat) (ts : List (Tree K)) (ws : List W)
    {d : List (Nat × W)} {D : Dict (Tree K) W}, DictAt vals d D → Ats vals hs ts →
    DictAt vals ((hs.zip ws).reverse ++ d) (D.update (ts.zip ws)) := by
  intro hs
  induction hs with
  | nil => intro ts ws d D h ha; cases ha; exact h
  | cons n hs ih =>
    intro ts ws d D h ha
    cases ha with
    | @cons _ t _ ts h1 h2 =>
      cases ws with
      | nil => exact h
      | cons w ws =>
        have := ih ts ws (h.set h1 w) h2
        simpa [Dict.update] using this

theorem DictAt.indexed {hs : List Nat} {ts : List (Tree K)} (start : Nat)
    {d : List (Nat × Nat)} {D : Dict (Tree K) Nat} (h : DictAt vals d D) (ha : Ats vals hs ts) :
    DictAt vals (Prog.indexed hs start d) (D.update (ts.zip (List.range' start ts.length))) := by
  unfold Prog.indexed
  rw [ha.length]
  exact h.update hs ts _ ha

theorem computes_getItem {W : Type} {d : List (Nat × W)} {D : Dict (Tree K) W} {h : Nat} {t : Tree K}
    (hd : DictAt vals d D) (ht : At vals h t) :
    Computes vals (Prog.getItem d h : Prog V K W) (fun _ a b => a = b) (D.getItem t) := by
  have lk : Computes vals (Prog.lookup h d : Prog V K (Option W)) (fun _ a b => a = b)
      (.ok (D.get? t)) := by
    obtain ⟨l, h1, h2⟩ := hd
    rw [← h2]
    clear h2
    induction h1 with
    | nil => exact .ret rfl
    | @cons p q d l hpq _ ih =>
      obtain ⟨n, w⟩ := p
      obtain ⟨u, w'⟩ := q
      obtain ⟨hn, rfl⟩ := hpq
      unfold Prog.lookup
      refine computes_same hn ht ?_
      simp only [Dict.lookup]
      by_cases hu : u = t
      · simp only [hu, decide_true, if_true]; exact .ret rfl
      · simp only [hu, decide_false, Bool.false_eq_true, if_false]; exact ih
  refine Computes.bindOk lk ?_
  rintro v _ hp rfl
  unfold Dict.getItem
  cases D.get? t with
  | some w => exact .ret rfl
  | none => exact .raise

/-! ### `topological_sort` -/

theorem computes_getChildren (heads : Bool) {h : Nat} {t : Tree K} (ha : At vals h t) :
    Computes vals (Prog.getChildren heads h : Prog V K (List Nat)) Ats
      (.ok (Verif.getChildren heads t)) := by
  refine Computes.bindOk (computes_children ha) ?_
  intro v cs hp hcs
  refine .pure ?_
  unfold Verif.getChildren
  refine List.rel_reverse ?_
  cases heads with
  | true => exact hcs
  | false => exact List.forall₂_drop 1 hcs

/-- The variables of the two loops. -/
structure SortAt (vals : List (Ex K)) (s : Prog.SortState) (S : TopoState K) : Prop where
  seen : Ats vals s.seen S.seen
  stack : Forall₂ (fun f F => At vals f.1 F.1 ∧ Ats vals f.2 F.2) s.stack S.stack
  out : Ats vals s.out S.out

theorem SortAt.mono {s : Prog.SortState} {S : TopoState K} (h : SortAt vals s S) (hp : vals <+: vals') :
    SortAt vals' s S :=
  ⟨h.seen.mono hp, h.stack.imp (fun _ _ h => ⟨h.1.mono hp, h.2.mono hp⟩), h.out.mono hp⟩

theorem computes_sortBody (heads : Bool) {s : Prog.SortState} {S : TopoState K} (h : SortAt vals s S) :
    Computes vals (Prog.sortBody heads s : Prog V K (Prog.SortState ⊕ List Nat))
      (fun v r x => match r, x with
        | .inl s', some S' => SortAt v s' S'
        | .inr o, none => Ats v o S.out
        | _, _ => False)
      (.ok (topoStep heads S)) := by
  obtain ⟨seen, stack, out⟩ := s
  obtain ⟨Seen, Stack, Out⟩ := S
  obtain ⟨h1, h2, h3⟩ := h
  unfold Prog.sortBody topoStep
  cases h2 with
  | nil => exact .ret h3
  | @cons f F rest Rest hf hrest =>
    obtain ⟨top, children⟩ := f
    obtain ⟨Top, Children⟩ := F
    obtain ⟨hf1, hf2⟩ := hf
    simp only at hf1 hf2 h1 h3 ⊢
    rcases pyPop_rel hf2 with ⟨g1, g2⟩ | ⟨a, r, b, t, g1, g2, g3, g4⟩
    · simp only [g1, g2]
      exact .ret ⟨h1, hrest, h3.append (.one hf1)⟩
    · simp only [g1, g2]
      refine Computes.bindOk (computes_mem g3 h1) ?_
      rintro v _ hp rfl
      have hrest' := hrest.imp (fun _ _ h => (⟨h.1.mono hp, h.2.mono hp⟩ :
        At v _ _ ∧ Ats v _ _))
      by_cases hb : b ∈ Seen
      · simp only [hb, decide_true, if_true]
        exact .pure ⟨h1.mono hp, .cons ⟨hf1.mono hp, Ats.mono g4 hp⟩ hrest', h3.mono hp⟩
      · simp only [hb, decide_false, Bool.false_eq_true, if_false]
        refine Computes.bindOk (computes_getChildren heads (g3.mono hp)) ?_
        intro v' cs hp' hcs
        have hq := hp.trans hp'
        exact .pure ⟨.cons (g3.mono hq) (h1.mono hq),
          .cons ⟨g3.mono hq, hcs⟩ (.cons ⟨hf1.mono hq, Ats.mono g4 hq⟩
            (hrest.imp (fun _ _ h => ⟨h.1.mono hq, h.2.mono hq⟩))), h3.mono hq⟩

theorem computes_sortLoop (heads : Bool) : ∀ (n : Nat) (S : TopoState K) (s : Prog.SortState)
    (vals : List (Ex K)), topoMeasure S ≤ n → SortAt vals s S →
    Computes vals (.loop (Prog.sortBody heads) s .ret : Prog V K (List Nat)) Ats
      (.ok (topoRun heads S)) := by
  intro n
  induction n with
  | zero =>
    intro S s vals hn h
    refine Computes.step (p' := _) rfl (List.prefix_refl _) ?_
    refine Computes.bindOk (computes_sortBody heads h) ?_
    intro v r hp hr
    rw [topoRun]
    split
    · rename_i ht
      rw [ht] at hr
      cases r with
      | inl s' => exact hr.elim
      | inr o => exact .ret hr
    · rename_i S' ht
      have := topoStep_measure ht
      omega
  | succ n ih =>
    intro S s vals hn h
    refine Computes.step (p' := _) rfl (List.prefix_refl _) ?_
    refine Computes.bindOk (computes_sortBody heads h) ?_
    intro v r hp hr
    rw [topoRun]
    split
    · rename_i ht
      rw [ht] at hr
      cases r with
      | inl s' => exact hr.elim
      | inr o => exact .ret hr
    · rename_i S' ht
      have := topoStep_measure ht
      rw [ht] at hr
      cases r with
      | inr o => exact hr.elim
      | inl s' => exact ih S' s' v (by omega) hr

theorem computes_sort (heads : Bool) {exclude : List Nat} {Exclude : List (Tree K)} {e : Nat}
    {t : Tree K} (hx : Ats vals exclude Exclude) (he : At vals e t) :
    Computes vals (Prog.sort heads exclude e : Prog V K (List Nat)) Ats
      (.ok (topologicalSort heads Exclude t)) := by
  unfold Prog.sort topologicalSort topoInit
  refine Computes.bindOk (computes_mem he hx) ?_
  rintro v _ hp rfl
  by_cases ht : t ∈ Exclude
  · simp only [ht, decide_true, if_true]
    exact computes_sortLoop heads _ _ _ v (Nat.le_refl _) ⟨hx.mono hp, .nil, .nil⟩
  · simp only [ht, decide_false, Bool.false_eq_true, if_false]
    refine Computes.bindOk (computes_getChildren heads (he.mono hp)) ?_
    intro v' cs hp' hcs
    have hq := hp.trans hp'
    exact computes_sortLoop heads _ _ _ v' (Nat.le_refl _)
      ⟨hx.mono hq, .cons ⟨he.mono hq, hcs⟩ .nil, .nil⟩

/-! ### `topological_split` and `forward_graph` -/

theorem SplitAt.mono {s : Prog.SplitH} {S : Split K} (h : SplitAt vals s S) (hp : vals <+: vals') :
    SplitAt vals' s S := ⟨h.atoms.mono hp, h.heads.mono hp, h.nodes.mono hp⟩

theorem computes_splitLoop : ∀ (hs : List Nat) (ts : List (Tree K)) (s : Prog.SplitH) (S : Split K)
    (vals : List (Ex K)), Ats vals hs ts → SplitAt vals s S →
    Computes vals (Prog.splitLoop s hs : Prog V K Prog.SplitH) SplitAt (.ok (ts.foldl splitStep S)) := by
  intro hs
  induction hs with
  | nil => intro ts s S vals ha h; cases ha; exact .ret h
  | cons n hs ih =>
    intro ts s S vals ha h
    cases ha with
    | @cons _ t _ ts h1 h2 =>
      refine Computes.bindOk (computes_children h1) ?_
      intro v cs hp hcs
      have hm := h.mono hp
      rw [List.foldl_cons]
      unfold splitStep
      cases hc : t.children with
      | nil =>
        rw [hc] at hcs; cases hcs
        exact ih ts _ _ v (Ats.mono h2 hp) ⟨hm.atoms.append (.one (h1.mono hp)), hm.heads, hm.nodes⟩
      | cons c Cs =>
        rw [hc] at hcs
        cases hcs with
        | cons g1 g2 =>
          exact ih ts _ _ v (Ats.mono h2 hp)
            ⟨hm.atoms, .cons g1 hm.heads, hm.nodes.append (.one (h1.mono hp))⟩

theorem computes_split {exclude : List Nat} {Exclude : List (Tree K)} {e : Nat}
    {t : Tree K} (hx : Ats vals exclude Exclude) (he : At vals e t) :
    Computes vals (Prog.split exclude e : Prog V K Prog.SplitH) SplitAt
      (.ok (topologicalSplit Exclude t)) := by
  refine Computes.bindOk (computes_sort false hx he) ?_
  intro v out hp ho
  exact computes_splitLoop out _ _ _ v ho ⟨.nil, .nil, .nil⟩

theorem OpsAt.mono {os : List (Nat × List Nat)} {Os : List (Tree K × List Nat)} (h : OpsAt vals os Os)
    (hp : vals <+: vals') : OpsAt vals' os Os := h.imp (fun _ _ h => ⟨h.1.mono hp, h.2⟩)

theorem forall₂_eq {l m : List α} (h : Forall₂ (fun a b => a = b) l m) : l = m := by
  induction h with
  | nil => rfl
  | cons h _ ih => rw [h, ih]

theorem computes_indices {d : List (Nat × Nat)} {D : Dict (Tree K) Nat} {hs : List Nat}
    {ts : List (Tree K)} (hd : DictAt vals d D) (ha : Ats vals hs ts) :
    Computes vals (Prog.each (Prog.getItem d) hs : Prog V K (List Nat)) (fun _ a b => a = b)
      (ts.mapM (fun t => D.getItem t)) := by
  refine Computes.weaken (rel := fun _ => Forall₂ (fun a b => a = b)) ?_ (fun _ _ _ _ h => forall₂_eq h)
  exact computes_each (relI := At) (relO := fun _ a b => a = b) (fun h hp => h.mono hp) (fun h _ => h)
    (fun v a b hp hab => computes_getItem (hd.mono hp) hab) vals hs ts (List.prefix_refl _) ha

theorem computes_forwardLoop : ∀ (hs : List Nat) (ts : List (Tree K)) (index : Nat)
    (d : List (Nat × Nat)) (D : Dict (Tree K) Nat) (ops : List (Nat × List Nat))
    (Ops : List (Tree K × List Nat)) (vals : List (Ex K)), Ats vals hs ts → DictAt vals d D →
    OpsAt vals ops Ops →
    Computes vals (Prog.forwardLoop index d ops hs : Prog V K (List (Nat × List Nat))) OpsAt
      (Verif.forwardLoop index D Ops ts) := by
  intro hs
  induction hs with
  | nil => intro ts index d D ops Ops vals ha hd ho; cases ha; exact .ret ho
  | cons n hs ih =>
    intro ts index d D ops Ops vals ha hd ho
    cases ha with
    | @cons _ t _ ts h1 h2 =>
      refine Computes.bindOk (computes_children h1) ?_
      intro v cs hp hcs
      unfold Verif.forwardLoop
      refine Computes.bind (Computes.ofPy (rel := At) (pyGet_rel hcs 0)) ?_
      intro v1 hd' Hd hp1 hhd
      refine Computes.bind (computes_indices ((hd.mono hp).mono hp1)
        (Ats.mono (List.forall₂_drop 1 hcs) hp1)) ?_
      rintro v2 is _ hp2 rfl
      have hq := hp.trans (hp1.trans hp2)
      exact ih ts _ _ _ _ _ v2 (Ats.mono h2 hq) ((hd.mono hq).set (h1.mono hq) index)
        (List.rel_append (ho.mono hq) (.cons ⟨hhd.mono hp2, rfl⟩ .nil))

theorem computes_graph {e : Nat} {t : Tree K} (he : At vals e t) :
    Computes vals (Prog.graph e : Prog V K Prog.GraphH) GraphAt (forwardGraph t) := by
  unfold forwardGraph
  refine Computes.bindOk (computes_split .nil he) ?_
  intro v s hp hs
  simp only [hs.atoms.length]
  refine Computes.bind (computes_forwardLoop _ _ _ _ _ _ _ v hs.nodes ?_ .nil) ?_
  · have := (DictAt.empty (vals := v) (W := Nat)).indexed 0 hs.atoms
    simpa [Dict.ofPairs, List.range_eq_range'] using this
  · intro v' ops Ops hp' ho
    exact .pure ⟨hs.atoms.mono hp', hs.heads.mono hp', ho⟩

end Verif.Store
