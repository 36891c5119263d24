import Verif.Spec.Containers
import Verif.Lemmas.Topo
import Verif.Lemmas.Graph
import Verif.Lemmas.Subs

/-!
# Lemmas about containers on a heap
-/

namespace Verif.Mem
open Verif Spec
variable {V T α β : Type}

/-- What a computation does when started in `h`. -/
def Post (c : M V T α) (h : Heap V T) (Q : α → Heap V T → Prop) (E : PyErr → Heap V T → Prop) : Prop :=
  match c h with
  | (.ok a, h') => Q a h'
  | (.error e, h') => E e h'

/-- No exception. -/
def noErr : PyErr → Heap V T → Prop := fun _ _ => False

variable {h h0 : Heap V T} {Q Q' : α → Heap V T → Prop} {E E' : PyErr → Heap V T → Prop}

theorem Post.mono {c : M V T α} (hp : Post c h Q E) (hQ : ∀ a h', Q a h' → Q' a h')
    (hE : ∀ e h', E e h' → E' e h') : Post c h Q' E' := by
  unfold Post at *
  split at hp
  · rename_i heq; exact hQ _ _ hp
  · exact hE _ _ hp

theorem Post.of_noErr {c : M V T α} (hp : Post c h Q noErr) (hQ : ∀ a h', Q a h' → Q' a h') :
    Post c h Q' E := hp.mono hQ (fun _ _ hf => hf.elim)

theorem post_bind {x : M V T α} {f : α → M V T β} {Q : β → Heap V T → Prop}
    (hp : Post x h (fun a h' => Post (f a) h' Q E) E) : Post (x >>= f) h Q E := by
  unfold Post at *
  show match M.bind x f h with | (.ok a, h') => Q a h' | (.error e, h') => E e h'
  unfold M.bind
  cases hx : x h with
  | mk r h' =>
    rw [hx] at hp
    cases r with
    | ok a => exact hp
    | error e => exact hp

theorem post_pure {a : α} (hq : Q a h) : Post (Pure.pure a : M V T α) h Q E := hq
theorem post_lift {x : PyM α} (hq : ∀ a, x = .ok a → Q a h) (he : ∀ e, x = .error e → E e h) :
    Post (M.lift x) h Q E := by
  cases x with
  | ok a => exact hq a rfl
  | error e => exact he e rfl
theorem post_alloc {o : Obj V T} {Q : Nat → Heap V T → Prop}
    (hq : Q h.objs.length { h with objs := h.objs ++ [o] }) : Post (M.alloc o) h Q E := hq
theorem post_write {r : Nat} {o : Obj V T} {Q : Unit → Heap V T → Prop}
    (hq : Q () { h with objs := h.objs.set r o }) : Post (M.write r o) h Q E := hq
theorem post_give {r : Nat} {Q : Unit → Heap V T → Prop}
    (hq : Q () { h with user := r :: h.user }) : Post (M.give r) h Q E := hq
theorem post_readList {r : Nat} {l : List (Cell V T)} {Q : List (Cell V T) → Heap V T → Prop}
    (hr : h.objs[r]? = some (.list l)) (hq : Q l h) : Post (M.readList r) h Q E := by
  simp only [Post, M.readList, hr]; exact hq
theorem post_readSet {r : Nat} {l : List (Tree V)} {Q : List (Tree V) → Heap V T → Prop}
    (hr : h.objs[r]? = some (.set l)) (hq : Q l h) : Post (M.readSet r) h Q E := by
  simp only [Post, M.readSet, hr]; exact hq
theorem post_readIndex {r : Nat} {d : Dict (Tree V) Nat} {Q : Dict (Tree V) Nat → Heap V T → Prop}
    (hr : h.objs[r]? = some (.index d)) (hq : Q d h) : Post (M.readIndex r) h Q E := by
  simp only [Post, M.readIndex, hr]; exact hq
theorem post_readVals {r : Nat} {d : Dict (Tree V) T} {Q : Dict (Tree V) T → Heap V T → Prop}
    (hr : h.objs[r]? = some (.vals d)) (hq : Q d h) : Post (M.readVals r) h Q E := by
  simp only [Post, M.readVals, hr]; exact hq
theorem post_readRules {r : Nat} {d : Dict (Tree V × Nat) Subs}
    {Q : Dict (Tree V × Nat) Subs → Heap V T → Prop}
    (hr : h.objs[r]? = some (.rules d)) (hq : Q d h) : Post (M.readRules r) h Q E := by
  simp only [Post, M.readRules, hr]; exact hq
theorem post_append {r : Nat} {l : List (Cell V T)} {c : Cell V T} {Q : Unit → Heap V T → Prop}
    (hr : h.objs[r]? = some (.list l))
    (hq : Q () { h with objs := h.objs.set r (.list (l ++ [c])) }) : Post (M.append r c) h Q E :=
  post_bind (post_readList hr (post_write hq))
theorem post_addSet {r : Nat} {l : List (Tree V)} {t : Tree V} {Q : Unit → Heap V T → Prop}
    (hr : h.objs[r]? = some (.set l))
    (hq : Q () { h with objs := h.objs.set r (.set (t :: l)) }) : Post (M.addSet r t) h Q E :=
  post_bind (post_readSet hr (post_write hq))
theorem post_updateSet {r : Nat} {l ts : List (Tree V)} {Q : Unit → Heap V T → Prop}
    (hr : h.objs[r]? = some (.set l))
    (hq : Q () { h with objs := h.objs.set r (.set (ts ++ l)) }) : Post (M.updateSet r ts) h Q E :=
  post_bind (post_readSet hr (post_write hq))
theorem post_pop_nil {r : Nat} {Q : Option (Cell V T) → Heap V T → Prop}
    (hr : h.objs[r]? = some (.list [])) (hq : Q none h) : Post (M.pop r) h Q E :=
  post_bind (post_readList hr hq)
theorem post_pop_snoc {r : Nat} {l : List (Cell V T)} {c : Cell V T}
    {Q : Option (Cell V T) → Heap V T → Prop}
    (hr : h.objs[r]? = some (.list (l ++ [c])))
    (hq : Q (some c) { h with objs := h.objs.set r (.list l) }) : Post (M.pop r) h Q E := by
  refine post_bind (post_readList hr ?_)
  have : pyPop (l ++ [c]) = some (c, l) := by simp [pyPop]
  rw [this]
  exact post_bind (post_write hq)

instance : LawfulMonad (M V T) := LawfulMonad.mk' (M V T)
  (id_map := by
    intro α x; funext h
    show M.bind x (fun a => M.pure a) h = x h
    unfold M.bind M.pure
    rcases x h with ⟨_ | _, _⟩ <;> rfl)
  (pure_bind := fun _ _ => rfl)
  (bind_assoc := by
    intro α β γ x f g; funext h
    show M.bind (M.bind x f) g h = M.bind x (fun a => M.bind (f a) g) h
    unfold M.bind
    rcases x h with ⟨_ | _, _⟩ <;> rfl)

theorem mapM_run {γ : Type} (f : γ → Cell V T) (g : Cell V T → M V T γ)
    (hg : ∀ a h, g (f a) h = (.ok a, h)) (l : List γ) (h : Heap V T) :
    (l.map f).mapM g h = (.ok l, h) := by
  induction l with
  | nil => rfl
  | cons a l ih =>
    rw [List.map_cons, List.mapM_cons]
    show M.bind _ _ h = _
    unfold M.bind
    rw [hg]
    show M.bind _ _ h = _
    unfold M.bind
    rw [ih]
    rfl

theorem post_readTrees {r : Nat} {l : List (Tree V)} {Q : List (Tree V) → Heap V T → Prop}
    (hr : IsTrees h r l) (hq : Q l h) : Post (M.readTrees r) h Q E := by
  refine post_bind (post_readList hr ?_)
  unfold Post
  rw [mapM_run Cell.tree M.asTree (fun _ _ => rfl)]
  exact hq
theorem post_readInts {r : Nat} {l : List Nat} {Q : List Nat → Heap V T → Prop}
    (hr : IsInts h r l) (hq : Q l h) : Post (M.readInts r) h Q E := by
  refine post_bind (post_readList hr ?_)
  unfold Post
  rw [mapM_run Cell.int M.asInt (fun _ _ => rfl)]
  exact hq
theorem post_readValues {r : Nat} {l : List T} {Q : List T → Heap V T → Prop}
    (hr : IsVals h r l) (hq : Q l h) : Post (M.readValues r) h Q E := by
  refine post_bind (post_readList hr ?_)
  unfold Post
  rw [mapM_run Cell.val M.asVal (fun _ _ => rfl)]
  exact hq
theorem post_readIterable {r : Nat} {l : List (Tree V)} {Q : List (Tree V) → Heap V T → Prop}
    (hr : IsTrees h r l ∨ IsSet h r l) (hq : Q l h) : Post (M.readIterable r) h Q E := by
  rcases hr with hr | hr
  · have := post_readTrees (E := E) hr hq
    unfold IsTrees at hr
    unfold Post M.readIterable
    rw [hr]
    exact this
  · unfold IsSet at hr
    simp only [Post, M.readIterable, hr]
    exact hq

theorem forLoop_post {r : Nat} {body : Nat → Cell V T → M V T Unit} {cells : List (Cell V T)}
    (I : Nat → Heap V T → Prop) (E : PyErr → Heap V T → Prop)
    (hI : ∀ k h, I k h → h.objs[r]? = some (.list cells))
    (hstep : ∀ k c h, cells[k]? = some c → I k h → Post (body k c) h (fun _ => I (k + 1)) E)
    (n : Nat) : ∀ k h, k + n = cells.length → I k h →
      Post (M.forLoop r body n k) h (fun _ => I cells.length) E := by
  induction n with
  | zero =>
    intro k h hk hi
    unfold M.forLoop
    refine post_bind (post_readList (hI k h hi) ?_)
    rw [if_neg (by omega)]
    have hk' : k = cells.length := by omega
    rw [hk'] at hi
    exact post_pure hi
  | succ n ih =>
    intro k h hk hi
    unfold M.forLoop
    refine post_bind (post_readList (hI k h hi) ?_)
    have hlt : k < cells.length := by omega
    rw [List.getElem?_eq_getElem hlt]
    refine post_bind ((hstep k _ h (List.getElem?_eq_getElem hlt) hi).mono ?_ fun _ _ h => h)
    intro _ h' hi'
    exact ih (k + 1) h' (by omega) hi'

/-- Reasoning about `for` loops with an invariant. -/
theorem post_forList {r : Nat} {body : Nat → Cell V T → M V T Unit} {cells : List (Cell V T)}
    (I : Nat → Heap V T → Prop) (E : PyErr → Heap V T → Prop)
    (hI : ∀ k h, I k h → h.objs[r]? = some (.list cells))
    (hstep : ∀ k c h, cells[k]? = some c → I k h → Post (body k c) h (fun _ => I (k + 1)) E)
    (h0 : I 0 h) : Post (M.forList r body) h (fun _ => I cells.length) E :=
  post_bind (post_readList (hI 0 h h0)
    (forLoop_post I E hI hstep cells.length 0 h (by omega) h0))

/-! ### Objects -/

theorem get_lt {l : List (Obj V T)} {r : Nat} {o : Obj V T} (h : l[r]? = some o) : r < l.length :=
  (List.getElem?_eq_some_iff.1 h).1
theorem get_new {l : List (Obj V T)} {o : Obj V T} : (l ++ [o])[l.length]? = some o := by simp
theorem get_old {l : List (Obj V T)} {o o' : Obj V T} {r : Nat} (h : l[r]? = some o) :
    (l ++ [o'])[r]? = some o := by
  rw [List.getElem?_append_left (get_lt h)]; exact h
theorem get_set_self {l : List (Obj V T)} {o o' : Obj V T} {r : Nat} (h : l[r]? = some o) :
    (l.set r o')[r]? = some o' := by
  rw [List.getElem?_set_self (get_lt h)]
theorem get_set_other {l : List (Obj V T)} {o o' : Obj V T} {r r' : Nat} (h : l[r]? = some o)
    (hne : r' ≠ r) : (l.set r' o')[r]? = some o := by
  rw [List.getElem?_set_ne hne]; exact h

theorem prefix_set {l l' : List (Obj V T)} (h : l <+: l') {r : Nat} (hr : l.length ≤ r)
    (o : Obj V T) : l <+: l'.set r o := by
  obtain ⟨t, rfl⟩ := h
  rw [List.set_append, if_neg (by omega)]
  exact ⟨_, rfl⟩
theorem prefix_push {l l' : List (Obj V T)} (h : l <+: l') (o : Obj V T) : l <+: l' ++ [o] :=
  h.trans ⟨[o], rfl⟩
theorem get_prefix {l l' : List (Obj V T)} (h : l <+: l') {r : Nat} {o : Obj V T}
    (hr : l[r]? = some o) : l'[r]? = some o := by
  obtain ⟨t, rfl⟩ := h
  rw [List.getElem?_append_left (get_lt hr)]; exact hr

theorem _root_.Verif.Spec.OnlyNew.refl (h : Heap V T) : OnlyNew h h := ⟨List.prefix_refl _, rfl⟩
theorem _root_.Verif.Spec.OnlyNew.trans {h h' h'' : Heap V T} (a : OnlyNew h h') (b : OnlyNew h' h'') :
    OnlyNew h h'' := ⟨a.1.trans b.1, b.2.trans a.2⟩
theorem _root_.Verif.Spec.OnlyNew.le {h h' : Heap V T} (a : OnlyNew h h') : h.objs.length ≤ h'.objs.length :=
  a.1.length_le
theorem _root_.Verif.Spec.OnlyNew.push {h h' : Heap V T} (a : OnlyNew h h') (o : Obj V T) :
    OnlyNew h { h' with objs := h'.objs ++ [o] } := ⟨prefix_push a.1 o, a.2⟩
theorem _root_.Verif.Spec.OnlyNew.set {h h' : Heap V T} (a : OnlyNew h h') {r : Nat} (hr : h.objs.length ≤ r)
    (o : Obj V T) : OnlyNew h { h' with objs := h'.objs.set r o } := ⟨prefix_set a.1 hr o, a.2⟩
theorem _root_.Verif.Spec.OnlyNew.get {h h' : Heap V T} (a : OnlyNew h h') {r : Nat} {o : Obj V T}
    (hr : h.objs[r]? = some o) : h'.objs[r]? = some o := get_prefix a.1 hr

/-- A new object, with the facts about its address. -/
theorem post_new {o : Obj V T} {Q : Nat → Heap V T → Prop}
    (hq : ∀ r h', r = h.objs.length → h'.objs.length = h.objs.length + 1 → OnlyNew h h' →
      h'.objs[r]? = some o → Q r h') : Post (M.alloc o) h Q E :=
  hq _ _ rfl (by simp) ((OnlyNew.refl h).push o) get_new

/-! ### `topological_sort` -/
variable [DecidableEq V]

/-- The local objects of `topological_sort` stand for the state of its loop; `fs` are the frames
with the addresses of their lists. -/
structure SortInv (h0 : Heap V T) (seen expressions stack : Nat) (h : Heap V T) (s : TopoState V)
    (fs : List ((Tree V × List (Tree V)) × Nat)) : Prop where
  base : OnlyNew h0 h
  seen_ge : h0.objs.length ≤ seen
  expressions_ge : h0.objs.length ≤ expressions
  stack_ge : h0.objs.length ≤ stack
  seen_get : h.objs[seen]? = some (.set s.seen)
  expressions_get : h.objs[expressions]? = some (.list (s.out.map .tree))
  stack_get : h.objs[stack]? = some (.list (fs.map (fun p => Cell.op p.1.1 p.2)).reverse)
  frames : fs.map Prod.fst = s.stack
  lists : ∀ p ∈ fs, IsTrees h p.2 p.1.2
  nodup : (fs.map Prod.snd).Nodup
  fresh : ∀ p ∈ fs, h0.objs.length ≤ p.2
  sep : ∀ p ∈ fs, p.2 ≠ expressions ∧ p.2 ≠ stack
  ne : expressions ≠ stack

omit [DecidableEq V] in
theorem ne_of_get {h : Heap V T} {r r' : Nat} {o o' : Obj V T} (hr : h.objs[r]? = some o)
    (hr' : h.objs[r']? = some o') (hne : o ≠ o') : r ≠ r' := by
  rintro rfl
  rw [hr] at hr'
  exact hne (Option.some.inj hr')

theorem topoStep_nil {heads : Bool} {s : TopoState V} (h : s.stack = []) :
    topoStep heads s = none := by simp [topoStep, h]

theorem pyPop_snoc {γ : Type} (l : List γ) (a : γ) : pyPop (l ++ [a]) = some (a, l) := by
  simp [pyPop]

theorem sortLoop_post (heads : Bool) (seen expressions stack : Nat) (n : Nat) :
    ∀ (h : Heap V T) (s : TopoState V) fs, SortInv h0 seen expressions stack h s fs →
      topoMeasure s < n →
      Post (sortLoop heads seen expressions stack n) h (fun _ h' => OnlyNew h0 h' ∧
        IsTrees h' expressions (topoRun heads s)) noErr := by
  induction n with
  | zero => intro h s fs _ hm; exact absurd hm (Nat.not_lt_zero _)
  | succ n ih =>
    intro h s fs hi hm
    unfold sortLoop
    refine post_bind (post_readList hi.stack_get ?_)
    cases fs with
    | nil =>
      have hs : s.stack = [] := by rw [← hi.frames]; rfl
      simp only [List.map_nil, List.reverse_nil, List.getLast?_nil]
      refine post_pure ⟨hi.base, ?_⟩
      rw [topoRun_done (topoStep_nil hs)]
      exact hi.expressions_get
    | cons p fs =>
      obtain ⟨⟨top, ch⟩, r⟩ := p
      have hs : s.stack = (top, ch) :: fs.map Prod.fst := by rw [← hi.frames]; rfl
      have hlast : ((List.map (fun p : (Tree V × List (Tree V)) × Nat => (Cell.op p.1.1 p.2 : Cell V T))
          (((top, ch), r) :: fs)).reverse).getLast? = some (.op top r) := by simp
      rw [hlast]
      have hr := hi.lists _ (List.mem_cons_self)
      have hrge := hi.fresh _ (List.mem_cons_self)
      obtain ⟨hre, hrs⟩ := hi.sep _ (List.mem_cons_self)
      have hnd := hi.nodup
      rw [List.map_cons, List.nodup_cons] at hnd
      simp only at hr hrge hre hrs hnd ⊢
      rcases List.eq_nil_or_concat ch with rfl | ⟨ch', child, rfl⟩
      · refine post_bind (post_pop_nil hr ?_)
        have hst := hi.stack_get
        rw [List.map_cons, List.reverse_cons] at hst
        refine post_bind (post_pop_snoc hst ?_)
        refine post_bind (post_append (get_set_other hi.expressions_get hi.ne.symm) ?_)
        have hstep : topoStep heads s =
            some { s with stack := fs.map Prod.fst, out := s.out ++ [top] } := by
          simp [topoStep, hs, pyPop]
        rw [topoRun_step hstep]
        refine ih _ _ fs ⟨?_, hi.seen_ge, hi.expressions_ge, hi.stack_ge, ?_, ?_, ?_, rfl, ?_, hnd.2,
          fun p hp => hi.fresh p (List.mem_cons_of_mem _ hp),
          fun p hp => hi.sep p (List.mem_cons_of_mem _ hp), hi.ne⟩
          (Nat.lt_of_lt_of_le (topoStep_measure hstep) (Nat.le_of_lt_succ hm))
        · exact (hi.base.set hi.stack_ge _).set hi.expressions_ge _
        · have h1 := ne_of_get hi.seen_get hi.expressions_get (by simp)
          have h2 := ne_of_get hi.seen_get hi.stack_get (by simp)
          exact get_set_other (get_set_other hi.seen_get h2.symm) h1.symm
        · rw [List.map_append]
          exact get_set_self (get_set_other hi.expressions_get hi.ne.symm)
        · exact get_set_other (get_set_self hi.stack_get) hi.ne
        · intro p hp
          obtain ⟨he, hk⟩ := hi.sep p (List.mem_cons_of_mem _ hp)
          exact get_set_other (get_set_other (hi.lists p (List.mem_cons_of_mem _ hp)) hk.symm)
            he.symm
      · rw [List.concat_eq_append] at *
        have hr' : h.objs[r]? = some (.list (ch'.map .tree ++ [.tree child])) := by
          have := hr
          unfold IsTrees at this
          rw [List.map_append] at this
          exact this
        refine post_bind (post_pop_snoc hr' ?_)
        have h1 := ne_of_get hi.seen_get hr (by simp)
        refine post_bind (post_pure ?_)
        have hseen := get_set_other (o' := Obj.list (ch'.map Cell.tree)) hi.seen_get h1.symm
        refine post_bind (post_readSet hseen ?_)
        have hlists : ∀ p ∈ (((top, ch'), r) :: fs),
            (h.objs.set r (.list (ch'.map .tree)))[p.2]? = some (.list (p.1.2.map .tree)) := by
          intro p hp
          rcases List.mem_cons.1 hp with rfl | hp
          · exact get_set_self hr
          · refine get_set_other (hi.lists p (List.mem_cons_of_mem _ hp)) ?_
            rintro rfl
            exact hnd.1 (List.mem_map_of_mem (f := Prod.snd) ‹_ ∈ fs›)
        by_cases hc : child ∈ s.seen
        · rw [if_pos hc]
          have hstep : topoStep heads s =
              some { s with stack := (top, ch') :: fs.map Prod.fst } := by
            simp only [topoStep, hs, pyPop_snoc]
            rw [if_pos hc]
          rw [topoRun_step hstep]
          refine ih _ _ (((top, ch'), r) :: fs) ⟨hi.base.set hrge _, hi.seen_ge, hi.expressions_ge,
            hi.stack_ge, hseen, get_set_other hi.expressions_get hre,
            get_set_other hi.stack_get hrs, rfl, hlists, hi.nodup, ?_, ?_, hi.ne⟩
            (Nat.lt_of_lt_of_le (topoStep_measure hstep) (Nat.le_of_lt_succ hm))
          · intro p hp
            rcases List.mem_cons.1 hp with rfl | hp
            · exact hrge
            · exact hi.fresh p (List.mem_cons_of_mem _ hp)
          · intro p hp
            rcases List.mem_cons.1 hp with rfl | hp
            · exact ⟨hre, hrs⟩
            · exact hi.sep p (List.mem_cons_of_mem _ hp)
        · rw [if_neg hc]
          have hstep : topoStep heads s =
              some { s with seen := child :: s.seen,
                            stack := (child, Verif.getChildren heads child) :: (top, ch') ::
                              fs.map Prod.fst } := by
            simp only [topoStep, hs, pyPop_snoc]
            rw [if_neg hc]
          rw [topoRun_step hstep]
          refine post_bind (post_addSet hseen ?_)
          refine post_bind (post_alloc ?_)
          have hsv : ∀ {a : Nat} {l : List (Cell V T)},
              (h.objs.set r (.list (ch'.map .tree)))[a]? = some (.list l) →
              (((h.objs.set r (.list (ch'.map .tree))).set seen (.set (child :: s.seen))) ++
                [.list ((Verif.getChildren heads child).map .tree)])[a]? = some (.list l) := by
            intro a l ha
            refine get_old (get_set_other ha ?_)
            rintro rfl
            rw [hseen] at ha
            cases ha
          have hst := hsv (get_set_other hi.stack_get hrs)
          refine post_bind (post_append hst ?_)
          have hlen : ((h.objs.set r (.list (ch'.map Cell.tree))).set seen
              (.set (child :: s.seen))).length = h.objs.length := by simp
          have hbig : ∀ {a : Nat} {o : Obj V T}, h.objs[a]? = some o →
              a ≠ ((h.objs.set r (.list (ch'.map Cell.tree))).set seen
                (.set (child :: s.seen))).length := by
            intro a o ha; rw [hlen]; exact Nat.ne_of_lt (get_lt ha)
          refine ih _ _ (((child, Verif.getChildren heads child), ((h.objs.set r
            (.list (ch'.map Cell.tree))).set seen (.set (child :: s.seen))).length) :: ((top, ch'), r) :: fs)
            ⟨?_, hi.seen_ge, hi.expressions_ge, hi.stack_ge, ?_, ?_, ?_, rfl, ?_, ?_, ?_, ?_, hi.ne⟩
            (Nat.lt_of_lt_of_le (topoStep_measure hstep) (Nat.le_of_lt_succ hm))
          · exact (((hi.base.set hrge _).set hi.seen_ge _).push _).set hi.stack_ge _
          · have h2 := ne_of_get hi.seen_get hi.stack_get (by simp)
            exact get_set_other (get_old (get_set_self hseen)) h2.symm
          · exact get_set_other (hsv (get_set_other hi.expressions_get hre)) hi.ne.symm
          · have := get_set_self (o' := Obj.list ((List.map (fun p => Cell.op p.1.1 p.2)
              (((top, ch' ++ [child]), r) :: fs)).reverse ++
              [Cell.op child ((h.objs.set r (.list (ch'.map Cell.tree))).set seen
                (.set (child :: s.seen))).length])) hst
            rw [this]
            simp
          · intro p hp
            rcases List.mem_cons.1 hp with rfl | hp
            · exact get_set_other get_new (hbig hi.stack_get)
            · refine get_set_other (hsv (hlists p hp)) ?_
              rcases List.mem_cons.1 hp with rfl | hp
              · exact hrs.symm
              · exact (hi.sep p (List.mem_cons_of_mem _ hp)).2.symm
          · rw [List.map_cons, List.nodup_cons]
            refine ⟨?_, hi.nodup⟩
            intro hm
            obtain ⟨p, hp, hpe⟩ := List.mem_map.1 hm
            simp only at hpe
            rcases List.mem_cons.1 hp with rfl | hp
            · exact hbig hr hpe
            · exact hbig (hi.lists p (List.mem_cons_of_mem _ hp)) hpe
          · intro p hp
            rcases List.mem_cons.1 hp with rfl | hp
            · show h0.objs.length ≤ _
              rw [hlen]; exact hi.base.le
            · rcases List.mem_cons.1 hp with rfl | hp
              · exact hrge
              · exact hi.fresh p (List.mem_cons_of_mem _ hp)
          · intro p hp
            rcases List.mem_cons.1 hp with rfl | hp
            · exact ⟨(hbig hi.expressions_get).symm, (hbig hi.stack_get).symm⟩
            · rcases List.mem_cons.1 hp with rfl | hp
              · exact ⟨hre, hrs⟩
              · exact hi.sep p (List.mem_cons_of_mem _ hp)

theorem topoMeasure_init (heads : Bool) (excl : List (Tree V)) (e : Tree V) :
    topoMeasure (topoInit heads excl e) < 2 * e.size := by
  have h := sizeList_getChildren heads e
  unfold topoInit topoMeasure
  by_cases he : e ∈ excl
  · simp only [if_pos he, List.map_nil, List.sum_nil]; omega
  · simp only [if_neg he, List.map_cons, List.map_nil, List.sum_cons, List.sum_nil]; omega

theorem topologicalSort_post (heads : Bool) (exclude : Option Nat) (l : List (Tree V))
    (hl : Excludes h exclude l) (e : Tree V) :
    Post (topologicalSort heads exclude e) h (fun r h' => OnlyNew h h' ∧ h.objs.length ≤ r ∧
      IsTrees h' r (Verif.topologicalSort heads l e)) noErr := by
  unfold topologicalSort
  have hseen : Post (newSeen exclude) h
      (fun r h' => r = h.objs.length ∧ h' = { h with objs := h.objs ++ [.set l] }) noErr := by
    cases exclude with
    | none => cases hl; exact post_alloc ⟨rfl, rfl⟩
    | some r => exact post_bind (post_readIterable hl (post_alloc ⟨rfl, rfl⟩))
  refine post_bind (hseen.mono ?_ fun _ _ h => h)
  rintro _ _ ⟨rfl, rfl⟩
  refine post_bind (post_alloc ?_)
  unfold newStack
  refine post_bind (post_bind (post_alloc (post_bind (post_readSet
    (get_old (get_old get_new)) ?_))))
  by_cases he : e ∈ l
  · rw [if_neg (not_not_intro he)]
    refine post_pure ?_
    refine post_bind ((sortLoop_post (h0 := h) heads _ _ _ _ _ (topoInit heads l e) [] ?_
      (topoMeasure_init heads l e)).mono ?_ fun _ _ h => h)
    · constructor
      · exact (((OnlyNew.refl h).push _).push _).push _
      · exact Nat.le_refl _
      · simp
      · simp
      · exact get_old (get_old get_new)
      · exact get_old get_new
      · exact get_new
      · simp [topoInit, he]
      · simp
      · simp
      · simp
      · simp
      · simp
    · rintro _ h' ⟨h1, h2⟩
      exact post_pure ⟨h1, by simp, h2⟩
  · rw [if_pos he]
    refine post_bind (post_alloc (post_alloc ?_))
    refine post_bind ((sortLoop_post (h0 := h) heads _ _ _ _ _ (topoInit heads l e)
      [((e, Verif.getChildren heads e), h.objs.length + 3)] ?_
      (topoMeasure_init heads l e)).mono ?_ fun _ _ h => h)
    · constructor
      · exact (((((OnlyNew.refl h).push _).push _).push _).push _).push _
      · exact Nat.le_refl _
      · simp
      · simp
      · exact get_old (get_old (get_old (get_old get_new)))
      · exact get_old (get_old (get_old get_new))
      · simp
      · simp [topoInit, he]
      · intro p hp
        cases List.mem_singleton.1 hp
        simp [IsTrees]
      · simp
      · simp
      · simp
      · simp
    · rintro _ h' ⟨h1, h2⟩
      exact post_pure ⟨h1, by simp, h2⟩

/-! ### `topological_split` -/

omit [DecidableEq V] in
theorem map_get {γ : Type} {f : γ → Cell V T} {l : List γ} {k : Nat} {c : Cell V T}
    (h : (l.map f)[k]? = some c) : ∃ t, l[k]? = some t ∧ f t = c := by
  rw [List.getElem?_map] at h
  exact Option.map_eq_some_iff.1 h

omit [DecidableEq V] in
theorem take_succ_of_get {γ : Type} {l : List γ} {k : Nat} {t : γ} (h : l[k]? = some t) :
    l.take (k + 1) = l.take k ++ [t] := by
  rw [List.take_add_one, h]; rfl

omit [DecidableEq V] in
theorem drop_of_get {γ : Type} {l : List γ} {k : Nat} {t : γ} (h : l[k]? = some t) :
    l.drop k = t :: l.drop (k + 1) := by
  obtain ⟨hk, rfl⟩ := List.getElem?_eq_some_iff.1 h
  exact List.drop_eq_getElem_cons hk

theorem topologicalSplit_post (exclude : Option Nat) (l : List (Tree V))
    (hl : Excludes h exclude l) (e : Tree V) :
    Post (topologicalSplit exclude e) h (fun r h' => OnlyNew h h' ∧
      NewAndDistinct h [r.1, r.2.1, r.2.2] ∧
      IsTrees h' r.1 (Verif.topologicalSplit l e).atoms ∧
      IsSet h' r.2.1 (Verif.topologicalSplit l e).heads ∧
      IsTrees h' r.2.2 (Verif.topologicalSplit l e).nodes) noErr := by
  unfold topologicalSplit
  refine post_bind ((topologicalSort_post false exclude l hl e).mono ?_ fun _ _ h => h)
  rintro sub h1 ⟨hn1, hge, hsub⟩
  obtain ⟨s, hs⟩ : ∃ s, s = Verif.topologicalSort false l e := ⟨_, rfl⟩
  rw [← hs] at hsub
  have hlt := get_lt hsub
  have hle := hn1.le
  refine post_bind (post_new fun at_ h2 ea el2 n2 ga => post_bind (post_new fun hd h3 eh el3 n3 gh =>
    post_bind (post_new fun nd h4 en el4 n4 gn => ?_)))
  refine post_bind ((post_forList (cells := s.map .tree)
    (fun k h' => OnlyNew h h' ∧ IsTrees h' sub s ∧
      IsTrees h' at_ ((s.take k).foldl splitStep ⟨[], [], []⟩).atoms ∧
      IsSet h' hd ((s.take k).foldl splitStep ⟨[], [], []⟩).heads ∧
      IsTrees h' nd ((s.take k).foldl splitStep ⟨[], [], []⟩).nodes) noErr
    (fun k h' hi => hi.2.1) ?_ ?_).mono ?_ fun _ _ h => h)
  · rintro k c h' hc ⟨hnew, hsub', ha, hh, hnn⟩
    obtain ⟨t, ht, rfl⟩ := map_get hc
    unfold splitBody
    refine post_bind (post_pure ?_)
    simp only [take_succ_of_get ht, List.foldl_append, List.foldl_cons, List.foldl_nil]
    generalize List.foldl splitStep ⟨[], [], []⟩ (s.take k) = st at ha hh hnn ⊢
    unfold splitStep
    cases hch : t.children with
    | nil =>
      refine post_append ha ⟨hnew.set (by omega) _, get_set_other hsub' (by omega), ?_,
        get_set_other hh (by omega), get_set_other hnn (by omega)⟩
      unfold IsTrees
      rw [List.map_append]
      exact get_set_self ha
    | cons hd args =>
      refine post_bind (post_addSet hh (post_append (get_set_other hnn (by omega))
        ⟨(hnew.set (by omega) _).set (by omega) _,
        get_set_other (get_set_other hsub' (by omega)) (by omega),
        get_set_other (get_set_other ha (by omega)) (by omega), ?_, ?_⟩))
      · exact get_set_other (get_set_self hh) (by omega)
      · unfold IsTrees
        rw [List.map_append]
        exact get_set_self (get_set_other hnn (by omega))
  · exact ⟨((hn1.trans n2).trans n3).trans n4, n4.get (n3.get (n2.get hsub)),
      n4.get (n3.get ga), n4.get gh, gn⟩
  · rintro _ h' ⟨hnew, _, ha, hh, hnn⟩
    rw [List.length_map, List.take_length] at ha hh hnn
    unfold Verif.topologicalSplit
    rw [← hs]
    refine post_pure ⟨hnew, ⟨?_, ?_⟩, ha, hh, hnn⟩
    · intro r hr
      simp only [List.mem_cons, List.not_mem_nil, or_false] at hr
      omega
    · simp only [List.nodup_cons, List.mem_cons, List.not_mem_nil, or_false, not_false_eq_true,
        List.nodup_nil, and_true]
      omega

/-! ### Lists of references to lists of numbers -/

/-- The list at `r` has members `mk x a` for the members `x` of `xs`, where `a` is the address of the list
of numbers `ints x`; all these are different, not older than `base`, and not in `avoid`. -/
def Table {γ : Type} (mk : γ → Nat → Cell V T) (ints : γ → List Nat) (base : Nat) (avoid : List Nat)
    (h : Heap V T) (r : Nat) (xs : List γ) : Prop :=
  ∃ ps : List (γ × Nat), ps.map Prod.fst = xs ∧
    h.objs[r]? = some (.list (ps.map fun p => mk p.1 p.2)) ∧
    (∀ p ∈ ps, IsInts h p.2 (ints p.1)) ∧ (ps.map Prod.snd).Nodup ∧
    ∀ p ∈ ps, base ≤ p.2 ∧ p.2 ∉ avoid

section
variable {γ : Type} {mk : γ → Nat → Cell V T} {ints : γ → List Nat} {base : Nat} {avoid : List Nat}
  {r : Nat} {xs : List γ}

omit [DecidableEq V] in
theorem Table.frame {h' : Heap V T} (ht : Table mk ints base avoid h r xs)
    (hr : ∀ o, h.objs[r]? = some o → h'.objs[r]? = some o)
    (hk : ∀ a o, base ≤ a → a ∉ avoid → h.objs[a]? = some o → h'.objs[a]? = some o) :
    Table mk ints base avoid h' r xs := by
  obtain ⟨ps, h1, h2, h3, h4, h5⟩ := ht
  exact ⟨ps, h1, hr _ h2, fun p hp => hk _ _ (h5 p hp).1 (h5 p hp).2 (h3 p hp), h4, h5⟩

omit [DecidableEq V] in
theorem Table.new {h' : Heap V T} (ht : Table mk ints base avoid h r xs) (hn : OnlyNew h h') :
    Table mk ints base avoid h' r xs :=
  ht.frame (fun _ ho => hn.get ho) (fun _ _ _ _ ho => hn.get ho)

omit [DecidableEq V] in
theorem Table.set (ht : Table mk ints base avoid h r xs) {a : Nat} {o : Obj V T} (ha : a ∈ avoid)
    (hne : a ≠ r) : Table mk ints base avoid { h with objs := h.objs.set a o } r xs :=
  ht.frame (fun _ ho => get_set_other ho hne)
    (fun b _ _ hb ho => get_set_other ho (by rintro rfl; exact hb ha))

omit [DecidableEq V] in
theorem Table.nil (hr : h.objs[r]? = some (.list [])) :
    Table mk ints base avoid h r [] := ⟨[], rfl, hr, by simp, by simp, by simp⟩

omit [DecidableEq V] in
/-- A new list of numbers, and a reference to it appended. -/
theorem Table.add (ht : Table mk ints base avoid h r xs) (x : γ)
    (hbase : base ≤ h.objs.length) (havoid : ∀ a ∈ avoid, a < h.objs.length) (hr : r ∈ avoid)
    {Q : Unit → Heap V T → Prop}
    (hq : ∀ h', (∀ a, a ≠ r → ∀ o, h.objs[a]? = some o → h'.objs[a]? = some o) →
      (∀ h0, OnlyNew h0 h → h0.objs.length ≤ r → OnlyNew h0 h') →
      h.objs.length ≤ h'.objs.length → Table mk ints base avoid h' r (xs ++ [x]) → Q () h') :
    Post (do let a ← M.alloc (.list ((ints x).map .int)); M.append r (mk x a)) h Q E := by
  obtain ⟨ps, h1, h2, h3, h4, h5⟩ := ht
  refine post_bind (post_new fun a h' ea el hn ga => ?_)
  refine post_append (hn.get h2) (hq _ ?_ ?_ ?_ ?_)
  · intro b hb o ho
    exact get_set_other (hn.get ho) hb.symm
  · intro h0 h0n hle
    exact (h0n.trans hn).set hle _
  · simp only [List.length_set]; omega
  · have har : a ≠ r := by rw [ea]; exact (Nat.ne_of_lt (havoid r hr)).symm
    refine ⟨ps ++ [(x, a)], by simp [h1], ?_, ?_, ?_, ?_⟩
    · rw [List.map_append]
      exact get_set_self (hn.get h2)
    · intro p hp
      rcases List.mem_append.1 hp with hp | hp
      · refine get_set_other (hn.get (h3 p hp)) ?_
        intro e
        exact (h5 p hp).2 (e ▸ hr)
      · cases List.mem_singleton.1 hp
        exact get_set_other ga har.symm
    · rw [List.map_append, List.nodup_append]
      refine ⟨h4, by simp, ?_⟩
      intro b hb c hc hbc
      simp only [List.map_cons, List.map_nil, List.mem_singleton] at hc
      obtain ⟨p, hp, rfl⟩ := List.mem_map.1 hb
      have := get_lt (h3 p hp)
      omega
    · intro p hp
      rcases List.mem_append.1 hp with hp | hp
      · exact h5 p hp
      · cases List.mem_singleton.1 hp
        refine ⟨by rw [ea]; exact hbase, fun hm => ?_⟩
        have := havoid _ hm
        simp only at this
        omega

end

/-! ### `forward_graph` -/

/-- The entries of `operations` in a forward graph. -/
def graphTable (base : Nat) (avoid : List Nat) (h : Heap V T) (r : Nat)
    (ops : List (Tree V × List Nat)) : Prop :=
  Table (fun op a => Cell.op op.1 a) (fun op => op.2) base avoid h r ops

omit [DecidableEq V] in
theorem graphTable.toGraph {base : Nat} {avoid : List Nat} {r : Nat}
    {ops : List (Tree V × List Nat)} (ht : graphTable base avoid h r ops) :
    ∃ cells, h.objs[r]? = some (.list cells) ∧
      List.Forall₂ (fun c op => ∃ r, c = .op op.1 r ∧ IsInts h r op.2) cells ops := by
  obtain ⟨ps, rfl, h2, h3, -, -⟩ := ht
  refine ⟨_, h2, ?_⟩
  rw [List.forall₂_map_left_iff, List.forall₂_map_right_iff, List.forall₂_same]
  exact fun p hp => ⟨p.2, rfl, h3 p hp⟩

omit [DecidableEq V] in
theorem graphTable.refs {base : Nat} {avoid : List Nat} {r : Nat}
    {ops : List (Tree V × List Nat)} (ht : graphTable base avoid h r ops) :
    (innerRefs h r).Nodup ∧ ∀ a ∈ innerRefs h r, base ≤ a ∧ a ∉ avoid := by
  obtain ⟨ps, rfl, h2, h3, h4, h5⟩ := ht
  have : innerRefs h r = ps.map Prod.snd := by
    unfold innerRefs
    rw [h2]
    simp only [List.flatMap_map, cellRefs]
    clear h2 h3 h4 h5
    induction ps with
    | nil => rfl
    | cons p ps ih => rw [List.flatMap_cons, ih]; rfl
  rw [this]
  refine ⟨h4, ?_⟩
  intro a ha
  obtain ⟨p, hp, rfl⟩ := List.mem_map.1 ha
  exact h5 p hp

theorem forwardGraph_post (e : Tree V) :
    Post (forwardGraph e) h (fun g h' => ∃ G, Verif.forwardGraph e = .ok G ∧ OnlyNew h h' ∧
      IsGraph h' g G ∧ NewAndDistinct h (graphRefs h' g)) noErr := by
  unfold forwardGraph
  refine post_bind ((topologicalSplit_post none [] rfl e).mono ?_ fun _ _ h => h)
  rintro ⟨at_, hd, nd⟩ h1 ⟨hn1, ⟨hge, hdist⟩, ha, hh, hnn⟩
  simp only [List.mem_cons, List.not_mem_nil, or_false, forall_eq_or_imp, forall_eq] at hge
  simp only [List.nodup_cons, List.mem_cons, List.not_mem_nil, or_false, not_false_eq_true,
        List.nodup_nil, and_true] at hdist
  obtain ⟨hga, hgh, hgn⟩ := hge
  simp only at ha hh hnn ⊢
  have hla := get_lt ha
  have hlh := get_lt hh
  have hln := get_lt hnn
  refine post_bind (post_readList ha (post_bind (post_new fun op h2 eo el2 n2 go =>
    post_bind (post_readTrees (n2.get ha) (post_bind (post_new fun ix h3 ei el3 n3 gi => ?_))))))
  obtain ⟨S, hS⟩ : ∃ S, S = Verif.topologicalSplit [] e := ⟨_, rfl⟩
  rw [← hS] at ha hh hnn gi ⊢
  simp only [List.length_map] at gi ⊢
  have hG := forwardGraph_eq e
  unfold Verif.forwardGraph at hG
  rw [← hS] at hG
  have hle := hn1.le
  refine post_bind ((post_forList (cells := S.nodes.map .tree)
    (fun k h' => OnlyNew h h' ∧ h3.objs.length ≤ h'.objs.length ∧
      IsTrees h' nd S.nodes ∧ IsTrees h' at_ S.atoms ∧ IsSet h' hd S.heads ∧
      ∃ d ops, h'.objs[ix]? = some (.index d) ∧
        graphTable h.objs.length [at_, hd, nd, op, ix] h' op ops ∧
        forwardLoop S.atoms.length (Dict.ofPairs (S.atoms.zip (List.range S.atoms.length))) []
          S.nodes = forwardLoop (S.atoms.length + k) d ops (S.nodes.drop k))
    (fun err _ => forwardLoop S.atoms.length
      (Dict.ofPairs (S.atoms.zip (List.range S.atoms.length))) [] S.nodes = .error err)
    (fun k h' hi => hi.2.2.1) ?_ ?_).mono ?_ ?_)
  · rintro k c h' hc ⟨hnew, hle', hn', ha', hh', d, ops, hd', htab, heq⟩
    obtain ⟨t, ht, rfl⟩ := map_get hc
    rw [drop_of_get ht] at heq
    unfold forwardBody
    refine post_bind (post_pure ?_)
    have hx : forwardLoop (S.atoms.length + k) d ops (t :: S.nodes.drop (k + 1)) =
      (do let head ← pyGet t.children 0
          let argIndices ← (t.children.drop 1).mapM (fun e => d.getItem e)
          forwardLoop (S.atoms.length + k + 1) (d.set t (S.atoms.length + k))
            (ops ++ [(head, argIndices)]) (S.nodes.drop (k + 1))) := rfl
    rw [hx] at heq
    refine post_bind (post_lift (fun head hhead => ?_) (fun err herr => ?_))
    · rw [hhead] at heq
      refine post_bind (post_readIndex hd' ?_)
      refine post_bind (post_lift (fun is his => ?_) (fun err herr => ?_))
      · rw [his] at heq
        show Post _ _ _ _
        rw [← bind_assoc]
        have hadd := Table.add htab (head, is)
          (E := fun err _ => forwardLoop S.atoms.length
            (Dict.ofPairs (S.atoms.zip (List.range S.atoms.length))) [] S.nodes = .error err)
          (by omega) (by
            intro a ha
            simp only [List.mem_cons, List.not_mem_nil, or_false] at ha
            omega) (by simp)
          (Q := fun _ h' => Post (M.write ix (.index (d.set t (S.atoms.length + k)))) h'
            (fun _ h' => OnlyNew h h' ∧ h3.objs.length ≤ h'.objs.length ∧
              IsTrees h' nd S.nodes ∧ IsTrees h' at_ S.atoms ∧ IsSet h' hd S.heads ∧
              ∃ d ops, h'.objs[ix]? = some (.index d) ∧
              graphTable h.objs.length [at_, hd, nd, op, ix] h' op ops ∧
              forwardLoop S.atoms.length (Dict.ofPairs (S.atoms.zip (List.range S.atoms.length))) []
              S.nodes = forwardLoop (S.atoms.length + (k + 1)) d ops (S.nodes.drop (k + 1)))
            (fun err _ => forwardLoop S.atoms.length
              (Dict.ofPairs (S.atoms.zip (List.range S.atoms.length))) [] S.nodes = .error err)) ?_
        · exact post_bind hadd
        · intro h'' hkeep hnew' hle'' htab'
          refine post_write ⟨(hnew' h hnew (by omega)).set (by omega) _, ?_,
            get_set_other (hkeep nd (by omega) _ hn') (by omega),
            get_set_other (hkeep at_ (by omega) _ ha') (by omega),
            get_set_other (hkeep hd (by omega) _ hh') (by omega), _, _,
            get_set_self (hkeep ix (by omega) _ hd'), htab'.set (by simp) (by omega), ?_⟩
          · simp only [List.length_set]; omega
          · rw [heq]; rfl
      · rw [heq, herr]; rfl
    · rw [heq, herr]; rfl
  · exact ⟨(hn1.trans n2).trans n3, Nat.le_refl _, n3.get (n2.get hnn), n3.get (n2.get ha),
      n3.get (n2.get hh), _, [], gi, Table.nil (n3.get go), rfl⟩
  · rintro _ h' ⟨hnew, hle', _, ha', hh', d, ops, -, htab, heq⟩
    rw [List.length_map, List.drop_length] at heq
    have heq' : forwardLoop S.atoms.length
        (Dict.ofPairs (S.atoms.zip (List.range S.atoms.length))) [] S.nodes = .ok ops := heq
    refine post_pure ⟨⟨S.atoms, S.heads, ops⟩, ?_, hnew, ⟨ha', hh', htab.toGraph⟩, ?_, ?_⟩
    · unfold Verif.forwardGraph
      rw [← hS]
      simp only [heq']
      rfl
    · intro r hr
      rcases List.mem_append.1 hr with hr | hr
      · simp only [List.mem_cons, List.not_mem_nil, or_false] at hr
        omega
      · exact (htab.refs.2 r hr).1
    · refine List.nodup_append.2 ⟨?_, htab.refs.1, ?_⟩
      · simp only [List.nodup_cons, List.mem_cons, List.not_mem_nil, or_false, not_false_eq_true,
          List.nodup_nil, and_true]
        omega
      · rintro a ha b hb rfl
        have := (htab.refs.2 a hb).2
        simp only [List.mem_cons, List.not_mem_nil, or_false] at ha this
        omega
  · intro err h' herr
    simp only [herr] at hG
    cases hG

/-! ### `SubsFunc` -/

/-- The entries of `operations` in a `SubsFunc`. -/
def subsTable (base : Nat) (avoid : List Nat) (h : Heap V T) (r : Nat) (ops : List (List Nat)) : Prop :=
  Table (fun _ a => Cell.ref a) (fun is => is) base avoid h r ops

omit [DecidableEq V] in
theorem subsTable.toSubs {base : Nat} {avoid : List Nat} {r : Nat} {ops : List (List Nat)}
    (ht : subsTable base avoid h r ops) :
    ∃ cells, h.objs[r]? = some (.list cells) ∧
      List.Forall₂ (fun c is => ∃ r, c = .ref r ∧ IsInts h r is) cells ops := by
  obtain ⟨ps, rfl, h2, h3, -, -⟩ := ht
  refine ⟨_, h2, ?_⟩
  rw [List.forall₂_map_left_iff, List.forall₂_map_right_iff, List.forall₂_same]
  exact fun p hp => ⟨p.2, rfl, h3 p hp⟩

omit [DecidableEq V] in
theorem subsTable.refs {base : Nat} {avoid : List Nat} {r : Nat} {ops : List (List Nat)}
    (ht : subsTable base avoid h r ops) :
    (innerRefs h r).Nodup ∧ ∀ a ∈ innerRefs h r, base ≤ a ∧ a ∉ avoid := by
  obtain ⟨ps, rfl, h2, h3, h4, h5⟩ := ht
  have : innerRefs h r = ps.map Prod.snd := by
    unfold innerRefs
    rw [h2]
    simp only [List.flatMap_map, cellRefs]
    clear h2 h3 h4 h5
    induction ps with
    | nil => rfl
    | cons p ps ih => rw [List.flatMap_cons, ih]; rfl
  rw [this]
  refine ⟨h4, ?_⟩
  intro a ha
  obtain ⟨p, hp, rfl⟩ := List.mem_map.1 ha
  exact h5 p hp

theorem subsFunc_new_ok (e : Tree V) (params : List (Tree V)) :
    ∃ F, SubsFunc.new e params = .ok F := by
  by_cases he : e ∈ params
  · obtain ⟨F, hF, -⟩ := subsFunc_param e params he
    exact ⟨F, hF⟩
  · obtain ⟨F, hF, -⟩ := subsFunc_main e params he
    exact ⟨F, hF⟩

/-- The second half of `SubsFunc.__new__`. -/
def subsTail (expr : Tree V) (args : List (Tree V)) (s : SubsState V) : PyM (SubsFunc V) := do
  let atoms :=
    if s.atoms ≠ [] ∧ s.nodes = [] then [expr]
    else s.atoms.filter (fun a => a ∈ s.nodeChildren)
  let indices := (Dict.ofPairs (args.zip (List.range args.length))).update
    (atoms.zip (List.range' args.length atoms.length))
  let operations ← subsOpsLoop (args.length + atoms.length) indices [] s.nodes
  return ⟨args.length, atoms, operations⟩

theorem classify_post (s : List (Tree V)) (ps : List (Tree V)) (sub a0 nd ha nc : Nat)
    (hd : [sub, a0, nd, ha, nc].Nodup) (hge : ∀ r ∈ [a0, nd, ha, nc], h0.objs.length ≤ r)
    (hb : OnlyNew h0 h) (hsub : IsTrees h sub s) (hA : IsTrees h a0 []) (hN : IsTrees h nd [])
    (hH : IsSet h ha ps) (hC : IsSet h nc []) :
    Post (M.forList sub (Subs.classify a0 nd ha nc)) h (fun _ h' => OnlyNew h0 h' ∧
      h.objs.length ≤ h'.objs.length ∧
      IsTrees h' a0 (s.foldl subsStep ⟨[], [], ps, []⟩).atoms ∧
      IsTrees h' nd (s.foldl subsStep ⟨[], [], ps, []⟩).nodes ∧
      IsSet h' nc (s.foldl subsStep ⟨[], [], ps, []⟩).nodeChildren) noErr := by
  simp only [List.mem_cons, List.not_mem_nil, or_false, forall_eq_or_imp, forall_eq] at hge
  simp only [List.nodup_cons, List.mem_cons, List.not_mem_nil, or_false, not_false_eq_true,
        List.nodup_nil, and_true] at hd
  refine (post_forList (cells := s.map .tree)
    (fun k h' => OnlyNew h0 h' ∧ h.objs.length ≤ h'.objs.length ∧ IsTrees h' sub s ∧
      IsTrees h' a0 ((s.take k).foldl subsStep ⟨[], [], ps, []⟩).atoms ∧
      IsTrees h' nd ((s.take k).foldl subsStep ⟨[], [], ps, []⟩).nodes ∧
      IsSet h' ha ((s.take k).foldl subsStep ⟨[], [], ps, []⟩).hasArgs ∧
      IsSet h' nc ((s.take k).foldl subsStep ⟨[], [], ps, []⟩).nodeChildren) noErr
    (fun k h' hi => hi.2.2.1) ?_ ?_).mono ?_ fun _ _ h => h
  · rintro k c h' hc ⟨hnew, hle, hs', hA', hN', hH', hC'⟩
    obtain ⟨t, ht, rfl⟩ := map_get hc
    simp only [take_succ_of_get ht, List.foldl_append, List.foldl_cons, List.foldl_nil]
    generalize List.foldl subsStep ⟨[], [], ps, []⟩ (s.take k) = st at hA' hN' hH' hC' ⊢
    have happ : ∀ h'', OnlyNew h' h'' →
        Post (M.append a0 (.tree t)) h'' (fun _ h' => OnlyNew h0 h' ∧
          h.objs.length ≤ h'.objs.length ∧ IsTrees h' sub s ∧
          IsTrees h' a0 (st.atoms ++ [t]) ∧ IsTrees h' nd st.nodes ∧ IsSet h' ha st.hasArgs ∧
          IsSet h' nc st.nodeChildren) noErr := by
      intro h'' hn
      have hl := hn.le
      refine post_append (hn.get hA') ⟨(hnew.trans hn).set (by omega) _, ?_,
        get_set_other (hn.get hs') (by omega), ?_, get_set_other (hn.get hN') (by omega),
        get_set_other (hn.get hH') (by omega), get_set_other (hn.get hC') (by omega)⟩
      · simp only [List.length_set]; omega
      · unfold IsTrees
        rw [List.map_append]
        exact get_set_self (hn.get hA')
    unfold Subs.classify
    refine post_bind (post_pure ?_)
    unfold subsStep
    by_cases hch : t.children = []
    · rw [if_neg (not_not_intro hch)]
      simp only [hch, ne_eq, not_true_eq_false, if_false]
      exact happ h' (OnlyNew.refl _)
    · rw [if_pos hch]
      simp only [ne_eq, hch, not_false_eq_true, if_true]
      refine post_bind (post_new fun cs h2 ecs el2 n2 gcs => post_bind (post_readSet gcs
        (post_bind (post_readSet (n2.get hH') ?_))))
      by_cases hany : t.children.any (fun c => c ∈ st.hasArgs) = true
      · rw [if_pos hany, if_pos hany]
        refine post_bind (post_addSet (n2.get hH') (post_bind (post_updateSet
          (get_set_other (n2.get hC') (by omega)) (post_append
          (get_set_other (get_set_other (n2.get hN') (by omega)) (by omega)) ⟨?_, ?_, ?_, ?_, ?_, ?_, ?_⟩))))
        · exact (((hnew.trans n2).set (by omega) _).set (by omega) _).set (by omega) _
        · simp only [List.length_set]; omega
        · exact get_set_other (get_set_other (get_set_other (n2.get hs') (by omega)) (by omega))
            (by omega)
        · exact get_set_other (get_set_other (get_set_other (n2.get hA') (by omega)) (by omega))
            (by omega)
        · unfold IsTrees
          rw [List.map_append]
          exact get_set_self (get_set_other (get_set_other (n2.get hN') (by omega)) (by omega))
        · exact get_set_other (get_set_other (get_set_self (n2.get hH')) (by omega)) (by omega)
        · exact get_set_other (get_set_self (get_set_other (n2.get hC') (by omega))) (by omega)
      · rw [if_neg hany, if_neg hany]
        exact happ h2 n2
  · exact ⟨hb, Nat.le_refl _, hsub, hA, hN, hH, hC⟩
  · rintro _ h' ⟨h1, h2, _, h3, h4, _, h5⟩
    rw [List.length_map, List.take_length] at h3 h4 h5
    exact ⟨h1, h2, h3, h4, h5⟩

theorem subsNew_post (expr : Tree V) (args : Nat) (ps : List (Tree V)) (hps : IsTrees h args ps) :
    Post (Subs.new expr args) h (fun f h' => ∃ F, SubsFunc.new expr ps = .ok F ∧ OnlyNew h h' ∧
      IsSubs h' f F ∧ NewAndDistinct h (subsRefs h' f)) noErr := by
  obtain ⟨F, hF⟩ := subsFunc_new_ok expr ps
  have hF' : subsTail expr ps ((Verif.topologicalSort true ps expr).foldl subsStep ⟨[], [], ps, []⟩) =
    .ok F := hF
  unfold Subs.new
  have hargs := get_lt hps
  refine post_bind (post_readTrees hps (post_bind (post_new fun ex h1 eex el1 n1 gex => ?_)))
  refine post_bind ((topologicalSort_post true (some ex) ps (Or.inr gex) expr).mono ?_
    fun _ _ h => h)
  rintro sub h2 ⟨n2, hge2, hsub⟩
  have hl2 := n2.le
  have hsublt := get_lt hsub
  refine post_bind (post_new fun a0 h3 ea el3 n3 ga => post_bind (post_new fun nd h4 en el4 n4 gn =>
    post_bind (post_readTrees (n4.get (n3.get (n2.get (n1.get hps)))) (post_bind (post_new
    fun ha h5 eh el5 n5 gh => post_bind (post_new fun nc h6 ec el6 n6 gc => ?_))))))
  have hbase : OnlyNew h h6 := ((((n1.trans n2).trans n3).trans n4).trans n5).trans n6
  refine post_bind ((classify_post (h0 := h) (Verif.topologicalSort true ps expr) ps sub a0 nd ha nc
    ?_ ?_ hbase (n6.get (n5.get (n4.get (n3.get hsub)))) (n6.get (n5.get (n4.get ga)))
    (n6.get (n5.get gn)) (n6.get gh) gc).mono ?_ fun _ _ h => h)
  · simp only [List.nodup_cons, List.mem_cons, List.not_mem_nil, or_false, not_false_eq_true,
        List.nodup_nil, and_true]
    omega
  · intro r hr
    simp only [List.mem_cons, List.not_mem_nil, or_false] at hr
    omega
  rintro _ h7 ⟨n7, hl7, hA, hN, hC⟩
  generalize hst : List.foldl subsStep ⟨[], [], ps, []⟩ (Verif.topologicalSort true ps expr) = st
    at hA hN hC hF'
  have hprune : Post (Subs.prune expr a0 nd nc) h7 (fun r h' => OnlyNew h7 h' ∧ r = h7.objs.length ∧
      h'.objs.length = h7.objs.length + 1 ∧
      IsTrees h' r (if st.atoms ≠ [] ∧ st.nodes = [] then [expr]
        else st.atoms.filter (fun a => a ∈ st.nodeChildren))) noErr := by
    unfold Subs.prune
    refine post_bind (post_readTrees hA (post_bind (post_readList hN ?_)))
    have hlen : ((st.nodes.map Cell.tree : List (Cell V T)).length = 0) = (st.nodes = []) := by
      rw [List.length_map, List.length_eq_zero_iff]
    simp only [hlen]
    split
    · exact post_new fun r h' er el n g => ⟨n, er, el, g⟩
    · exact post_bind (post_readSet hC (post_new fun r h' er el n g => ⟨n, er, el, g⟩))
  refine post_bind (hprune.mono ?_ fun _ _ h => h)
  rintro a1 h8 ⟨n8, ea1, el8, hA1⟩
  unfold subsTail at hF'
  generalize (if st.atoms ≠ [] ∧ st.nodes = [] then [expr]
        else st.atoms.filter (fun a => decide (a ∈ st.nodeChildren))) = as at hA1 hF'
  refine post_bind (post_readTrees (n8.get (n7.get hps)) (post_bind (post_readTrees hA1 ?_)))
  refine post_bind (post_new fun ix h9 eix el9 n9 gix => post_bind (post_readIndex gix
    (post_bind (post_write ?_))))
  have nix : OnlyNew h8 { h9 with objs := h9.objs.set ix (.index
      ((Dict.ofPairs (ps.zip (List.range ps.length))).update
        (as.zip (List.range' ps.length as.length)))) } := n9.set (by omega) _
  have gix' : ({ h9 with objs := h9.objs.set ix (.index
      ((Dict.ofPairs (ps.zip (List.range ps.length))).update
        (as.zip (List.range' ps.length as.length)))) } : Heap V T).objs[ix]? =
      some (.index ((Dict.ofPairs (ps.zip (List.range ps.length))).update
        (as.zip (List.range' ps.length as.length)))) := get_set_self gix
  have hl10 : ({ h9 with objs := h9.objs.set ix (.index
      ((Dict.ofPairs (ps.zip (List.range ps.length))).update
        (as.zip (List.range' ps.length as.length)))) } : Heap V T).objs.length = h9.objs.length := by
    simp
  generalize ({ h9 with objs := h9.objs.set ix (.index
      ((Dict.ofPairs (ps.zip (List.range ps.length))).update
        (as.zip (List.range' ps.length as.length)))) } : Heap V T) = h10 at nix hl10 gix' ⊢
  refine post_bind (post_new fun op h11 eop el11 n11 gop => ?_)
  have hltN := get_lt hN
  have hln : nd < h7.objs.length := hltN
  refine post_bind ((post_forList (cells := st.nodes.map .tree)
    (fun k h' => OnlyNew h h' ∧ h11.objs.length ≤ h'.objs.length ∧
      IsTrees h' nd st.nodes ∧ IsTrees h' a1 as ∧
      ∃ d ops, h'.objs[ix]? = some (.index d) ∧
        subsTable h.objs.length [nd, a1, op, ix] h' op ops ∧
        subsOpsLoop (ps.length + as.length) ((Dict.ofPairs (ps.zip (List.range ps.length))).update
          (as.zip (List.range' ps.length as.length))) [] st.nodes =
          subsOpsLoop (ps.length + as.length + k) d ops (st.nodes.drop k))
    (fun err _ => subsOpsLoop (ps.length + as.length)
      ((Dict.ofPairs (ps.zip (List.range ps.length))).update
          (as.zip (List.range' ps.length as.length))) [] st.nodes = .error err)
    (fun k h' hi => hi.2.2.1) ?_ ?_).mono ?_ ?_)
  · rintro k c h' hc ⟨hnew, hle', hn', ha', d, ops, hd', htab, heq⟩
    obtain ⟨t, ht, rfl⟩ := map_get hc
    rw [drop_of_get ht] at heq
    unfold Subs.opsBody
    refine post_bind (post_pure ?_)
    have hx : subsOpsLoop (ps.length + as.length + k) d ops (t :: st.nodes.drop (k + 1)) =
      (do let is ← t.children.mapM (fun c => (d.set t (ps.length + as.length + k)).getItem c)
          subsOpsLoop (ps.length + as.length + k + 1) (d.set t (ps.length + as.length + k))
            (ops ++ [is]) (st.nodes.drop (k + 1))) := rfl
    rw [hx] at heq
    refine post_bind (post_readIndex hd' (post_bind (post_write (post_bind (post_readIndex
      (get_set_self hd') ?_)))))
    refine post_bind (post_lift (fun is his => ?_) (fun err herr => ?_))
    · rw [his] at heq
      refine Table.add (Table.set htab (by simp) (by omega)) is ?_ ?_ (by simp) ?_
      · simp only [List.length_set]; omega
      · intro a ha
        simp only [List.mem_cons, List.not_mem_nil, or_false, List.length_set] at ha ⊢
        omega
      · intro h'' hkeep hnew' hle'' htab'
        simp only [List.length_set] at hle''
        refine ⟨hnew' h (hnew.set (by omega) _) (by omega), by omega,
          hkeep nd (by omega) _ (get_set_other hn' (by omega)),
          hkeep a1 (by omega) _ (get_set_other ha' (by omega)),
          _, _, hkeep ix (by omega) _ (get_set_self hd'), htab', ?_⟩
        rw [heq]; rfl
    · rw [heq, herr]; rfl
  · exact ⟨((n7.trans n8).trans nix).trans n11, Nat.le_refl _,
      n11.get (nix.get (n8.get hN)), n11.get (nix.get hA1), _, [], n11.get gix', Table.nil gop, rfl⟩
  · rintro _ h' ⟨hnew, hle', _, ha', d, ops, -, htab, heq⟩
    rw [List.length_map, List.drop_length] at heq
    have heq' : subsOpsLoop (ps.length + as.length) ((Dict.ofPairs (ps.zip (List.range ps.length))).update
          (as.zip (List.range' ps.length as.length))) [] st.nodes = .ok ops := heq
    simp only [heq'] at hF'
    cases hF'
    refine post_pure ⟨_, hF, hnew, ⟨rfl, ha', htab.toSubs⟩, ?_, ?_⟩
    · intro r hr
      rcases List.mem_append.1 hr with hr | hr
      · simp only [List.mem_cons, List.not_mem_nil, or_false] at hr
        omega
      · exact (htab.refs.2 r hr).1
    · refine List.nodup_append.2 ⟨?_, htab.refs.1, ?_⟩
      · simp only [List.nodup_cons, List.mem_cons, List.not_mem_nil, or_false, not_false_eq_true,
          List.nodup_nil, and_true]
        omega
      · rintro a ha b hb rfl
        have := (htab.refs.2 a hb).2
        simp only [List.mem_cons, List.not_mem_nil, or_false] at ha this
        omega
  · intro err h' herr
    simp only [herr] at hF'
    cases hF'


/-! ### Calling a `SubsFunc` -/

omit [DecidableEq V] in
theorem forall₂_get {γ δ : Type} {R : γ → δ → Prop} {l : List γ} {l' : List δ}
    (hf : List.Forall₂ R l l') : ∀ {k : Nat} {c : γ}, l[k]? = some c → ∃ d, l'[k]? = some d ∧ R c d := by
  induction hf with
  | nil => intro k c hc; simp at hc
  | @cons a b l l' hab _ ih =>
    intro k c hc
    cases k with
    | zero => cases hc; exact ⟨b, rfl, hab⟩
    | succ k => simpa using ih (k := k) (by simpa using hc)

omit [DecidableEq V] in
theorem forall₂_imp_mem {γ δ : Type} {R R' : γ → δ → Prop} {l : List γ} {l' : List δ}
    (hf : List.Forall₂ R l l') (hi : ∀ a b, a ∈ l → R a b → R' a b) : List.Forall₂ R' l l' := by
  induction hf with
  | nil => exact .nil
  | cons hab _ ih =>
    exact .cons (hi _ _ List.mem_cons_self hab) (ih fun a b ha => hi a b (List.mem_cons_of_mem _ ha))

omit [DecidableEq V] in
theorem _root_.Verif.Spec.IsSubs.mono {h' : Heap V T} {f : Subs} {F : SubsFunc V} (hs : IsSubs h f F)
    (hk : ∀ a o, a ∈ subsRefs h f → h.objs[a]? = some o → h'.objs[a]? = some o) : IsSubs h' f F := by
  obtain ⟨h1, h2, cells, h3, h4⟩ := hs
  refine ⟨h1, hk _ _ (by simp [subsRefs]) h2, cells, hk _ _ (by simp [subsRefs]) h3, ?_⟩
  have hin : innerRefs h f.operations = cells.flatMap cellRefs := by simp [innerRefs, h3]
  have hmem : ∀ c ∈ cells, ∀ a ∈ cellRefs c, a ∈ subsRefs h f := by
    intro c hc a ha
    simp only [subsRefs, hin, List.mem_append, List.mem_flatMap]
    exact Or.inr ⟨c, hc, ha⟩
  refine forall₂_imp_mem h4 ?_
  rintro c is hc ⟨r, rfl, hr⟩
  exact ⟨r, rfl, hk _ _ (hmem _ hc r (by simp [cellRefs])) hr⟩

omit [DecidableEq V] in
theorem _root_.Verif.Spec.IsSubs.new {h' : Heap V T} {f : Subs} {F : SubsFunc V} (hs : IsSubs h f F)
    (hn : OnlyNew h h') : IsSubs h' f F := hs.mono fun _ _ _ ho => hn.get ho

omit [DecidableEq V] in
theorem subsCall_post (f : Subs) (F : SubsFunc V) (hs : IsSubs h f F) (args : List (Tree V)) :
    Post (f.call args) h (fun t h' => F.call args = .ok t ∧ OnlyNew h h')
      (fun e h' => F.call args = .error e ∧ OnlyNew h h') := by
  obtain ⟨h1, h2, cells, h3, h4⟩ := hs
  unfold Subs.call
  by_cases hlen : args.length = F.nargs
  · have hF : F.call args = (do let st ← subsCallLoop (args ++ F.atoms) F.operations; pyLast st) := by
      unfold SubsFunc.call
      rw [if_neg (not_not_intro hlen)]
    rw [if_neg (by rw [h1]; exact not_not_intro hlen)]
    refine post_bind (post_readTrees h2 (post_bind (post_new fun stk h' es el hn gs => ?_)))
    refine post_bind ((post_forList (cells := cells)
      (fun k h' => OnlyNew h h' ∧ ∃ st, IsTrees h' stk st ∧
        subsCallLoop (args ++ F.atoms) F.operations = subsCallLoop st (F.operations.drop k))
      (fun e h' => F.call args = .error e ∧ OnlyNew h h')
      (fun k h' hi => hi.1.get h3) ?_ ?_).mono ?_ fun _ _ h => h)
    · rintro k c h' hc ⟨hnew, st, hst, heq⟩
      obtain ⟨is, his, r, rfl, hr⟩ := forall₂_get h4 hc
      rw [drop_of_get his] at heq
      have hx : subsCallLoop st (is :: F.operations.drop (k + 1)) =
        (do let cs ← is.mapM (fun i => pyGet st i)
            subsCallLoop (st ++ [Tree.node cs]) (F.operations.drop (k + 1))) := rfl
      rw [hx] at heq
      unfold Subs.callBody
      refine post_bind (post_readInts (hnew.get hr) (post_bind (post_readTrees hst
        (post_bind (post_lift (fun cs hcs => ?_) (fun err herr => ?_))))))
      · refine post_bind (post_new fun ch h'' ech elch hnch gch => post_bind (post_readTrees gch ?_))
        refine post_append (hnch.get hst) ⟨(hnew.trans hnch).set (by omega) _, st ++ [.node cs], ?_, ?_⟩
        · unfold IsTrees
          rw [List.map_append]
          exact get_set_self (hnch.get hst)
        · rw [heq, hcs]; rfl
      · refine ⟨?_, hnew⟩
        rw [hF, heq, herr]; rfl
    · exact ⟨hn, _, gs, rfl⟩
    · rintro _ h' ⟨hnew, st, hst, heq⟩
      have hl : cells.length = F.operations.length := h4.length_eq
      rw [hl, List.drop_length] at heq
      have heq' : subsCallLoop (args ++ F.atoms) F.operations = .ok st := heq
      refine post_bind (post_readTrees hst (post_lift (fun a ha => ⟨?_, hnew⟩) (fun e he => ⟨?_, hnew⟩)))
      · rw [hF, heq']; exact ha
      · rw [hF, heq']; exact he
  · rw [if_pos (by rw [h1]; exact hlen)]
    refine post_lift (fun a ha => by cases ha) (fun e he => ?_)
    cases he
    refine ⟨?_, OnlyNew.refl _⟩
    unfold SubsFunc.call
    rw [if_pos hlen]; rfl

end Verif.Mem
