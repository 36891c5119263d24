import Verif.Model.MatrixThreads
import Verif.Lemmas.MatrixHeap

/-! # The programs of `Model/MatrixThreads.lean`, run without a break, are those of `Model/MatrixHeap.lean` -/

namespace Verif
namespace HProg

/-- A program run without a break. -/
def denote {α : Type} : HProg α → HM α
  | .ret a => fun h => (.ok a, h)
  | .raise e => fun h => (.error e, h)
  | .alloc o k => fun h => (k h.length).denote (h ++ [o])
  | .look r k => fun h => (k h[r]?).denote h
  | .write r o k => fun h => (k ()).denote (h.set r o)

theorem denote_bind {α β : Type} (p : HProg α) (f : α → HProg β) :
    denote (p >>= f) = (denote p >>= fun a => denote (f a)) := by
  change denote (p.bind f) = HM.bind (denote p) _
  induction p with
  | ret a => rfl
  | raise e => rfl
  | alloc o k ih => funext h; exact congrFun (ih h.length) _
  | look r k ih => funext h; exact congrFun (ih h[r]?) _
  | write r o k ih => funext h; exact congrFun (ih ()) _

theorem denote_pure {α : Type} (a : α) : denote (pure a : HProg α) = pure a := by rfl
theorem denote_lift {α : Type} (x : PyM α) : denote (lift x) = HM.lift x := by
  cases x <;> rfl
theorem denote_new (o : HObj) : denote (HProg.new o) = HM.alloc o := by rfl
theorem denote_put (r : Nat) (o : HObj) : denote (put r o) = HM.write r o := by rfl
theorem denote_readList (r : Nat) : denote (readList r) = HM.readList r := by
  funext h
  simp only [readList, denote, HM.readList]
  rcases h[r]? with _ | ⟨_⟩ | _ <;> rfl
theorem denote_readDict (r : Nat) : denote (readDict r) = HM.readDict r := by
  funext h
  simp only [readDict, denote, HM.readDict]
  rcases h[r]? with _ | ⟨_⟩ | _ <;> rfl
theorem denote_append (r : Nat) (c : Cell) : denote (append r c) = HM.append r c := by
  simp only [append, HM.append, denote_bind, denote_readList, denote_put]
theorem denote_getIdx (r i : Nat) : denote (getIdx r i) = HM.getIdx r i := by
  simp only [getIdx, HM.getIdx, denote_bind, denote_readList, denote_lift]
theorem denote_setIdx (r i : Nat) (c : Cell) : denote (setIdx r i c) = HM.setIdx r i c := by
  simp only [setIdx, HM.setIdx, denote_bind, denote_readList, denote_lift, denote_put]
theorem denote_setKey (r : Nat) (k : Nat × Nat) (v : Nat) :
    denote (setKey r k v) = HM.setKey r k v := by
  simp only [setKey, HM.setKey, denote_bind, denote_readDict, denote_put]

/-- A program changes nothing below the address `M`, and `Q` holds if it ends. -/
def Keeps {α : Type} (M : Nat) : HProg α → (α → Heap → Prop) → Heap → Prop
  | .ret a, Q, h => Q a h
  | .raise _, _, _ => True
  | .alloc o k, Q, h => Keeps M (k h.length) Q (h ++ [o])
  | .look r k, Q, h => Keeps M (k h[r]?) Q h
  | .write r o k, Q, h => M ≤ r ∧ Keeps M (k ()) Q (h.set r o)

variable {M : Nat} {h : Heap}

theorem keeps_bind {α β : Type} (p : HProg α) (f : α → HProg β) (Q : β → Heap → Prop) (h : Heap) :
    Keeps M (p >>= f) Q h ↔ Keeps M p (fun a h' => Keeps M (f a) Q h') h := by
  change Keeps M (p.bind f) Q h ↔ _
  induction p generalizing h with
  | ret a => rfl
  | raise e => rfl
  | alloc o k ih => exact ih _ _
  | look r k ih => exact ih _ _
  | write r o k ih => exact and_congr Iff.rfl (ih _ _)

theorem keeps_mono {α : Type} {p : HProg α} {Q R : α → Heap → Prop} {h : Heap}
    (hQ : Keeps M p Q h) (hR : ∀ a h', h.length ≤ h'.length → Q a h' → R a h') : Keeps M p R h := by
  induction p generalizing h with
  | ret a => exact hR _ _ (Nat.le_refl _) hQ
  | raise e => trivial
  | alloc o k ih =>
    exact ih _ hQ (fun a h' hl => hR a h' (by simp at hl; omega))
  | look r k ih => exact ih _ hQ hR
  | write r o k ih => exact ⟨hQ.1, ih _ hQ.2 (fun a h' hl => hR a h' (by simpa using hl))⟩

theorem keeps_pure {α : Type} (a : α) (Q : α → Heap → Prop) :
    Keeps M (pure a : HProg α) Q h ↔ Q a h := Iff.rfl
theorem keeps_lift {α : Type} (x : PyM α) (Q : α → Heap → Prop) :
    Keeps M (lift x) Q h ↔ ∀ a, x = .ok a → Q a h := by
  cases x with
  | ok a => simp [lift, Keeps]
  | error e => simp [lift, Keeps]
theorem keeps_new (o : HObj) (Q : Nat → Heap → Prop) :
    Keeps M (HProg.new o) Q h ↔ Q h.length (h ++ [o]) := Iff.rfl
theorem keeps_put (r : Nat) (o : HObj) (Q : Unit → Heap → Prop) :
    Keeps M (put r o) Q h ↔ M ≤ r ∧ Q () (h.set r o) := Iff.rfl
theorem keeps_readList (r : Nat) (Q : List Cell → Heap → Prop) :
    Keeps M (readList r) Q h ↔ ∀ l, h[r]? = some (.list l) → Q l h := by
  simp only [readList, Keeps]
  rcases h[r]? with _ | ⟨_⟩ | _ <;> simp [Keeps]
theorem keeps_readDict (r : Nat) (Q : Dict (Nat × Nat) Nat → Heap → Prop) :
    Keeps M (readDict r) Q h ↔ ∀ d, h[r]? = some (.dict d) → Q d h := by
  simp only [readDict, Keeps]
  rcases h[r]? with _ | ⟨_⟩ | _ <;> simp [Keeps]
theorem keeps_append (r : Nat) (c : Cell) (Q : Unit → Heap → Prop) :
    Keeps M (append r c) Q h ↔
      ∀ l, h[r]? = some (.list l) → M ≤ r ∧ Q () (h.set r (.list (l ++ [c]))) := by
  simp only [append, keeps_bind, keeps_readList, keeps_put]
theorem keeps_getIdx (r i : Nat) (Q : Cell → Heap → Prop) :
    Keeps M (getIdx r i) Q h ↔
      ∀ l, h[r]? = some (.list l) → ∀ c, pyGet l i = .ok c → Q c h := by
  simp only [getIdx, keeps_bind, keeps_readList, keeps_lift]
theorem keeps_setIdx (r i : Nat) (c : Cell) (Q : Unit → Heap → Prop) :
    Keeps M (setIdx r i c) Q h ↔ ∀ l, h[r]? = some (.list l) → ∀ l', pySet l i c = .ok l' →
      M ≤ r ∧ Q () (h.set r (.list l')) := by
  simp only [setIdx, keeps_bind, keeps_readList, keeps_lift, keeps_put]
theorem keeps_setKey (r : Nat) (k : Nat × Nat) (v : Nat) (Q : Unit → Heap → Prop) :
    Keeps M (setKey r k v) Q h ↔ ∀ d, h[r]? = some (.dict d) →
      M ≤ r ∧ Q () (h.set r (.dict (d.set k v))) := by
  simp only [setKey, keeps_bind, keeps_readDict, keeps_put]

end HProg

namespace TMat
open HProg

theorem denote_mk' (nr nc el em : Nat) : denote (mk' nr nc el em) = HMat.mk' nr nc el em := by
  simp only [mk', HMat.mk', denote_bind, denote_readList, denote_new, denote_lift, denote_pure]

theorem denote_asList (c : Cell) : denote (asList c) = HMat.asList c := by
  funext h
  cases c with
  | obj o => rfl
  | ref r =>
    simp only [asList, denote, HMat.asList]
    rcases h[r]? with _ | ⟨_⟩ | _ <;> rfl

theorem denote_rowsOf (l : List Cell) : denote (rowsOf l) = HMat.rowsOf l := by
  induction l with
  | nil => rfl
  | cons c cs ih =>
    simp only [rowsOf, HMat.rowsOf, denote_bind, denote_asList]
    refine congrArg _ (funext fun o => ?_)
    cases o with
    | none => rfl
    | some row =>
      simp only [denote_bind, ih]
      refine congrArg _ (funext fun o => ?_)
      cases o <;> rfl

theorem denote_rowLoop (el em i j : Nat) (row : List Expr) :
    denote (rowLoop el em i j row) = HMat.rowLoop el em i j row := by
  induction row generalizing j with
  | nil => rfl
  | cons e rest ih =>
    simp only [rowLoop, HMat.rowLoop]
    split <;>
      simp only [denote_bind, denote_readList, denote_setKey, denote_append, ih]

theorem denote_rowsLoop (el em i : Nat) (rows : List (List Expr)) :
    denote (rowsLoop el em i rows) = HMat.rowsLoop el em i rows := by
  induction rows generalizing i with
  | nil => rfl
  | cons r rest ih => simp only [rowsLoop, HMat.rowsLoop, denote_bind, denote_rowLoop, ih]

theorem denote_new (c : Cell) : denote (new c) = HMat.new c := by
  simp only [new, HMat.new, denote_bind, denote_asList]
  refine congrArg _ (funext fun o => ?_)
  cases o with
  | none => exact denote_lift _
  | some cells =>
    simp only [denote_bind, denote_rowsOf]
    refine congrArg _ (funext fun o => ?_)
    cases o with
    | none => exact denote_lift _
    | some rows =>
      simp only [denote_bind, denote_lift]
      refine congrArg _ (funext fun o => ?_)
      split
      · exact denote_lift _
      · simp only [denote_bind, denote_lift, HProg.denote_new, denote_rowsLoop, denote_mk']

theorem denote_getItem (m : HMat) (ij : PyIndex) : denote (getItem m ij) = m.getItem ij := by
  cases ij with
  | other => rfl
  | pair i j =>
    simp only [getItem, HMat.getItem]
    split
    · exact denote_lift _
    · simp only [denote_bind, denote_readDict]
      refine congrArg _ (funext fun d => ?_)
      cases d.get? (i.toNat, j.toNat) with
      | none => rfl
      | some n => simp only [denote_bind, denote_getIdx, denote_lift]

theorem denote_zeroRows (nc n : Nat) : denote (zeroRows nc n) = HMat.zeroRows nc n := by
  induction n with
  | zero => rfl
  | succ n ih =>
    simp only [zeroRows, HMat.zeroRows, denote_bind, HProg.denote_new, ih, denote_pure]

theorem denote_cellRef (c : Cell) : denote (cellRef c) = HMat.cellRef c := by
  cases c <;> rfl

theorem denote_tolistLoop (el en : Nat) (items : List ((Nat × Nat) × Nat)) :
    denote (tolistLoop el en items) = HMat.tolistLoop el en items := by
  induction items with
  | nil => rfl
  | cons it rest ih =>
    obtain ⟨⟨i, j⟩, n⟩ := it
    simp only [tolistLoop, HMat.tolistLoop, denote_bind, denote_getIdx, denote_cellRef,
      denote_setIdx, ih]

theorem denote_tolist (m : HMat) : denote (tolist m) = m.tolist := by
  simp only [tolist, HMat.tolist, denote_bind, denote_zeroRows, HProg.denote_new, denote_readDict,
    denote_tolistLoop, denote_pure]

theorem denote_binopLoop (ne nm oe om : Nat) (f : Expr) (size todo k : Nat) :
    denote (binopLoop ne nm oe om f size todo k) = HMat.binopLoop ne nm oe om f size todo k := by
  induction todo generalizing k with
  | zero => rfl
  | succ todo ih =>
    simp only [binopLoop, HMat.binopLoop, denote_bind, denote_readDict]
    refine congrArg _ (funext fun other => ?_)
    split
    · exact denote_lift _
    · simp only [denote_bind, denote_lift]
      refine congrArg _ (funext fun p => ?_)
      simp only [denote_readDict]
      refine congrArg _ (funext fun d => ?_)
      cases d.get? p.1 with
      | none =>
        simp only [denote_bind, denote_readList, denote_setKey, denote_getIdx, denote_append, ih]
      | some n =>
        simp only [denote_bind, denote_lift, denote_setIdx, denote_getIdx, ih]

theorem denote_binop (a b : HMat) (f : Expr) : denote (binop a b f) = a.binop b f := by
  simp only [binop, HMat.binop]
  split
  · exact denote_lift _
  · simp only [denote_bind, denote_readList, denote_readDict, HProg.denote_new, denote_binopLoop,
      denote_mk']

theorem denote_diff (a : HMat) (sym : PyObj) (p : DiffProps Val) :
    denote (diff a sym p) = a.diff sym p := by
  cases sym with
  | expr x => simp only [diff, HMat.diff, denote_bind, denote_lift, HProg.denote_new, denote_mk']
  | int n => rfl
  | other n => rfl

/-! ### They change only what they made -/

variable {M : Nat}

/-- What follows a program that ends. -/
def AfterAny {α : Type} (h : Heap) (Q : α → Heap → Prop) : Prop :=
  ∀ a h', h.length ≤ h'.length → Q a h'

theorem AfterAny.le {α : Type} {h h' : Heap} {Q : α → Heap → Prop} (hQ : AfterAny h Q)
    (hl : h.length ≤ h'.length) : AfterAny h' Q := fun a h'' h2 => hQ a h'' (Nat.le_trans hl h2)

theorem keeps_mk' (nr nc el em : Nat) {h : Heap} {Q} (hQ : AfterAny h Q) :
    Keeps M (mk' nr nc el em) Q h := by
  simp only [mk', keeps_bind, keeps_readList, keeps_new, keeps_lift, keeps_pure]
  intro l _ a _
  exact hQ _ _ (by simp)

theorem keeps_asList (c : Cell) {h : Heap} {Q : _ → Heap → Prop} (hQ : ∀ a, Q a h) :
    Keeps M (asList c) Q h := by
  cases c with
  | obj o => exact hQ _
  | ref r =>
    simp only [asList, Keeps]
    rcases h[r]? with _ | ⟨_⟩ | _ <;> exact hQ _

theorem keeps_rowsOf (l : List Cell) {h : Heap} {Q : _ → Heap → Prop} (hQ : ∀ a, Q a h) :
    Keeps M (rowsOf l) Q h := by
  induction l generalizing Q with
  | nil => exact hQ _
  | cons c cs ih =>
    simp only [rowsOf, keeps_bind]
    refine keeps_asList c fun a => ?_
    cases a with
    | none => exact hQ _
    | some row =>
      refine (keeps_bind _ _ _ _).2 (ih fun a => ?_)
      cases a <;> exact hQ _

theorem keeps_rowLoop {el em : Nat} (h1 : M ≤ el) (h2 : M ≤ em) (i j : Nat) (row : List Expr)
    {h : Heap} {Q} (hQ : AfterAny h Q) : Keeps M (rowLoop el em i j row) Q h := by
  induction row generalizing j h with
  | nil => exact hQ _ _ (Nat.le_refl _)
  | cons e rest ih =>
    simp only [rowLoop]
    split
    · simp only [keeps_bind, keeps_readList, keeps_setKey, keeps_append]
      intro l _ d _
      refine ⟨h2, fun l _ => ⟨h1, ih _ (hQ.le (by simp))⟩⟩
    · exact ih _ hQ

theorem keeps_rowsLoop {el em : Nat} (h1 : M ≤ el) (h2 : M ≤ em) (i : Nat) (rows : List (List Expr))
    {h : Heap} {Q} (hQ : AfterAny h Q) : Keeps M (rowsLoop el em i rows) Q h := by
  induction rows generalizing i h with
  | nil => exact hQ _ _ (Nat.le_refl _)
  | cons r rest ih =>
    simp only [rowsLoop, keeps_bind]
    exact keeps_rowLoop h1 h2 _ _ _ fun _ h' hl => ih _ (hQ.le hl)

theorem keeps_new (c : Cell) {h : Heap} (hM : M ≤ h.length) {Q} (hQ : AfterAny h Q) :
    Keeps M (new c) Q h := by
  simp only [new, keeps_bind]
  refine keeps_asList c fun o => ?_
  cases o with
  | none => exact (keeps_lift _ _).2 nofun
  | some cells =>
    simp only [keeps_bind]
    refine keeps_rowsOf cells fun o => ?_
    cases o with
    | none => exact (keeps_lift _ _).2 nofun
    | some rows =>
      simp only [keeps_bind, keeps_lift]
      intro a _
      split
      · exact (keeps_lift _ _).2 nofun
      · simp only [keeps_bind, keeps_lift, HProg.keeps_new]
        intro es _
        refine keeps_rowsLoop hM (by simp; omega) _ _ fun _ h' hl => ?_
        exact keeps_mk' _ _ _ _ (hQ.le (by simp at hl; omega))

theorem keeps_getItem (m : HMat) (ij : PyIndex) {h : Heap} {Q : _ → Heap → Prop}
    (hQ : ∀ a, Q a h) : Keeps M (getItem m ij) Q h := by
  cases ij with
  | other => trivial
  | pair i j =>
    simp only [getItem]
    split
    · exact (keeps_lift _ _).2 nofun
    · simp only [keeps_bind, keeps_readDict]
      intro d _
      cases d.get? (i.toNat, j.toNat) with
      | none => exact hQ _
      | some n =>
        simp only [keeps_bind, keeps_getIdx, keeps_lift]
        intro _ _ _ _ a _
        exact hQ a

theorem keeps_zeroRows (nc n : Nat) {h : Heap} (hM : M ≤ h.length) {Q : List Cell → Heap → Prop}
    (hQ : ∀ l h', h.length ≤ h'.length → (∀ r, Cell.ref r ∈ l → M ≤ r ∧ r < h'.length) → Q l h') :
    Keeps M (zeroRows nc n) Q h := by
  induction n generalizing h Q with
  | zero => exact hQ [] h (Nat.le_refl _) (by simp)
  | succ n ih =>
    simp only [zeroRows, keeps_bind, HProg.keeps_new, keeps_pure]
    refine ih (by simp; omega) fun l h' hl hr => hQ _ _ (by simp at hl; omega) ?_
    intro r hm
    simp only [List.mem_cons, Cell.ref.injEq] at hm
    rcases hm with rfl | hm
    · simp at hl
      omega
    · exact hr r hm

theorem keeps_tolistLoop (el en : Nat) (items : List ((Nat × Nat) × Nat)) {h : Heap}
    (hen : ∀ l, h[en]? = some (.list l) → ∀ r, Cell.ref r ∈ l → M ≤ r ∧ r ≠ en) {Q}
    (hQ : AfterAny h Q) : Keeps M (tolistLoop el en items) Q h := by
  induction items generalizing h with
  | nil => exact hQ _ _ (Nat.le_refl _)
  | cons it rest ih =>
    obtain ⟨⟨i, j⟩, n⟩ := it
    simp only [tolistLoop, keeps_bind, keeps_getIdx, keeps_setIdx]
    intro _ _ v _ l hl c hc
    cases c with
    | obj o => trivial
    | ref r =>
      have hmem : Cell.ref r ∈ l := by
        unfold pyGet at hc
        split at hc
        · rename_i x hx
          cases hc
          exact List.mem_of_getElem? hx
        · cases hc
      obtain ⟨h1, h2⟩ := hen l hl r hmem
      change Keeps M (pure r) _ h
      rw [keeps_pure]
      intro l2 hl2 l' hl'
      refine ⟨h1, ih ?_ (hQ.le (by simp))⟩
      intro l3 hl3
      rw [List.getElem?_set_ne h2] at hl3
      exact hen l3 hl3

theorem keeps_tolist (m : HMat) {h : Heap} (hM : M ≤ h.length) {Q} (hQ : AfterAny h Q) :
    Keeps M (tolist m) Q h := by
  simp only [tolist, keeps_bind]
  refine keeps_zeroRows _ _ hM fun rows h' hl hr => ?_
  simp only [HProg.keeps_new, keeps_readDict, keeps_pure]
  intro d _
  refine keeps_tolistLoop _ _ _ ?_ fun _ h'' hl2 => hQ _ _ (by simp at hl2; omega)
  intro l hl3 r hm
  simp only [List.getElem?_concat_length, Option.some.injEq, HObj.list.injEq] at hl3
  subst hl3
  obtain ⟨h1, h2⟩ := hr r hm
  exact ⟨h1, by omega⟩

theorem keeps_binopLoop {ne nm : Nat} (h1 : M ≤ ne) (h2 : M ≤ nm) (oe om : Nat) (f : Expr)
    (size todo k : Nat) {h : Heap} {Q} (hQ : AfterAny h Q) :
    Keeps M (binopLoop ne nm oe om f size todo k) Q h := by
  induction todo generalizing k h with
  | zero => exact hQ _ _ (Nat.le_refl _)
  | succ todo ih =>
    simp only [binopLoop, keeps_bind, keeps_readDict]
    intro other _
    split
    · exact (keeps_lift _ _).2 nofun
    · simp only [keeps_bind, keeps_lift]
      intro p _
      simp only [keeps_readDict]
      intro d _
      cases d.get? p.1 with
      | none =>
        simp only [keeps_bind, keeps_readList, keeps_setKey, keeps_getIdx, keeps_append]
        intro l _ d' _
        refine ⟨h2, fun l' _ c _ l'' _ => ⟨h1, ih _ (hQ.le (by simp))⟩⟩
      | some n =>
        simp only [keeps_bind, keeps_lift, keeps_setIdx, keeps_getIdx]
        intro l _ c _ l' _ c' _ res _ l'' _ l3 _
        exact ⟨h1, ih _ (hQ.le (by simp))⟩

theorem keeps_binop (a b : HMat) (f : Expr) {h : Heap} (hM : M ≤ h.length) {Q}
    (hQ : AfterAny h Q) : Keeps M (binop a b f) Q h := by
  simp only [binop]
  split
  · exact (keeps_lift _ _).2 nofun
  · simp only [keeps_bind, keeps_readList, keeps_readDict, HProg.keeps_new]
    intro l _ d _ d' _
    refine keeps_binopLoop hM (by simp; omega) _ _ _ _ _ _ fun _ h' hl => ?_
    exact keeps_mk' _ _ _ _ (hQ.le (by simp at hl; omega))

theorem keeps_diff (a : HMat) (sym : PyObj) (p : DiffProps Val) {h : Heap} {Q}
    (hQ : AfterAny h Q) : Keeps M (diff a sym p) Q h := by
  cases sym with
  | expr x =>
    simp only [diff, keeps_bind, keeps_lift, HProg.keeps_new]
    intro e _
    exact keeps_mk' _ _ _ _ (hQ.le (by simp))
  | int n => trivial
  | other n => trivial

end TMat
end Verif
