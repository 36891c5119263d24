import Verif.Spec.MatrixHeap
import Verif.Lemmas.Matrix

/-!
# Lemmas about matrices on a heap
-/

namespace Verif
open Spec
namespace HM
variable {α β : Type}

theorem bind_run (x : HM α) (f : α → HM β) (h : Heap) :
    (x >>= f) h = match x h with
      | (.ok a, h') => f a h'
      | (.error e, h') => (.error e, h') := rfl

theorem bind_ok {x : HM α} {f : α → HM β} {h h' : Heap} {a : α} (hx : x h = (.ok a, h')) :
    (x >>= f) h = f a h' := by rw [bind_run, hx]

theorem bind_error {x : HM α} {f : α → HM β} {h h' : Heap} {e : PyErr}
    (hx : x h = (.error e, h')) : (x >>= f) h = (.error e, h') := by rw [bind_run, hx]

theorem pure_run (a : α) (h : Heap) : (Pure.pure a : HM α) h = (.ok a, h) := rfl
theorem lift_run (x : PyM α) (h : Heap) : lift x h = (x, h) := rfl
theorem alloc_run (o : HObj) (h : Heap) : alloc o h = (.ok h.length, h ++ [o]) := rfl

theorem readList_run {r : Nat} {h : Heap} {l : List Cell} (hr : h[r]? = some (.list l)) :
    readList r h = (.ok l, h) := by simp [readList, hr]
theorem readDict_run {r : Nat} {h : Heap} {d} (hr : h[r]? = some (.dict d)) :
    readDict r h = (.ok d, h) := by simp [readDict, hr]

theorem append_run {r : Nat} {h : Heap} {l : List Cell} (c : Cell)
    (hr : h[r]? = some (.list l)) : append r c h = (.ok (), h.set r (.list (l ++ [c]))) := by
  unfold append; rw [bind_ok (readList_run hr)]; rfl

theorem setKey_run {r : Nat} {h : Heap} {d} (k : Nat × Nat) (v : Nat)
    (hr : h[r]? = some (.dict d)) : setKey r k v h = (.ok (), h.set r (.dict (d.set k v))) := by
  unfold setKey; rw [bind_ok (readDict_run hr)]; rfl

theorem getIdx_run {r : Nat} {h : Heap} {l : List Cell} (i : Nat)
    (hr : h[r]? = some (.list l)) : getIdx r i h = (pyGet l i, h) := by
  unfold getIdx; rw [bind_ok (readList_run hr)]; rfl

theorem setIdx_run {r : Nat} {h : Heap} {l : List Cell} (i : Nat) (c : Cell)
    (hr : h[r]? = some (.list l)) : setIdx r i c h =
      match pySet l i c with
      | .ok l' => (.ok (), h.set r (.list l'))
      | .error e => (.error e, h) := by
  unfold setIdx
  rw [bind_ok (readList_run hr), bind_run, lift_run]
  cases pySet l i c <;> rfl

end HM

/-- Expressions as cells. -/
def exprCells (es : List Expr) : List Cell := es.map (fun e => .obj (.expr e))

theorem mapM_some_map {α β : Type} (f : β → α) (g : α → Option β) (hg : ∀ b, g (f b) = some b)
    (l : List β) : (l.map f).mapM g = some l := by
  induction l with
  | nil => rfl
  | cons a l ih => rw [List.map_cons, List.mapM_cons, ih, hg]; rfl

theorem mapM_cellExpr (cells : List Cell) (es : List Expr) :
    cells.mapM cellExpr = some es ↔ cells = exprCells es := by
  constructor
  · intro h
    induction cells generalizing es with
    | nil => cases h; rfl
    | cons c cs ih =>
      rw [List.mapM_cons] at h
      cases c with
      | ref r => cases h
      | obj o =>
        cases o with
        | int n => cases h
        | other n => cases h
        | expr e =>
          cases hm : cs.mapM cellExpr with
          | none => rw [hm] at h; cases h
          | some es' =>
            rw [hm] at h
            cases h
            rw [ih es' hm]; rfl
  · rintro rfl
    exact mapM_some_map (fun e => .obj (.expr e)) cellExpr (fun _ => rfl) es

theorem viewList_iff {h : Heap} {r : Nat} {es : List Expr} :
    viewList h r = some es ↔ h[r]? = some (.list (exprCells es)) := by
  unfold viewList
  cases h[r]? with
  | none => simp
  | some o =>
    cases o with
    | dict d => simp
    | list cells => simp [mapM_cellExpr]

theorem viewDict_iff {h : Heap} {r : Nat} {d : Dict (Nat × Nat) Nat} :
    viewDict h r = some d ↔ h[r]? = some (.dict d) := by
  unfold viewDict
  cases h[r]? with
  | none => simp
  | some o => cases o <;> simp

theorem viewMat_iff {h : Heap} {m : HMat} {M : Mat} :
    viewMat h m = some M ↔ viewList h m.elements = some M.elements ∧
      viewDict h m.entrymap = some M.entrymap ∧ M.nrows = m.nrows ∧ M.ncols = m.ncols ∧
      M.elementsGraph = m.elementsGraph := by
  unfold viewMat
  cases h1 : viewList h m.elements with
  | none => simp
  | some es =>
    cases h2 : viewDict h m.entrymap with
    | none => simp
    | some d =>
      obtain ⟨a, b, c, d', e⟩ := M
      simp only [Option.bind_eq_bind, Option.bind_some, Option.pure_def, Option.some.injEq,
        Mat.mk.injEq]
      constructor
      · rintro ⟨rfl, rfl, rfl, rfl, rfl⟩; exact ⟨rfl, rfl, rfl, rfl, rfl⟩
      · rintro ⟨rfl, rfl, rfl, rfl, rfl⟩; exact ⟨rfl, rfl, rfl, rfl, rfl⟩

theorem getElem?_prefix {h h' : Heap} (hp : h <+: h') {r : Nat} {o : HObj}
    (hr : h[r]? = some o) : h'[r]? = some o := by
  obtain ⟨t, rfl⟩ := hp
  rw [List.getElem?_append_left]
  · exact hr
  · exact (List.getElem?_eq_some_iff.1 hr).1

theorem viewList_prefix {h h' : Heap} (hp : h <+: h') {r : Nat} {es}
    (hr : viewList h r = some es) : viewList h' r = some es :=
  viewList_iff.2 (getElem?_prefix hp (viewList_iff.1 hr))
theorem viewDict_prefix {h h' : Heap} (hp : h <+: h') {r : Nat} {d}
    (hr : viewDict h r = some d) : viewDict h' r = some d :=
  viewDict_iff.2 (getElem?_prefix hp (viewDict_iff.1 hr))
theorem viewMat_prefix {h h' : Heap} (hp : h <+: h') {m : HMat} {M}
    (hr : viewMat h m = some M) : viewMat h' m = some M := by
  obtain ⟨h1, h2, h3⟩ := viewMat_iff.1 hr
  exact viewMat_iff.2 ⟨viewList_prefix hp h1, viewDict_prefix hp h2, h3⟩

theorem mapM_expressify_cells (es : List Expr) :
    (exprCells es).mapM (fun c => expressify c.toObj) = .ok es := by
  induction es with
  | nil => rfl
  | cons e es ih =>
    show ((.obj (.expr e)) :: exprCells es).mapM _ = _
    rw [List.mapM_cons, ih]; rfl

theorem exprCells_length (es : List Expr) : (exprCells es).length = es.length := by
  simp [exprCells]

theorem pyGet_exprCells (es : List Expr) (n : Nat) :
    pyGet (exprCells es) n = (pyGet es n).map (fun e => Cell.obj (.expr e)) := by
  unfold pyGet exprCells
  rw [List.getElem?_map]
  cases es[n]? <;> rfl

theorem pySet_exprCells (es : List Expr) (n : Nat) (e : Expr) :
    pySet (exprCells es) n (.obj (.expr e)) = (pySet es n e).map exprCells := by
  unfold pySet
  rw [exprCells_length]
  split
  · simp [Except.map, exprCells, List.map_set]
  · rfl

namespace HMat
open HM

theorem mk'_run {nrows ncols elements entrymap : Nat} {h : Heap} {es : List Expr}
    (hr : h[elements]? = some (.list (exprCells es))) :
    mk' nrows ncols elements entrymap h =
      (.ok ⟨nrows, ncols, h.length, Expr.listH.call es, entrymap⟩,
        h ++ [.list (exprCells es)]) := by
  unfold mk'
  rw [bind_ok (readList_run hr), bind_ok (alloc_run _ _), bind_run, lift_run,
    mapM_expressify_cells]
  rfl

theorem get_last1 (h : Heap) (a b : HObj) : (h ++ [a, b])[h.length]? = some a := by simp
theorem get_last2 (h : Heap) (a b : HObj) : (h ++ [a, b])[h.length + 1]? = some b := by simp
theorem set_last1 (h : Heap) (a b c : HObj) : (h ++ [a, b]).set h.length c = h ++ [c, b] := by
  simp
theorem set_last2 (h : Heap) (a b c : HObj) :
    (h ++ [a, b]).set (h.length + 1) c = h ++ [a, c] := by
  simp

theorem rowLoop_run (h : Heap) (i j : Nat) (row es : List Expr) (d : Dict (Nat × Nat) Nat) :
    rowLoop h.length (h.length + 1) i j row (h ++ [.list (exprCells es), .dict d]) =
      (.ok (), h ++ [.list (exprCells (Mat.rowLoop i j row (es, d)).1),
        .dict (Mat.rowLoop i j row (es, d)).2]) := by
  induction row generalizing j es d with
  | nil => rfl
  | cons e row ih =>
    unfold rowLoop Mat.rowLoop
    by_cases he : e = Expr.zero
    · simp only [he, ne_eq, not_true_eq_false, if_false]
      exact ih _ _ _
    · simp only [ne_eq, he, not_false_eq_true, if_true]
      have : exprCells es ++ [.obj (.expr e)] = exprCells (es ++ [e]) := by simp [exprCells]
      refine (bind_ok (readList_run (get_last1 _ _ _))).trans ?_
      refine (bind_ok (setKey_run _ _ (get_last2 _ _ _))).trans ?_
      rw [set_last2]
      refine (bind_ok (append_run _ (get_last1 _ _ _))).trans ?_
      rw [set_last1, this, exprCells_length]
      exact ih _ _ _

theorem rowsLoop_run (h : Heap) (i : Nat) (rows : List (List Expr)) (es : List Expr)
    (d : Dict (Nat × Nat) Nat) :
    rowsLoop h.length (h.length + 1) i rows (h ++ [.list (exprCells es), .dict d]) =
      (.ok (), h ++ [.list (exprCells (Mat.rowsLoop i rows (es, d)).1),
        .dict (Mat.rowsLoop i rows (es, d)).2]) := by
  induction rows generalizing i es d with
  | nil => rfl
  | cons row rows ih =>
    unfold rowsLoop Mat.rowsLoop
    exact (bind_ok (rowLoop_run h i 0 row es d)).trans (ih _ _ _)

theorem asList_run (c : Cell) (h : Heap) : ∃ o, asList c h = (.ok o, h) ∧
    (viewRow h c).asList = o.map (fun l => l.map Cell.toObj) ∧
    viewEntries h c = (match o with | none => .other | some l => .list (l.map (viewRow h))) := by
  cases c with
  | obj o => exact ⟨none, rfl, rfl, rfl⟩
  | ref r =>
    cases hr : h[r]? with
    | none => exact ⟨none, by simp [asList, hr], by simp [viewRow, hr, PyRow.asList],
        by simp [viewEntries, hr]⟩
    | some o =>
      cases o with
      | dict d => exact ⟨none, by simp [asList, hr], by simp [viewRow, hr, PyRow.asList],
          by simp [viewEntries, hr]⟩
      | list l => exact ⟨some l, by simp [asList, hr], by simp [viewRow, hr, PyRow.asList],
          by simp [viewEntries, hr]⟩

theorem rowsOf_run (cells : List Cell) (h : Heap) : ∃ o, rowsOf cells h = (.ok o, h) ∧
    (cells.map (viewRow h)).mapM PyRow.asList = o.map (fun ls => ls.map (fun l => l.map Cell.toObj)) := by
  induction cells with
  | nil => exact ⟨some [], rfl, rfl⟩
  | cons c cs ih =>
    obtain ⟨o, h1, h2, _⟩ := asList_run c h
    obtain ⟨os, h3, h4⟩ := ih
    unfold rowsOf
    rw [bind_ok h1, List.map_cons, List.mapM_cons, h2, h4]
    cases o with
    | none => exact ⟨none, rfl, rfl⟩
    | some row =>
      simp only
      rw [bind_ok h3]
      cases os with
      | none => exact ⟨none, rfl, rfl⟩
      | some rows => exact ⟨some (row :: rows), rfl, rfl⟩

/-- What an operation did to the heap: it added objects, and the lists among them refer to
added objects only (to none if `b` is false). -/
def Grows (b : Bool) (h h' : Heap) : Prop :=
  ∃ t, h' = h ++ t ∧ ∀ l, .list l ∈ t → ∀ r, .ref r ∈ l → b = true ∧ h.length ≤ r ∧ r < h'.length

theorem Grows.refl (b : Bool) (h : Heap) : Grows b h h := ⟨[], by simp, by simp⟩

theorem ref_not_mem_exprCells {r : Nat} {es : List Expr} : Cell.ref r ∉ exprCells es := by
  simp [exprCells]

theorem grows_two (b : Bool) (h : Heap) (es : List Expr) (d) :
    Grows b h (h ++ [.list (exprCells es), .dict d]) := by
  refine ⟨_, rfl, ?_⟩
  intro l hl r hr
  simp only [List.mem_cons, HObj.list.injEq, reduceCtorEq, List.not_mem_nil, or_false] at hl
  subst hl
  exact absurd hr ref_not_mem_exprCells

theorem grows_three (b : Bool) (h : Heap) (es es' : List Expr) (d) :
    Grows b h (h ++ [.list (exprCells es), .dict d] ++ [.list (exprCells es')]) := by
  refine ⟨_, List.append_assoc _ _ _, ?_⟩
  intro l hl r hr
  simp only [List.cons_append, List.nil_append, List.mem_cons, HObj.list.injEq, reduceCtorEq,
    List.not_mem_nil, or_false, false_or] at hl
  rcases hl with rfl | rfl <;> exact absurd hr ref_not_mem_exprCells

theorem Grows.prefix {b : Bool} {h h' : Heap} (hg : Grows b h h') : h <+: h' := by
  obtain ⟨t, rfl, _⟩ := hg
  exact List.prefix_append _ _

theorem viewMat_mk (nrows ncols : Nat) (h : Heap) (es : List Expr) (d : Dict (Nat × Nat) Nat) :
    viewMat (h ++ [.list (exprCells es), .dict d] ++ [.list (exprCells es)])
      ⟨nrows, ncols, h.length + 2, Expr.listH.call es, h.length + 1⟩ =
      some (Mat.mk' nrows ncols es d) := by
  refine viewMat_iff.2 ⟨viewList_iff.2 ?_, viewDict_iff.2 ?_, rfl, rfl, rfl⟩
  · show _ = some (HObj.list (exprCells es))
    rw [List.getElem?_append_right (by simp)]
    simp
  · show _ = some (HObj.dict d)
    rw [List.getElem?_append_left (by simp)]
    simp

/-- The result of a function that makes a matrix. -/
def Makes (h : Heap) (spec : PyM Mat) (res : PyM HMat × Heap) : Prop :=
  Grows false h res.2 ∧
  match spec with
  | .ok M => ∃ m, res.1 = .ok m ∧ viewMat res.2 m = some M ∧ h.length ≤ m.elements
  | .error err => res.1 = .error err

theorem new_makes (c : Cell) (h : Heap) : Makes h (Mat.new (viewEntries h c)) (new c h) := by
  obtain ⟨o, h1, _, h3⟩ := asList_run c h
  unfold new
  rw [h3, bind_ok h1]
  cases o with
  | none => exact ⟨.refl _ _, rfl⟩
  | some cells =>
    obtain ⟨os, h4, h5⟩ := rowsOf_run cells h
    simp only [Mat.new]
    rw [bind_ok h4, h5]
    cases os with
    | none => exact ⟨.refl _ _, rfl⟩
    | some rows =>
      simp only [Option.map_some]
      cases rows with
      | nil => exact ⟨.refl _ _, rfl⟩
      | cons row rows =>
        have e1 : pyGet (row :: rows) 0 = .ok row := rfl
        have e2 : pyGet ((row :: rows).map (fun l => l.map Cell.toObj)) 0 =
          .ok (row.map Cell.toObj) := rfl
        have e3 : ((row :: rows).map (fun l => l.map Cell.toObj)).all
            (fun r => decide (r.length = (row.map Cell.toObj).length)) =
            (row :: rows).all (fun r => decide (r.length = row.length)) := by
          rw [List.all_map]
          congr 1
          funext r
          simp
        have e4 : ((row :: rows).map (fun l => l.map Cell.toObj)).mapM
            (fun r => r.mapM expressify) =
            (row :: rows).mapM (fun r => r.mapM (fun c => expressify c.toObj)) := by
          rw [List.mapM_map]
          congr 1
          funext r
          simp only [Function.comp, List.mapM_map]
          rfl
        rw [e2, e1]
        refine cast (congrArg (Makes h _) (bind_ok (a := row) (h' := h) rfl).symm) ?_
        show Makes h (if _ then _ else _) _
        by_cases hall : (row :: rows).all (fun r => decide (r.length = row.length)) = true
        · rw [if_neg (by rw [e3]; simpa using hall), if_neg (by simpa using hall)]
          rw [e4]
          cases hm : (row :: rows).mapM (fun r => r.mapM (fun c => expressify c.toObj)) with
          | error err =>
            refine cast (congrArg (Makes h _) (bind_error (h' := h) (e := err) rfl).symm) ?_
            exact ⟨.refl _ _, rfl⟩
          | ok ers =>
            refine cast (congrArg (Makes h _) (bind_ok (a := ers) (h' := h) rfl).symm) ?_
            refine cast (congrArg (Makes h _) (bind_ok (alloc_run _ _)).symm) ?_
            refine cast (congrArg (Makes h _) (bind_ok (alloc_run _ _)).symm) ?_
            have hl := rowsLoop_run h 0 ers [] Dict.empty
            have e5 : h ++ [.list (exprCells [])] ++ [.dict Dict.empty] =
              h ++ [.list (exprCells []), .dict (Dict.empty : Dict (Nat × Nat) Nat)] := by simp
            have e6 : (h ++ [HObj.list []]).length = h.length + 1 := by simp
            rw [← e5, ← e6] at hl
            refine cast (congrArg (Makes h _) (bind_ok hl).symm) ?_
            rw [mk'_run (get_last1 _ _ _)]
            refine ⟨grows_three _ _ _ _ _, ?_⟩
            refine ⟨_, rfl, ?_, by simp⟩
            have := viewMat_mk (row :: rows).length row.length h
              (Mat.rowsLoop 0 ers ([], Dict.empty)).1 (Mat.rowsLoop 0 ers ([], Dict.empty)).2
            rw [List.length_map]
            simpa using this
        · rw [if_pos (by rw [e3]; simpa using hall), if_pos (by simpa using hall)]
          exact ⟨.refl _ _, rfl⟩

theorem exceptMap_ok {α β : Type} (f : α → β) (a : α) :
    (Except.ok a : PyM α).map f = .ok (f a) := rfl

theorem pyOk_bind {α β : Type} (a : α) (f : α → PyM β) : ((Except.ok a : PyM α) >>= f) = f a := rfl

theorem binopLoop_run (h : Heap) (oe om : Nat) (f : Expr) (oes : List Expr)
    (od : Dict (Nat × Nat) Nat) (hoe : h[oe]? = some (.list (exprCells oes)))
    (hom : h[om]? = some (.dict od)) (todo k : Nat) (hk : k + todo = od.items.length)
    (es : List Expr) (d : Dict (Nat × Nat) Nat) :
    ∃ es' d', binopLoop h.length (h.length + 1) oe om f od.items.length todo k
        (h ++ [.list (exprCells es), .dict d]) =
      ((Mat.binopLoop oes f (od.items.drop k) (es, d)).map (fun _ => ()),
        h ++ [.list (exprCells es'), .dict d']) ∧
      ∀ s, Mat.binopLoop oes f (od.items.drop k) (es, d) = .ok s → s = (es', d') := by
  have hoe' : ∀ t : List HObj, (h ++ t)[oe]? = some (.list (exprCells oes)) := fun t =>
    getElem?_prefix (List.prefix_append _ _) hoe
  have hom' : ∀ t : List HObj, (h ++ t)[om]? = some (.dict od) := fun t =>
    getElem?_prefix (List.prefix_append _ _) hom
  induction todo generalizing k es d with
  | zero =>
    rw [List.drop_eq_nil_of_le (by omega)]
    exact ⟨es, d, rfl, fun s hs => by cases hs; rfl⟩
  | succ todo ih =>
    have hlt : k < od.items.length := by omega
    rw [List.drop_eq_getElem_cons hlt]
    generalize hq : od.items[k] = q
    obtain ⟨ij, n⟩ := q
    have hget : pyGet od.items k = .ok (ij, n) := by
      unfold pyGet; rw [List.getElem?_eq_getElem hlt, hq]
    unfold binopLoop Mat.binopLoop
    rw [bind_ok (readDict_run (hom' _))]
    simp only [ne_eq, not_true_eq_false, if_false]
    rw [bind_ok (a := (ij, n)) (by rw [lift_run, hget])]
    simp only
    rw [bind_ok (readDict_run (get_last2 _ _ _))]
    cases hd : d.get? ij with
    | none =>
      simp only
      rw [bind_ok (readList_run (get_last1 _ _ _)),
        bind_ok (setKey_run _ _ (get_last2 _ _ _)), set_last2]
      cases hn : pyGet oes n with
      | error e =>
        rw [bind_error (h' := h ++ [.list (exprCells es), .dict (d.set ij es.length)]) (e := e)
          (by rw [getIdx_run _ (hoe' _), pyGet_exprCells, hn, exprCells_length]; rfl)]
        exact ⟨_, _, rfl, fun s hs => by cases hs⟩
      | ok e =>
        rw [bind_ok (h' := h ++ [.list (exprCells es), .dict (d.set ij es.length)])
          (a := .obj (.expr e))
          (by rw [getIdx_run _ (hoe' _), pyGet_exprCells, hn, exprCells_length]; rfl)]
        rw [bind_ok (append_run _ (get_last1 _ _ _)), set_last1]
        have : exprCells es ++ [.obj (.expr e)] = exprCells (es ++ [e]) := by simp [exprCells]
        rw [this]
        exact ih (k + 1) (by omega) _ _
    | some m =>
      simp only
      cases hm : pyGet es m with
      | error e =>
        rw [bind_error (h' := h ++ [.list (exprCells es), .dict d]) (e := e)
          (by rw [getIdx_run _ (get_last1 _ _ _), pyGet_exprCells, hm]; rfl)]
        exact ⟨_, _, rfl, fun s hs => by cases hs⟩
      | ok e1 =>
        rw [bind_ok (h' := h ++ [.list (exprCells es), .dict d]) (a := .obj (.expr e1))
          (by rw [getIdx_run _ (get_last1 _ _ _), pyGet_exprCells, hm]; rfl)]
        cases hn : pyGet oes n with
        | error e =>
          rw [bind_error (h' := h ++ [.list (exprCells es), .dict d]) (e := e)
            (by rw [getIdx_run _ (hoe' _), pyGet_exprCells, hn]; rfl)]
          exact ⟨_, _, rfl, fun s hs => by cases hs⟩
        | ok e2 =>
          rw [bind_ok (h' := h ++ [.list (exprCells es), .dict d]) (a := .obj (.expr e2))
            (by rw [getIdx_run _ (hoe' _), pyGet_exprCells, hn]; rfl)]
          have hc : lift (f.pyCall [(Cell.obj (.expr e1)).toObj, (Cell.obj (.expr e2)).toObj])
              (h ++ [.list (exprCells es), .dict d]) =
              (.ok (f.call [e1, e2]), h ++ [.list (exprCells es), .dict d]) := rfl
          rw [bind_ok hc]
          simp only [pyOk_bind]
          cases hs : pySet es m (f.call [e1, e2]) with
          | error e =>
            rw [bind_error (h' := h ++ [.list (exprCells es), .dict d]) (e := e)
              (by rw [setIdx_run _ _ (get_last1 _ _ _), pySet_exprCells, hs]; rfl)]
            refine ⟨es, d, ?_, fun s hs' => ?_⟩
            · rfl
            · cases hs'
          | ok es2 =>
            rw [bind_ok (h' := h ++ [.list (exprCells es2), .dict d]) (a := ())
              (by rw [setIdx_run _ _ (get_last1 _ _ _), pySet_exprCells, hs]
                  simp only [exceptMap_ok, set_last1])]
            exact ih (k + 1) (by omega) _ _

theorem binop_makes (a b : HMat) (f : Expr) (h : Heap) (A B : Mat) (ha : viewMat h a = some A)
    (hb : viewMat h b = some B) : Makes h (A.binop B f) (a.binop b f h) := by
  obtain ⟨a1, a2, a3, a4, _⟩ := viewMat_iff.1 ha
  obtain ⟨b1, b2, b3, b4, _⟩ := viewMat_iff.1 hb
  have a1 := viewList_iff.1 a1
  have a2 := viewDict_iff.1 a2
  have b1 := viewList_iff.1 b1
  have b2 := viewDict_iff.1 b2
  unfold binop Mat.binop
  rw [a3, a4, b3, b4]
  by_cases hsh : (a.nrows, a.ncols) ≠ (b.nrows, b.ncols)
  · rw [if_pos hsh, if_pos hsh]
    exact ⟨.refl _ _, rfl⟩
  · rw [if_neg hsh, if_neg hsh]
    have p1 : ∀ t : List HObj, h <+: h ++ t := fun t => List.prefix_append _ _
    rw [bind_ok (readList_run a1), bind_ok (alloc_run _ _),
      bind_ok (readDict_run (getElem?_prefix (p1 _) a2)), bind_ok (alloc_run _ _)]
    have e1 : h ++ [HObj.list (exprCells A.elements)] ++ [.dict A.entrymap] =
      h ++ [.list (exprCells A.elements), .dict A.entrymap] := by simp
    have e2 : (h ++ [HObj.list (exprCells A.elements)]).length = h.length + 1 := by simp
    rw [e1, e2, bind_ok (readDict_run (getElem?_prefix (p1 _) b2))]
    obtain ⟨es', d', h1, h2⟩ := binopLoop_run h b.elements b.entrymap f B.elements B.entrymap b1 b2
      B.entrymap.items.length 0 (by omega) A.elements A.entrymap
    rw [List.drop_zero] at h1 h2
    cases hr : Mat.binopLoop B.elements f B.entrymap.items (A.elements, A.entrymap) with
    | error err =>
      rw [hr] at h1
      rw [bind_error h1]
      exact ⟨grows_two _ _ _ _, rfl⟩
    | ok s =>
      rw [hr] at h1
      have := h2 s hr
      subst this
      rw [bind_ok h1, mk'_run (get_last1 _ _ _)]
      refine ⟨grows_three _ _ _ _ _, _, rfl, ?_, by simp⟩
      have := viewMat_mk a.nrows a.ncols h es' d'
      simpa using this

theorem binop_fresh (a b : HMat) (f : Expr) (h : Heap) (A B : Mat) (ha : viewMat h a = some A)
    (hb : viewMat h b = some B) (c : HMat) (h' : Heap) (hc : a.binop b f h = (.ok c, h')) :
    h.length ≤ c.entrymap ∧ h.length ≤ c.elements := by
  obtain ⟨a1, a2, a3, a4, _⟩ := viewMat_iff.1 ha
  obtain ⟨b1, b2, b3, b4, _⟩ := viewMat_iff.1 hb
  have a1 := viewList_iff.1 a1
  have a2 := viewDict_iff.1 a2
  have b1 := viewList_iff.1 b1
  have b2 := viewDict_iff.1 b2
  unfold binop at hc
  by_cases hsh : (a.nrows, a.ncols) ≠ (b.nrows, b.ncols)
  · rw [if_pos hsh] at hc
    cases hc
  · rw [if_neg hsh] at hc
    have p1 : ∀ t : List HObj, h <+: h ++ t := fun t => List.prefix_append _ _
    rw [bind_ok (readList_run a1), bind_ok (alloc_run _ _),
      bind_ok (readDict_run (getElem?_prefix (p1 _) a2)), bind_ok (alloc_run _ _)] at hc
    have e1 : h ++ [HObj.list (exprCells A.elements)] ++ [.dict A.entrymap] =
      h ++ [.list (exprCells A.elements), .dict A.entrymap] := by simp
    have e2 : (h ++ [HObj.list (exprCells A.elements)]).length = h.length + 1 := by simp
    rw [e1, e2, bind_ok (readDict_run (getElem?_prefix (p1 _) b2))] at hc
    obtain ⟨es', d', h1, h2⟩ := binopLoop_run h b.elements b.entrymap f B.elements B.entrymap b1 b2
      B.entrymap.items.length 0 (by omega) A.elements A.entrymap
    cases hr : Mat.binopLoop B.elements f (B.entrymap.items.drop 0) (A.elements, A.entrymap) with
    | error err =>
      rw [hr] at h1
      rw [bind_error h1] at hc
      cases hc
    | ok s =>
      rw [hr] at h1
      rw [bind_ok h1, mk'_run (get_last1 _ _ _)] at hc
      cases hc
      simp

theorem diff_makes (a : HMat) (sym : PyObj) (p : DiffProps Val) (h : Heap) (A : Mat)
    (ha : viewMat h a = some A) : Makes h (A.diff sym p) (a.diff sym p h) := by
  obtain ⟨a1, a2, a3, a4, a5⟩ := viewMat_iff.1 ha
  have a2 := viewDict_iff.1 a2
  unfold diff Mat.diff
  cases sym with
  | int n => exact ⟨.refl _ _, rfl⟩
  | other n => exact ⟨.refl _ _, rfl⟩
  | expr x =>
    simp only
    rw [a5, a3, a4]
    cases hd : Expr.diff a.elementsGraph x 1 p with
    | error err =>
      rw [bind_error (lift_run (.error err) h)]
      exact ⟨.refl _ _, rfl⟩
    | ok ed =>
      rw [bind_ok (lift_run (.ok ed) h), bind_ok (alloc_run _ _)]
      have e1 : (h ++ [HObj.list (exprCells (ed.children.drop 1))])[h.length]? =
        some (.list (exprCells (ed.children.drop 1))) := by simp
      have h2 := mk'_run (nrows := a.nrows) (ncols := a.ncols) (entrymap := a.entrymap) e1
      show Makes h _ (mk' a.nrows a.ncols h.length a.entrymap
        (h ++ [HObj.list (exprCells (ed.children.drop 1))]))
      rw [h2]
      refine ⟨⟨_, List.append_assoc _ _ _, ?_⟩, _, rfl, ?_, by simp⟩
      · intro l hl r hr
        simp only [List.cons_append, List.nil_append, List.mem_cons, HObj.list.injEq,
          List.not_mem_nil, or_false] at hl
        rcases hl with rfl | rfl <;> exact absurd hr ref_not_mem_exprCells
      · refine viewMat_iff.2 ⟨viewList_iff.2 ?_, viewDict_iff.2 ?_, rfl, rfl, rfl⟩
        · show _ = some (HObj.list (exprCells (ed.children.drop 1)))
          rw [List.getElem?_append_right (by simp)]
          simp
        · rw [List.append_assoc]
          exact getElem?_prefix (List.prefix_append _ _) a2

theorem getItem_run (m : HMat) (ij : PyIndex) (h : Heap) (M : Mat) (hm : viewMat h m = some M) :
    m.getItem ij h = (M.getItem ij, h) := by
  obtain ⟨a1, a2, a3, a4, a5⟩ := viewMat_iff.1 hm
  have a1 := viewList_iff.1 a1
  have a2 := viewDict_iff.1 a2
  unfold getItem Mat.getItem
  cases ij with
  | other => rfl
  | pair i j =>
    simp only
    rw [a3, a4]
    split
    · rfl
    · rw [bind_ok (readDict_run a2)]
      cases M.entrymap.get? (i.toNat, j.toNat) with
      | none => rfl
      | some n =>
        simp only
        rw [bind_run, getIdx_run _ a1, pyGet_exprCells]
        cases pyGet M.elements n <;> rfl

theorem zeroRows_run (ncols n : Nat) (h : Heap) :
    zeroRows ncols n h = (.ok ((List.range' h.length n).map .ref),
      h ++ List.replicate n (.list (exprCells (List.replicate ncols Expr.zero)))) := by
  induction n generalizing h with
  | zero => simp [zeroRows, pure_run]
  | succ n ih =>
    unfold zeroRows
    rw [bind_ok (alloc_run _ _), bind_ok (ih _), pure_run]
    have : (List.replicate ncols (Cell.obj (.expr Expr.zero))) =
      exprCells (List.replicate ncols Expr.zero) := by simp [exprCells]
    rw [this]
    simp [List.range'_succ, List.replicate_succ]

/-- The rows and the list of rows that `tolist` allocates. -/
def gridObjs (h : Heap) (g : List (List Expr)) : List HObj :=
  g.map (fun row => .list (exprCells row)) ++ [.list ((List.range' h.length g.length).map .ref)]

theorem gridObjs_last (h : Heap) (g : List (List Expr)) :
    (h ++ gridObjs h g)[h.length + g.length]? =
      some (.list ((List.range' h.length g.length).map .ref)) := by
  unfold gridObjs
  rw [List.getElem?_append_right (by omega), List.getElem?_append_right (by simp)]
  simp

theorem gridObjs_row (h : Heap) (g : List (List Expr)) (i : Nat) (row : List Expr)
    (hr : g[i]? = some row) :
    (h ++ gridObjs h g)[h.length + i]? = some (.list (exprCells row)) := by
  have hi : i < g.length := (List.getElem?_eq_some_iff.1 hr).1
  unfold gridObjs
  rw [List.getElem?_append_right (by omega), List.getElem?_append_left (by simp; omega)]
  simp [hr]

theorem gridObjs_set (h : Heap) (g : List (List Expr)) (i : Nat) (row : List Expr)
    (hi : i < g.length) :
    (h ++ gridObjs h g).set (h.length + i) (.list (exprCells row)) =
      h ++ gridObjs h (g.set i row) := by
  unfold gridObjs
  rw [List.set_append_right _ _ (by omega), Nat.add_sub_cancel_left,
    List.set_append_left _ _ (by simpa using hi)]
  simp [List.map_set]

theorem pyGet_refs (k n i : Nat) : pyGet ((List.range' k n).map Cell.ref) i =
    if i < n then .ok (.ref (k + i)) else .error .indexError := by
  unfold pyGet
  rw [List.getElem?_map]
  by_cases hi : i < n
  · rw [List.getElem?_range' (by omega)]
    simp [hi]
  · rw [List.getElem?_eq_none (by simp; omega)]
    simp [hi]

theorem tolistLoop_run (h : Heap) (el : Nat) (es : List Expr)
    (hel : h[el]? = some (.list (exprCells es))) (items : List ((Nat × Nat) × Nat))
    (g : List (List Expr)) :
    ∃ g', g'.length = g.length ∧ tolistLoop el (h.length + g.length) items (h ++ gridObjs h g) =
      ((Mat.tolistLoop es items g).map (fun _ => ()), h ++ gridObjs h g') ∧
      ∀ s, Mat.tolistLoop es items g = .ok s → s = g' := by
  have hel' : ∀ t : List HObj, (h ++ t)[el]? = some (.list (exprCells es)) := fun t =>
    getElem?_prefix (List.prefix_append _ _) hel
  induction items generalizing g with
  | nil => exact ⟨g, rfl, rfl, fun s hs => by cases hs; rfl⟩
  | cons q items ih =>
    obtain ⟨⟨i, j⟩, n⟩ := q
    unfold tolistLoop Mat.tolistLoop
    cases hn : pyGet es n with
    | error e =>
      rw [bind_error (h' := h ++ gridObjs h g) (e := e)
        (by rw [getIdx_run _ (hel' _), pyGet_exprCells, hn]; rfl)]
      exact ⟨g, rfl, rfl, fun s hs => by cases hs⟩
    | ok v =>
      rw [bind_ok (h' := h ++ gridObjs h g) (a := .obj (.expr v))
        (by rw [getIdx_run _ (hel' _), pyGet_exprCells, hn]; rfl)]
      simp only [pyOk_bind]
      by_cases hi : i < g.length
      · have hg : pyGet g i = .ok g[i] := by
          unfold pyGet; rw [List.getElem?_eq_getElem hi]
        have hrow := gridObjs_row h g i g[i] (List.getElem?_eq_getElem hi)
        rw [hg, bind_ok (h' := h ++ gridObjs h g) (a := .ref (h.length + i))
          (by rw [getIdx_run _ (gridObjs_last _ _), pyGet_refs, if_pos hi]),
          bind_ok (h' := h ++ gridObjs h g) (a := h.length + i) (by rfl)]
        simp only [pyOk_bind]
        cases hs : pySet g[i] j v with
        | error e =>
          rw [bind_error (h' := h ++ gridObjs h g) (e := e)
            (by rw [setIdx_run _ _ hrow, pySet_exprCells, hs]; rfl)]
          exact ⟨g, rfl, rfl, fun s hs => by cases hs⟩
        | ok row =>
          rw [bind_ok (h' := h ++ gridObjs h (g.set i row)) (a := ())
            (by rw [setIdx_run _ _ hrow, pySet_exprCells, hs]
                simp only [exceptMap_ok, gridObjs_set h g i row hi])]
          simp only [pyOk_bind]
          have : pySet g i row = .ok (g.set i row) := by unfold pySet; rw [if_pos hi]
          rw [this]
          simp only [pyOk_bind]
          obtain ⟨g', h1, h2, h3⟩ := ih (g.set i row)
          rw [List.length_set] at h1 h2
          exact ⟨g', h1, h2, h3⟩
      · have hg : pyGet g i = .error .indexError := by
          unfold pyGet; rw [List.getElem?_eq_none (by omega)]
        rw [hg, bind_error (h' := h ++ gridObjs h g) (e := .indexError)
          (by rw [getIdx_run _ (gridObjs_last _ _), pyGet_refs, if_neg hi])]
        exact ⟨g, rfl, rfl, fun s hs => by cases hs⟩

theorem viewRows_grid (h : Heap) (g : List (List Expr)) :
    viewRows (h ++ gridObjs h g) (h.length + g.length) = some g := by
  unfold viewRows
  rw [gridObjs_last]
  simp only
  have : ∀ (k : Nat) (suf : List (List Expr)), g.drop k = suf →
      (List.map Cell.ref (List.range' (h.length + k) suf.length)).mapM (fun c => match c with
        | .ref r => viewList (h ++ gridObjs h g) r
        | .obj _ => none) = some suf := by
    intro k suf hs
    induction suf generalizing k with
    | nil => rfl
    | cons row suf ih =>
      have hk : g[k]? = some row := by
        have := congrArg List.head? hs
        rwa [List.head?_drop] at this
      rw [List.length_cons, List.range'_succ, List.map_cons, List.mapM_cons]
      simp only
      rw [viewList_iff.2 (gridObjs_row h g k row hk)]
      have := ih (k + 1) (by rw [← List.drop_drop, hs]; rfl)
      rw [← Nat.add_assoc] at this
      rw [this]
      rfl
  have := this 0 g rfl
  rwa [Nat.add_zero] at this

/-- The result of `tolist`. -/
theorem tolist_run (m : HMat) (h : Heap) (M : Mat) (hm : viewMat h m = some M) :
    Grows true h (m.tolist h).2 ∧
    match M.tolist with
    | .ok g => ∃ r, (m.tolist h).1 = .ok r ∧ viewRows (m.tolist h).2 r = some g ∧
        h.length ≤ r ∧ r < (m.tolist h).2.length
    | .error err => (m.tolist h).1 = .error err := by
  obtain ⟨a1, a2, a3, a4, a5⟩ := viewMat_iff.1 hm
  have a1 := viewList_iff.1 a1
  have a2 := viewDict_iff.1 a2
  let g0 := List.replicate m.nrows (List.replicate m.ncols Expr.zero)
  have hg0 : g0.length = m.nrows := by simp [g0]
  obtain ⟨g', h1, h2, h3⟩ := tolistLoop_run h m.elements M.elements a1 M.entrymap.items g0
  have hrun : m.tolist h = ((Mat.tolistLoop M.elements M.entrymap.items g0).map
      (fun _ => h.length + g0.length), h ++ gridObjs h g') := by
    unfold tolist
    rw [bind_ok (zeroRows_run _ _ _), bind_ok (alloc_run _ _)]
    have e1 : h ++ List.replicate m.nrows (HObj.list (exprCells (List.replicate m.ncols Expr.zero)))
        ++ [HObj.list (List.map Cell.ref (List.range' h.length m.nrows))] = h ++ gridObjs h g0 := by
      simp [gridObjs, g0]
    have e2 : (h ++ List.replicate m.nrows
        (HObj.list (exprCells (List.replicate m.ncols Expr.zero)))).length = h.length + g0.length := by
      simp [g0]
    rw [e1, e2, bind_ok (readDict_run (getElem?_prefix (List.prefix_append _ _) a2)), bind_run, h2]
    cases Mat.tolistLoop M.elements M.entrymap.items g0 <;> rfl
  have hspec : M.tolist = Mat.tolistLoop M.elements M.entrymap.items g0 := by
    unfold Mat.tolist; rw [a3, a4]
  rw [hrun, hspec]
  refine ⟨⟨_, rfl, ?_⟩, ?_⟩
  · intro l hl r hr
    unfold gridObjs at hl
    simp only [List.mem_append, List.mem_map, HObj.list.injEq, List.mem_singleton] at hl
    rcases hl with ⟨row, _, rfl⟩ | rfl
    · exact absurd hr ref_not_mem_exprCells
    · simp only [List.mem_map, Cell.ref.injEq, exists_eq_right, List.mem_range'_1] at hr
      refine ⟨rfl, hr.1, ?_⟩
      simp [gridObjs]
      omega
  · cases hr : Mat.tolistLoop M.elements M.entrymap.items g0 with
    | error err => rfl
    | ok g =>
      have := h3 g hr
      subst this
      refine ⟨_, rfl, ?_, by simp, by simp [gridObjs]; omega⟩
      show viewRows _ _ = _
      rw [← h1]
      exact viewRows_grid h g

end HMat
end Verif
