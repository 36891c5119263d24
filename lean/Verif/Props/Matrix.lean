import Verif.Lemmas.Matrix
import Verif.Lemmas.SymPy
import Verif.Props.RealValues

/-!
# C29–C33: matrices
-/

set_option linter.unusedSectionVars false

namespace Verif.Props
open Spec Expr

/-! ### Grids -/

/-- `nr` rows of length `nc`. -/
def Shape {α : Type} (g : List (List α)) (nr nc : Nat) : Prop := g.length = nr ∧ Rectangular g nc

theorem entryAt_some {α : Type} {g : List (List α)} {nr nc : Nat} (h : Shape g nr nc) {i j : Nat}
    (hi : i < nr) (hj : j < nc) : ∃ e, entryAt g i j = some e := by
  have hi' : i < g.length := by rw [h.1]; exact hi
  have hj' : j < g[i].length := by rw [h.2 _ (List.getElem_mem hi')]; exact hj
  exact ⟨g[i][j], by simp [entryAt, hi', hj']⟩

theorem entryAt_range {α : Type} {g : List (List α)} {nr nc : Nat} (h : Shape g nr nc) {i j : Nat}
    {e : α} (he : entryAt g i j = some e) : i < nr ∧ j < nc := by
  unfold entryAt at he
  cases hi : g[i]? with
  | none => rw [hi] at he; cases he
  | some row =>
    rw [hi] at he
    simp only [Option.bind_some] at he
    have h1 := (List.getElem?_eq_some_iff.1 hi).1
    have h2 := (List.getElem?_eq_some_iff.1 he).1
    rw [h.2 row (List.mem_of_getElem? hi)] at h2
    rw [h.1] at h1
    exact ⟨h1, h2⟩

theorem grid_ext {α : Type} {g g' : List (List α)} {nr nc : Nat} (h : Shape g nr nc)
    (h' : Shape g' nr nc) (he : ∀ i j, entryAt g i j = entryAt g' i j) : g = g' := by
  apply List.ext_getElem?
  intro i
  by_cases hi : i < nr
  · have h1 : i < g.length := by rw [h.1]; exact hi
    have h2 : i < g'.length := by rw [h'.1]; exact hi
    rw [List.getElem?_eq_getElem h1, List.getElem?_eq_getElem h2]
    congr 1
    apply List.ext_getElem?
    intro j
    have := he i j
    simpa [entryAt, h1, h2] using this
  · rw [List.getElem?_eq_none (by rw [h.1]; omega), List.getElem?_eq_none (by rw [h'.1]; omega)]

theorem tolistLoop_spec (els : List Expr) (nr nc : Nat) (items : List ((Nat × Nat) × Nat)) :
    ∀ g : List (List Expr), Shape g nr nc → (items.map Prod.fst).Nodup →
    (∀ p ∈ items, p.2 < els.length ∧ p.1.1 < nr ∧ p.1.2 < nc) →
    ∃ g', Mat.tolistLoop els items g = .ok g' ∧ Shape g' nr nc ∧
      ∀ i j, entryAt g' i j =
        match ((Dict.mk items).get? (i, j)).bind (fun n => els[n]?) with
        | some e => some e
        | none => entryAt g i j := by
  induction items with
  | nil => intro g hg _ _; exact ⟨g, rfl, hg, fun i j => rfl⟩
  | cons p items ih =>
    obtain ⟨⟨i, j⟩, n⟩ := p
    intro g hg hnd hb
    obtain ⟨hn, hi, hj⟩ := hb ((i, j), n) (by simp)
    simp only at hn hi hj
    simp only [List.map_cons, List.nodup_cons] at hnd
    have hi' : i < g.length := by rw [hg.1]; exact hi
    have hj' : j < g[i].length := by rw [hg.2 _ (List.getElem_mem hi')]; exact hj
    have hg1 : Shape (g.set i (g[i].set j els[n])) nr nc := by
      refine ⟨by simp [hg.1], fun row hrow => ?_⟩
      rcases List.mem_or_eq_of_mem_set hrow with h | rfl
      · exact hg.2 row h
      · rw [List.length_set]; exact hg.2 _ (List.getElem_mem hi')
    obtain ⟨g', h1, h2, h3⟩ := ih _ hg1 hnd.2 (fun p hp => hb p (by simp [hp]))
    refine ⟨g', ?_, h2, ?_⟩
    · unfold Mat.tolistLoop
      rw [pyGet_ok (List.getElem?_eq_getElem hn)]
      simp only [bind, Except.bind]
      rw [pyGet_ok (List.getElem?_eq_getElem hi')]
      simp only [pySet, hi', hj', if_true]
      exact h1
    · intro i' j'
      rw [h3 i' j']
      have hlook : (Dict.mk (((i, j), n) :: items)).get? (i', j') =
        if (i, j) = (i', j') then some n else (Dict.mk items).get? (i', j') := rfl
      rw [hlook]
      by_cases hk : (i, j) = (i', j')
      · cases hk
        have hnone : (Dict.mk items).get? (i, j) = none := by
          cases hg : (Dict.mk items).get? (i, j) with
          | none => rfl
          | some w =>
            have := ((Dict.mk items).mem_items_iff hnd.2 (i, j) w).2 hg
            exact absurd (List.mem_map.2 ⟨_, this, rfl⟩) hnd.1
        simp only [hnone, if_true, Option.bind_none, Option.bind_some,
          List.getElem?_eq_getElem hn]
        simp [entryAt, hi', hj']
      · simp only [if_neg hk]
        have : entryAt (g.set i (g[i].set j els[n])) i' j' = entryAt g i' j' := by
          unfold entryAt
          by_cases hii : i = i'
          · subst hii
            have hjj : j ≠ j' := by rintro rfl; exact hk rfl
            simp [hi', hjj]
          · rw [List.getElem?_set_ne hii]
        rw [this]

theorem tolist_wf {m : Mat} (h : MatWF m) :
    ∃ g, m.tolist = .ok g ∧ Shape g m.nrows m.ncols ∧
      ∀ i j, i < m.nrows → j < m.ncols → entryAt g i j = some ((m.entry i j).getD zero) := by
  obtain ⟨g, h1, h2, h3⟩ := tolistLoop_spec m.elements m.nrows m.ncols m.entrymap.items
    (List.replicate m.nrows (List.replicate m.ncols zero))
    ⟨by simp, fun row hrow => by rw [List.eq_of_mem_replicate hrow]; simp⟩ h.store.nodup
    (by
      intro p hp
      have hg := (m.entrymap.mem_items_iff h.store.nodup p.1 p.2).1 hp
      have := h.inside p.1.1 p.1.2 (by unfold Stores; rw [show (p.1.1, p.1.2) = p.1 from rfl, hg]; rfl)
      exact ⟨h.store.bound _ _ hg, this.1, this.2⟩)
  refine ⟨g, h1, h2, fun i j hi hj => ?_⟩
  rw [h3 i j]
  show (match m.entry i j with | some e => some e | none => _) = _
  cases m.entry i j with
  | some e => rfl
  | none => simp [entryAt, hi, hj]

/-! ### C29 -/

theorem mapM_asList (rows : List (List PyObj)) :
    (rows.map PyRow.list).mapM PyRow.asList = some rows := by
  induction rows with
  | nil => rfl
  | cons r rows ih => rw [List.map_cons, List.mapM_cons, ih]; rfl

theorem mapM_expressify (row : List PyObj) :
    (∀ es, row.mapM operand = some es → row.mapM expressify = .ok es ∧ es.length = row.length) ∧
    (row.mapM operand = none → row.mapM expressify = .error .expressify) := by
  induction row with
  | nil => exact ⟨fun es h => (by cases h; exact ⟨rfl, rfl⟩), fun h => (by cases h)⟩
  | cons v row ih =>
    rw [List.mapM_cons, List.mapM_cons]
    cases v with
    | other k => exact ⟨fun es h => (by cases h), fun _ => rfl⟩
    | expr e =>
      cases hm : row.mapM operand with
      | none => exact ⟨fun es h => (by cases h), fun _ => by rw [ih.2 hm]; rfl⟩
      | some es =>
        obtain ⟨h1, h2⟩ := ih.1 es hm
        refine ⟨fun es' h => ?_, fun h => by cases h⟩
        rw [h1]; cases h; exact ⟨rfl, by simp [h2]⟩
    | int n =>
      cases hm : row.mapM operand with
      | none => exact ⟨fun es h => (by cases h), fun _ => by rw [ih.2 hm]; rfl⟩
      | some es =>
        obtain ⟨h1, h2⟩ := ih.1 es hm
        refine ⟨fun es' h => ?_, fun h => by cases h⟩
        rw [h1]; cases h; exact ⟨rfl, by simp [h2]⟩

theorem mapM_rows (rows : List (List PyObj)) :
    (∀ ers, operandRows rows = some ers →
      rows.mapM (fun row => row.mapM expressify) = .ok ers ∧ ers.length = rows.length ∧
      ∀ n, Rectangular rows n → Rectangular ers n) ∧
    (operandRows rows = none →
      rows.mapM (fun row => row.mapM expressify) = .error .expressify) := by
  unfold operandRows
  induction rows with
  | nil =>
    exact ⟨fun es h => (by cases h; exact ⟨rfl, rfl, fun n _ r hr => (by cases hr)⟩), fun h => (by cases h)⟩
  | cons r rows ih =>
    rw [List.mapM_cons, List.mapM_cons]
    obtain ⟨hr1, hr2⟩ := mapM_expressify r
    cases hr : r.mapM operand with
    | none => exact ⟨fun es h => (by cases h), fun _ => by rw [hr2 hr]; rfl⟩
    | some es =>
      obtain ⟨h1, h2⟩ := hr1 es hr
      cases hm : rows.mapM (fun row => row.mapM operand) with
      | none => exact ⟨fun es h => (by cases h), fun _ => by rw [h1, ih.2 hm]; rfl⟩
      | some ers =>
        obtain ⟨h3, h4, h5⟩ := ih.1 ers hm
        refine ⟨fun ers' h => ?_, fun h => by cases h⟩
        cases h
        refine ⟨by rw [h1, h3]; rfl, by simp [h4], fun n hn row hrow => ?_⟩
        rcases List.mem_cons.1 hrow with rfl | hrow
        · rw [h2]; exact hn r (by simp)
        · exact h5 n (fun r' hr' => hn r' (by simp [hr'])) row hrow

theorem new_spec (rows : List (List PyObj)) (ers : List (List Expr)) (n : Nat) (hne : rows ≠ [])
    (hrect : Rectangular rows n) (hop : operandRows rows = some ers) :
    ∃ m, Mat.new (.list (rows.map .list)) = .ok m ∧ MatWF m ∧ m.nrows = rows.length ∧
      m.ncols = n ∧ Shape ers m.nrows m.ncols ∧ zero ∉ m.elements ∧
      ∀ i j, m.entry i j = (entryAt ers i j).bind (fun e => if e = zero then none else some e) := by
  obtain ⟨h1, h2, h3⟩ := (mapM_rows rows).1 ers hop
  obtain ⟨els, em, g1, g2, g3, g4, g5⟩ := rowsLoop_spec ers 0 [] Dict.empty StoreOK.empty
    (fun _ _ _ => rfl)
  cases rows with
  | nil => exact absurd rfl hne
  | cons r rows =>
    have hr : r.length = n := hrect r (by simp)
    have hshape : Shape ers (r :: rows).length n := ⟨h2, h3 n hrect⟩
    refine ⟨Mat.mk' (r :: rows).length n els em, ?_, mk'_wf g2 ?_, rfl, rfl, hshape, ?_, ?_⟩
    · unfold Mat.new
      simp only [mapM_asList]
      rw [show pyGet (r :: rows) 0 = .ok r from rfl]
      simp only [bind, Except.bind]
      rw [if_neg (by
        simp only [List.all_eq_true, decide_eq_true_eq]
        exact fun hn => hn (fun row hrow => by rw [hr]; exact hrect row hrow))]
      rw [h1]
      simp only [g1, hr]
      rfl
    · intro i j hs
      rw [g5 i j (Nat.zero_le _)] at hs
      simp only [Nat.sub_zero] at hs
      cases he : entryAt ers i j with
      | none => rw [he] at hs; cases hs
      | some e => exact entryAt_range hshape he
    · intro hz
      rcases g3 _ hz with h | h
      · cases h
      · exact h rfl
    · intro i j
      exact g5 i j (Nat.zero_le _)

/-- **C29.** A non-empty rectangular list of lists of expressions and ints: the matrix has
that shape, `M[i, j]` is the `(i, j)` entry, `tolist()` gives the (converted) rows back, and
exactly the non-zero entries are stored. -/
theorem C29_matrix_entries (rows : List (List PyObj)) (ers : List (List Expr)) (n : Nat)
    (hne : rows ≠ []) (hrect : Rectangular rows n) (hop : operandRows rows = some ers) :
    ∃ m, Mat.new (.list (rows.map .list)) = .ok m ∧ m.nrows = rows.length ∧ m.ncols = n ∧
      (∀ i j e, entryAt ers i j = some e → m.getItem (.pair i j) = .ok e) ∧
      m.tolist = .ok ers ∧ zero ∉ m.elements ∧
      (∀ i j, Stores m i j ↔ ∃ e, entryAt ers i j = some e ∧ e ≠ zero) := by
  obtain ⟨m, h1, h2, h3, h4, h5, h6, h7⟩ := new_spec rows ers n hne hrect hop
  have hget : ∀ i j e, entryAt ers i j = some e → (m.entry i j).getD zero = e := by
    intro i j e he
    rw [h7, he]
    by_cases hz : e = zero <;> simp [hz]
  refine ⟨m, h1, h3, h4, ?_, ?_, h6, ?_⟩
  · intro i j e he
    obtain ⟨hi, hj⟩ := entryAt_range h5 he
    rw [h2.getItem i j hi hj, hget i j e he]
  · obtain ⟨g, g1, g2, g3⟩ := tolist_wf h2
    rw [g1]
    congr 1
    refine grid_ext g2 h5 (fun i j => ?_)
    by_cases hin : i < m.nrows ∧ j < m.ncols
    · obtain ⟨e, he⟩ := entryAt_some h5 hin.1 hin.2
      rw [g3 i j hin.1 hin.2, hget i j e he, he]
    · cases h8 : entryAt g i j with
      | some e => exact absurd (entryAt_range g2 h8) hin
      | none =>
        cases h9 : entryAt ers i j with
        | some e => exact absurd (entryAt_range h5 h9) hin
        | none => rfl
  · intro i j
    rw [h2.stores_iff, h7]
    cases he : entryAt ers i j with
    | none => simp
    | some e => by_cases hz : e = zero <;> simp [hz]

/-- `Matrix([[x, 0], [0, 2]])` -/
example : Rectangular [[PyObj.expr x, .int 0], [.int 0, .int 2]] 2 ∧
    operandRows [[PyObj.expr x, .int 0], [.int 0, .int 2]] =
      some [[x, integer 0], [integer 0, integer 2]] ∧
    (Mat.new (.list [.list [.expr x, .int 0], .list [.int 0, .int 2]])).bind Mat.tolist =
      .ok [[x, zero], [zero, integer 2]] := by
  refine ⟨?_, by decide, by decide⟩
  intro row hrow
  simp only [List.mem_cons, List.not_mem_nil, or_false] at hrow
  rcases hrow with rfl | rfl <;> rfl

/-- **C29, rejected input.** Anything that is not a list of lists, and ragged rows:
`TypeError`.  The empty list: `IndexError`.  An entry that is neither an expression nor an
int: `ExpressifyError`. -/
theorem C29_matrix_rejects :
    Mat.new .other = .error .typeError ∧
    (∀ rows, PyRow.other ∈ rows → Mat.new (.list rows) = .error .typeError) ∧
    Mat.new (.list []) = .error .indexError ∧
    (∀ rows : List (List PyObj), rows ≠ [] → (¬ ∃ n, Rectangular rows n) →
      Mat.new (.list (rows.map .list)) = .error .typeError) ∧
    (∀ (rows : List (List PyObj)) n, rows ≠ [] → Rectangular rows n → operandRows rows = none →
      Mat.new (.list (rows.map .list)) = .error .expressify) := by
  refine ⟨rfl, ?_, rfl, ?_, ?_⟩
  · intro rows hr
    have : rows.mapM PyRow.asList = none := by
      induction rows with
      | nil => cases hr
      | cons r rows ih =>
        rw [List.mapM_cons]
        cases r with
        | other => rfl
        | list es => rw [ih (by simpa using hr)]; rfl
    unfold Mat.new
    simp only [this]
  · intro rows hne hrag
    cases rows with
    | nil => exact absurd rfl hne
    | cons r rows =>
      unfold Mat.new
      simp only [mapM_asList]
      rw [show pyGet (r :: rows) 0 = .ok r from rfl]
      simp only [bind, Except.bind]
      rw [if_pos]
      intro hall
      refine hrag ⟨r.length, fun row hrow => ?_⟩
      rw [List.all_eq_true] at hall
      simpa using hall row hrow
  · intro rows n hne hrect hop
    cases rows with
    | nil => exact absurd rfl hne
    | cons r rows =>
      unfold Mat.new
      simp only [mapM_asList]
      rw [show pyGet (r :: rows) 0 = .ok r from rfl]
      simp only [bind, Except.bind]
      rw [if_neg (by
        simp only [List.all_eq_true, decide_eq_true_eq]
        exact fun hn => hn (fun row hrow => by rw [hrect row hrow, hrect r (by simp)]))]
      rw [(mapM_rows (r :: rows)).2 hop]

example : ¬ (∃ n, Rectangular [[PyObj.int 1], []] n) ∧ operandRows [[PyObj.other 0]] = none := by
  refine ⟨?_, by decide⟩
  rintro ⟨n, h⟩
  have h1 := h [PyObj.int 1] (by simp)
  have h2 := h [] (by simp)
  simp at h1 h2; omega

/-! ### All reachable matrices -/

theorem mapM_asList_some {rows : List PyRow} {ls : List (List PyObj)}
    (h : rows.mapM PyRow.asList = some ls) : rows = ls.map .list := by
  induction rows generalizing ls with
  | nil => cases h; rfl
  | cons r rows ih =>
    rw [List.mapM_cons] at h
    cases r with
    | other => cases h
    | list es =>
      cases hm : rows.mapM PyRow.asList with
      | none => rw [hm] at h; cases h
      | some ls' => rw [hm] at h; cases h; rw [ih hm]; rfl

theorem new_wf {entries : PyEntries} {m : Mat} (h : Mat.new entries = .ok m) : MatWF m := by
  cases entries with
  | other => cases h
  | list rows =>
    cases hl : rows.mapM PyRow.asList with
    | none => unfold Mat.new at h; simp only [hl] at h; cases h
    | some ls =>
      have := mapM_asList_some hl
      subst this
      by_cases hne : ls = []
      · subst hne; cases h
      · by_cases hr : ∃ n, Rectangular ls n
        · obtain ⟨n, hr⟩ := hr
          cases ho : operandRows ls with
          | none => rw [C29_matrix_rejects.2.2.2.2 ls n hne hr ho] at h; cases h
          | some ers =>
            obtain ⟨m', h1, h2, _⟩ := new_spec ls ers n hne hr ho
            rw [h1] at h; cases h; exact h2
        · rw [C29_matrix_rejects.2.2.2.1 ls hne hr] at h; cases h

theorem binop_wf {a b : Mat} (ha : MatWF a) (hb : MatWF b) (f : Expr) (hs : a.nrows = b.nrows)
    (hs' : a.ncols = b.ncols) :
    ∃ m, a.binop b f = .ok m ∧ MatWF m ∧ m.nrows = a.nrows ∧ m.ncols = a.ncols ∧
      ∀ i j, m.entry i j = combine f (a.entry i j) (b.entry i j) := by
  obtain ⟨els, em, h1, h2, h3⟩ := binopLoop_spec b.elements f b.entrymap.items a.elements a.entrymap
    ha.store hb.store.nodup
    (fun p hp => hb.store.bound p.1 p.2 ((b.entrymap.mem_items_iff hb.store.nodup p.1 p.2).1 hp))
  refine ⟨Mat.mk' a.nrows a.ncols els em, ?_, mk'_wf h2 ?_, rfl, rfl, fun i j => h3 (i, j)⟩
  · unfold Mat.binop
    rw [if_neg (by simp [hs, hs']), h1]; rfl
  · intro i j h
    rw [h3 (i, j)] at h
    have h : (combine f (a.entry i j) (b.entry i j)).isSome = true := h
    cases he : a.entry i j with
    | some e => exact ha.inside i j ((ha.stores_iff i j).2 (by rw [he]; rfl))
    | none =>
      rw [he] at h
      rw [hs, hs']
      exact hb.inside i j ((hb.stores_iff i j).2 h)

theorem binop_shape {a b : Mat} {f : Expr} {m : Mat} (h : a.binop b f = .ok m) :
    a.nrows = b.nrows ∧ a.ncols = b.ncols := by
  unfold Mat.binop at h
  by_cases hs : (a.nrows, a.ncols) = (b.nrows, b.ncols)
  · simpa using hs
  · rw [if_pos hs] at h; cases h

theorem diff_wf {a : Mat} (ha : MatWF a) {p : DiffProps Val} (hl : listH ∈ p.distributive)
    (x : Expr) (m : Mat) : a.diff (.expr x) p = .ok m ↔
      ∃ ds, m = Mat.mk' a.nrows a.ncols ds a.entrymap ∧ ds.length = a.elements.length ∧
        ∀ (i : Nat) (e d : Expr), a.elements[i]? = some e → ds[i]? = some d →
          Expr.diff e x 1 p = .ok d := by
  have hsplit : a.diff (.expr x) p =
      (Expr.diff (.node (listH :: a.elements)) x 1 p).bind
        (fun d => .ok (Mat.mk' a.nrows a.ncols (d.children.drop 1) a.entrymap)) := by
    rw [← ha.graph]; rfl
  rw [hsplit]
  constructor
  · intro h
    cases hd : Expr.diff (.node (listH :: a.elements)) x 1 p with
    | error err => rw [hd] at h; cases h
    | ok d =>
      rw [hd] at h
      obtain ⟨ds, rfl, h2, h3⟩ := (C28_distributive p listH x hl a.elements d).1 hd
      refine ⟨ds, (Except.ok.inj h).symm, h2, h3⟩
  · rintro ⟨ds, rfl, h2, h3⟩
    rw [(C28_distributive p listH x hl a.elements _).2 ⟨ds, rfl, h2, h3⟩]
    rfl

theorem diff_entry {a : Mat} (ha : MatWF a) {ds : List Expr}
    (hlen : ds.length = a.elements.length) :
    MatWF (Mat.mk' a.nrows a.ncols ds a.entrymap) := by
  have hst : StoreOK ds a.entrymap :=
    ⟨fun k n h => by rw [hlen]; exact ha.store.bound k n h, ha.store.inj, ha.store.nodup,
      fun n h => ha.store.surj n (by omega)⟩
  refine mk'_wf hst (fun i j h => ha.inside i j ?_)
  rw [hst.isSome] at h; exact h

theorem history_wf {m : Mat} (h : MatHistory m) : MatWF m := by
  induction h with
  | new h => exact new_wf h
  | binop _ _ h iha ihb =>
    obtain ⟨h1, h2⟩ := binop_shape h
    obtain ⟨m', h3, h4, _⟩ := binop_wf iha ihb _ h1 h2
    rw [h] at h3; cases h3; exact h4
  | @diff a sym p m _ hl h ih =>
    cases sym with
    | expr x =>
      obtain ⟨ds, rfl, h2, _⟩ := (diff_wf ih hl x m).1 h
      exact diff_entry ih h2
    | int n => cases h
    | other k => cases h
  | sympy ht hd h => exact (fromSympyMatrix_wf ht hd h).1

/-- **C30.** For every matrix a program can make: `M[i, j]` is an expression for all integers
`0 ≤ i < nrows`, `0 ≤ j < ncols`, raises `IndexError` for every other pair of integers
(negative ones included), and `TypeError` for anything that is not a pair of integers. -/
theorem C30_indexing (m : Mat) (h : MatHistory m) :
    (∀ i j : Int, 0 ≤ i → i < m.nrows → 0 ≤ j → j < m.ncols →
      ∃ e, m.getItem (.pair i j) = .ok e) ∧
    (∀ i j : Int, (i < 0 ∨ m.nrows ≤ i ∨ j < 0 ∨ m.ncols ≤ j) →
      m.getItem (.pair i j) = .error .indexError) ∧
    m.getItem .other = .error .typeError := by
  have hw := history_wf h
  refine ⟨?_, ?_, rfl⟩
  · intro i j h1 h2 h3 h4
    obtain ⟨i, rfl⟩ := Int.eq_ofNat_of_zero_le h1
    obtain ⟨j, rfl⟩ := Int.eq_ofNat_of_zero_le h3
    exact ⟨_, hw.getItem i j (by omega) (by omega)⟩
  · intro i j h
    unfold Mat.getItem
    simp only
    rw [if_pos (by omega)]

/-- **C30, `tolist`.** For every matrix a program can make, `tolist()` returns `nrows` rows of
`ncols` entries, and the entry in row `i`, column `j` is `M[i, j]`. -/
theorem C30_tolist (m : Mat) (h : MatHistory m) :
    ∃ g, m.tolist = .ok g ∧ g.length = m.nrows ∧ Rectangular g m.ncols ∧
      ∀ i j : Nat, i < m.nrows → j < m.ncols →
        ∃ e, entryAt g i j = some e ∧ m.getItem (.pair i j) = .ok e := by
  have hw := history_wf h
  obtain ⟨g, h1, h2, h3⟩ := tolist_wf hw
  exact ⟨g, h1, h2.1, h2.2, fun i j hi hj => ⟨_, h3 i j hi hj, hw.getItem i j hi hj⟩⟩

/-- `Matrix([[x, 0], [0, 2]]).diff(x) + Matrix([[0, x], [x, y]])`, index `(0, -1)` -/
example : ∃ a b c m, Mat.new (.list [.list [.expr x, .int 0], .list [.int 0, .int 2]]) = .ok a ∧
    Mat.new (.list [.list [.int 0, .expr x], .list [.expr x, .expr y]]) = .ok b ∧
    a.diff (.expr x) = .ok c ∧ c.add b = .ok m ∧ MatHistory m ∧
    m.tolist = .ok [[integer 1, x], [x, add zero y]] ∧
    m.getItem (.pair 0 (-1)) = .error .indexError := by
  let a := Mat.mk' 2 2 [x, integer 2] ⟨[((0, 0), 0), ((1, 1), 1)]⟩
  let b := Mat.mk' 2 2 [x, x, y] ⟨[((0, 1), 0), ((1, 0), 1), ((1, 1), 2)]⟩
  let c := Mat.mk' 2 2 [integer 1, zero] ⟨[((0, 0), 0), ((1, 1), 1)]⟩
  let m := Mat.mk' 2 2 [integer 1, add zero y, x, x]
    ⟨[((0, 0), 0), ((1, 1), 1), ((0, 1), 2), ((1, 0), 3)]⟩
  have ha : Mat.new (.list [.list [.expr x, .int 0], .list [.int 0, .int 2]]) = .ok a := by decide
  have hb : Mat.new (.list [.list [.int 0, .expr x], .list [.expr x, .expr y]]) = .ok b := by decide
  have hc : a.diff (.expr x) = .ok c := by decide +kernel
  have hm : c.add b = .ok m := by decide
  have hl : listH ∈ builtinDiff.distributive := by decide +kernel
  exact ⟨a, b, c, m, ha, hb, hc, hm, .binop (.diff (.new ha) hl hc) (.new hb) hm, by decide, by decide⟩

/-! ### C31 and C32 -/

theorem pair_args {F : Type} [HasNone F] {A : FloatOps F} {env : Expr → Option F} {h a b : Expr}
    {v : F} (hv : evalTree (meaning (evalF64 A) env) (.node [h, a, b]) = .ok v) :
    ∃ va, evalTree (meaning (evalF64 A) env) a = .ok va ∧
      ∃ vb, evalTree (meaning (evalF64 A) env) b = .ok vb := by
  rw [f64_node, List.mapM_cons, List.mapM_cons] at hv
  cases ha : evalTree (meaning (evalF64 A) env) a with
  | error err => rw [ha] at hv; cases hv
  | ok va =>
    cases hb : evalTree (meaning (evalF64 A) env) b with
    | error err => rw [ha, hb] at hv; cases hv
    | ok vb => exact ⟨va, rfl, vb, rfl⟩

/-- **C32, what `binop` does.** For matrices of the same shape, `A.binop(B, f)` returns a
matrix of that shape whose `(i, j)` entry is `f(A[i,j], B[i,j])` where both are stored, the
stored one where one is, and `0` where none is.  For different shapes: `TypeError`. -/
theorem C32_binop_entries (a b : Mat) (ha : MatHistory a) (hb : MatHistory b) (f : Expr) :
    ((a.nrows, a.ncols) = (b.nrows, b.ncols) → ∃ m, a.binop b f = .ok m ∧
      m.nrows = a.nrows ∧ m.ncols = a.ncols ∧
      (∀ i j, Stores m i j ↔ Stores a i j ∨ Stores b i j) ∧
      ∀ (i j : Nat) (ea eb : Expr), i < a.nrows → j < a.ncols →
        a.getItem (.pair i j) = .ok ea → b.getItem (.pair i j) = .ok eb →
        (Stores a i j → Stores b i j → m.getItem (.pair i j) = .ok (.node [f, ea, eb])) ∧
        (Stores a i j → ¬ Stores b i j → m.getItem (.pair i j) = .ok ea ∧ eb = zero) ∧
        (¬ Stores a i j → Stores b i j → m.getItem (.pair i j) = .ok eb ∧ ea = zero) ∧
        (¬ Stores a i j → ¬ Stores b i j →
          m.getItem (.pair i j) = .ok zero ∧ ea = zero ∧ eb = zero)) ∧
    ((a.nrows, a.ncols) ≠ (b.nrows, b.ncols) → a.binop b f = .error .typeError) := by
  have hwa := history_wf ha
  have hwb := history_wf hb
  constructor
  · intro hs
    simp only [Prod.mk.injEq] at hs
    obtain ⟨m, h1, h2, h3, h4, h5⟩ := binop_wf hwa hwb f hs.1 hs.2
    refine ⟨m, h1, h3, h4, ?_, ?_⟩
    · intro i j
      rw [h2.stores_iff, hwa.stores_iff, hwb.stores_iff, h5]
      cases a.entry i j <;> cases b.entry i j <;> simp [combine]
    · intro i j ea eb hi hj hea heb
      rw [hwa.getItem i j hi hj] at hea
      rw [hwb.getItem i j (by omega) (by omega)] at heb
      obtain rfl := Except.ok.inj hea
      obtain rfl := Except.ok.inj heb
      rw [h2.getItem i j (by omega) (by omega), h5, hwa.stores_iff, hwb.stores_iff]
      cases a.entry i j <;> cases b.entry i j <;> simp [combine]
  · intro hs
    unfold Mat.binop
    rw [if_pos hs]

/-- **C32, partial.** If `0` is neutral for `f` — replacing `f(e, 0)` and `f(0, e)` by `e`
and `f(0, 0)` by `0` is allowed by the equivalence `R` — then every entry of `A.binop(B, f)`
is equivalent to `f(A[i,j], B[i,j])`.  Without that hypothesis the property is false:
`C32_binop_any_operation_false`. -/
theorem C32_binop_elementwise_partial (R : Expr → Expr → Prop) (hR : Equivalence R) (f : Expr)
    (hl : ∀ e, R (.node [f, e, zero]) e) (hr : ∀ e, R (.node [f, zero, e]) e)
    (a b : Mat) (ha : MatHistory a) (hb : MatHistory b) (m : Mat) (hm : a.binop b f = .ok m)
    (i j : Nat) (hi : i < a.nrows) (hj : j < a.ncols) :
    ∃ ea eb e, a.getItem (.pair i j) = .ok ea ∧ b.getItem (.pair i j) = .ok eb ∧
      m.getItem (.pair i j) = .ok e ∧ R e (.node [f, ea, eb]) := by
  have hwa := history_wf ha
  have hwb := history_wf hb
  obtain ⟨h1, h2⟩ := binop_shape hm
  obtain ⟨m', g1, g2, g3, g4, g5⟩ := binop_wf hwa hwb f h1 h2
  rw [hm] at g1; cases g1
  refine ⟨_, _, _, hwa.getItem i j hi hj, hwb.getItem i j (by omega) (by omega),
    g2.getItem i j (by omega) (by omega), ?_⟩
  rw [g5]
  cases a.entry i j <;> cases b.entry i j <;> simp only [combine, Option.getD_some, Option.getD_none]
  · exact hR.symm (hl zero)
  · exact hR.symm (hr _)
  · exact hR.symm (hl _)
  · exact hR.refl _

/-- The hypotheses hold for `Add` and "has the same value, if any, for all values of the
symbols". -/
example : ∃ R : Expr → Expr → Prop, Equivalence R ∧ (∀ e, R (.node [addH, e, zero]) e) ∧
    (∀ e, R (.node [addH, zero, e]) e) ∧ ¬ R (integer 1) (integer 2) := by
  refine ⟨fun e e' => ∀ (values : Dict Expr ℝ), SymbolValues values → ∀ v : ℝ,
    e.evalF64 realOps (some values) = .ok v ↔ e'.evalF64 realOps (some values) = .ok v,
    ⟨fun _ _ _ _ => Iff.rfl, fun h values hv v => (h values hv v).symm,
      fun h h' values hv v => (h values hv v).trans (h' values hv v)⟩, ?_, ?_, ?_⟩
  · intro e values hv v
    have h0 := (evalF64_ok_iff _ _ _ hv.unique _).1 (evalF64_integer hv 0)
    rw [evalF64_ok_iff _ _ _ hv.unique, evalF64_ok_iff _ _ _ hv.unique]
    constructor
    · intro h
      obtain ⟨va, hva, _⟩ := pair_args h
      replace h := (pair_value hva h0).1 h
      obtain rfl := Except.ok.inj h
      simpa using hva
    · intro h
      refine (pair_value h h0).2 ?_
      show Except.ok _ = Except.ok _
      simp
  · intro e values hv v
    have h0 := (evalF64_ok_iff _ _ _ hv.unique _).1 (evalF64_integer hv 0)
    rw [evalF64_ok_iff _ _ _ hv.unique, evalF64_ok_iff _ _ _ hv.unique]
    constructor
    · intro h
      obtain ⟨_, _, hva⟩ := pair_args h
      obtain ⟨vb, hvb⟩ := hva
      replace h := (pair_value h0 hvb).1 h
      obtain rfl := Except.ok.inj h
      simpa using hvb
    · intro h
      refine (pair_value h0 h).2 ?_
      show Except.ok _ = Except.ok _
      simp
  · intro h
    have hv : SymbolValues Dict.empty := ⟨List.nodup_nil, fun _ => rfl⟩
    have h1 := (h Dict.empty hv 1).1 (by simpa using evalF64_integer hv 1)
    rw [evalF64_integer hv 2] at h1
    have := Except.ok.inj h1
    norm_num at this

/-- **C32 is false for operations where `0` is not neutral.**
`Matrix([[2]]).binop(Matrix([[0]]), Mul)` has the entry `2`, not `2*0`. -/
theorem C32_binop_any_operation_false :
    ∃ a b m ea eb e, Mat.new (.list [.list [.int 2]]) = .ok a ∧
      Mat.new (.list [.list [.int 0]]) = .ok b ∧ a.binop b mulH = .ok m ∧
      a.getItem (.pair 0 0) = .ok ea ∧ b.getItem (.pair 0 0) = .ok eb ∧
      m.getItem (.pair 0 0) = .ok e ∧
      ∀ values, SymbolValues values →
        e.evalF64 realOps (some values) = .ok 2 ∧
        (mul ea eb).evalF64 realOps (some values) = .ok 0 := by
  refine ⟨Mat.mk' 1 1 [integer 2] ⟨[((0, 0), 0)]⟩, Mat.mk' 1 1 [] ⟨[]⟩,
    Mat.mk' 1 1 [integer 2] ⟨[((0, 0), 0)]⟩, integer 2, zero, integer 2,
    by decide, by decide, by decide, by decide, by decide, by decide, fun values hv => ⟨?_, ?_⟩⟩
  · simpa using evalF64_integer hv 2
  · have h2 := (evalF64_ok_iff _ _ _ hv.unique _).1 (evalF64_integer hv 2)
    have h0 := (evalF64_ok_iff _ _ _ hv.unique _).1 (evalF64_integer hv 0)
    rw [evalF64_ok_iff _ _ _ hv.unique]
    refine (pair_value h2 h0).2 ?_
    show Except.ok _ = Except.ok _
    simp

/-- **C31.** For matrices of the same shape, the `(i, j)` entry of `A + B` is
`Add(A[i,j], B[i,j])` where both are stored and the stored one (or `0`) otherwise; whenever
the two entries have values, the entry of the sum has the sum of the values.  Different shapes:
`TypeError`. -/
theorem C31_addition (a b : Mat) (ha : MatHistory a) (hb : MatHistory b) :
    ((a.nrows, a.ncols) = (b.nrows, b.ncols) → ∃ m, a.add b = .ok m ∧
      m.nrows = a.nrows ∧ m.ncols = a.ncols ∧
      ∀ (i j : Nat), i < a.nrows → j < a.ncols →
      ∃ ea eb e, a.getItem (.pair i j) = .ok ea ∧ b.getItem (.pair i j) = .ok eb ∧
        m.getItem (.pair i j) = .ok e ∧
        (Stores a i j ∧ Stores b i j ∧ e = add ea eb ∨
         Stores a i j ∧ ¬ Stores b i j ∧ e = ea ∧ eb = zero ∨
         ¬ Stores a i j ∧ e = eb ∧ ea = zero) ∧
        ∀ (values : Dict Expr ℝ), SymbolValues values → ∀ va vb : ℝ,
          ea.evalF64 realOps (some values) = .ok va → eb.evalF64 realOps (some values) = .ok vb →
          e.evalF64 realOps (some values) = .ok (va + vb)) ∧
    ((a.nrows, a.ncols) ≠ (b.nrows, b.ncols) → a.add b = .error .typeError) := by
  obtain ⟨h1, h2⟩ := C32_binop_entries a b ha hb addH
  have hwa := history_wf ha
  have hwb := history_wf hb
  refine ⟨fun hs => ?_, h2⟩
  obtain ⟨m, g1, g2, g3, g4, g5⟩ := h1 hs
  refine ⟨m, g1, g2, g3, fun i j hi hj => ?_⟩
  simp only [Prod.mk.injEq] at hs
  have hea := hwa.getItem i j hi hj
  have heb := hwb.getItem i j (by omega) (by omega)
  obtain ⟨k1, k2, k3, k4⟩ := g5 i j _ _ hi hj hea heb
  generalize (a.entry i j).getD zero = ea at *
  generalize (b.entry i j).getD zero = eb at *
  have hz : ∀ (values : Dict Expr ℝ), SymbolValues values → ∀ v : ℝ,
      zero.evalF64 realOps (some values) = .ok v → v = 0 := by
    intro values hv v h
    have h' := evalF64_integer hv 0
    have : Except.ok (ε := PyErr) v = Except.ok ((0 : ℤ) : ℝ) := by rw [← h, ← h']; rfl
    simpa using Except.ok.inj this
  by_cases sa : Stores a i j
  · by_cases sb : Stores b i j
    · refine ⟨ea, eb, _, hea, heb, k1 sa sb, Or.inl ⟨sa, sb, rfl⟩, ?_⟩
      intro values hv va vb hva hvb
      rw [evalF64_ok_iff _ _ _ hv.unique] at hva hvb ⊢
      refine (pair_value hva hvb).2 ?_
      show Except.ok _ = Except.ok _
      simp
    · obtain ⟨q1, rfl⟩ := k2 sa sb
      refine ⟨ea, _, ea, hea, heb, q1, Or.inr (Or.inl ⟨sa, sb, rfl, rfl⟩), ?_⟩
      intro values hv va vb hva hvb
      rw [hz values hv vb hvb, add_zero]; exact hva
  · by_cases sb : Stores b i j
    · obtain ⟨q1, rfl⟩ := k3 sa sb
      refine ⟨_, eb, eb, hea, heb, q1, Or.inr (Or.inr ⟨sa, rfl, rfl⟩), ?_⟩
      intro values hv va vb hva hvb
      rw [hz values hv va hva, zero_add]; exact hvb
    · obtain ⟨q1, rfl, rfl⟩ := k4 sa sb
      refine ⟨_, _, _, hea, heb, q1, Or.inr (Or.inr ⟨sa, rfl, rfl⟩), ?_⟩
      intro values hv va vb hva hvb
      rw [hz values hv va hva, zero_add]; exact hvb

/-- `Matrix([[x, 0], [0, 0]]) + Matrix([[y, y], [0, 0]])`: all three cases. -/
example : ∃ a b m, MatHistory a ∧ MatHistory b ∧ (a.nrows, a.ncols) = (b.nrows, b.ncols) ∧
    a.add b = .ok m ∧ Stores a 0 0 ∧ Stores b 0 0 ∧ ¬ Stores a 0 1 ∧ Stores b 0 1 ∧
    ¬ Stores a 1 0 ∧ ¬ Stores b 1 0 ∧ m.tolist = .ok [[add x y, y], [zero, zero]] := by
  refine ⟨Mat.mk' 2 2 [x] ⟨[((0, 0), 0)]⟩, Mat.mk' 2 2 [y, y] ⟨[((0, 0), 0), ((0, 1), 1)]⟩,
    Mat.mk' 2 2 [add x y, y] ⟨[((0, 0), 0), ((0, 1), 1)]⟩,
    .new (entries := .list [.list [.expr x, .int 0], .list [.int 0, .int 0]]) (by decide),
    .new (entries := .list [.list [.expr y, .expr y], .list [.int 0, .int 0]]) (by decide),
    rfl, by decide, ?_⟩
  unfold Stores
  decide

/-! ### C33 -/

/-- **C33.** For every matrix `M` a program can make, every variable `x` other than the
integer `0`, and all rules under which `List` is distributive (as in simplecas) and `zero` is
`Integer(0)`: `M.diff(x)` returns exactly when every `M[i, j].diff(x)`, each taken on its own,
returns, and its `(i, j)` entry is then `M[i, j].diff(x)`.  A variable that is not an
expression: `TypeError`. -/
theorem C33_diff_elementwise (m : Mat) (hm : MatHistory m) (p : DiffProps Val)
    (hl : listH ∈ p.distributive) (hz : p.zero = zero) (x : Expr) (hx : x ≠ zero) :
    (∀ d, m.diff (.expr x) p = .ok d → d.nrows = m.nrows ∧ d.ncols = m.ncols ∧
      ∀ (i j : Nat) (e : Expr), m.getItem (.pair i j) = .ok e →
        ∃ e', Expr.diff e x 1 p = .ok e' ∧ d.getItem (.pair i j) = .ok e') ∧
    ((∃ d, m.diff (.expr x) p = .ok d) ↔
      ∀ (i j : Nat) (e : Expr), m.getItem (.pair i j) = .ok e → ∃ e', Expr.diff e x 1 p = .ok e') ∧
    (∀ o : PyObj, ¬ IsExpr o → m.diff o p = .error .typeError) := by
  have hw := history_wf hm
  have hzero : Expr.diff zero x 1 p = .ok zero := by
    rw [diff_ok_iff]
    show Spec.deriv p x (.atom _) = _
    unfold Spec.deriv
    rw [if_neg (fun h => hx h.symm), hz]
  have hin : ∀ (i j : Nat) (e : Expr), m.getItem (.pair i j) = .ok e →
      i < m.nrows ∧ j < m.ncols := by
    intro i j e he
    by_cases hc : i < m.nrows ∧ j < m.ncols
    · exact hc
    · exfalso
      rw [(C30_indexing m hm).2.1 i j (by omega)] at he
      cases he
  have hA : ∀ d, m.diff (.expr x) p = .ok d → d.nrows = m.nrows ∧ d.ncols = m.ncols ∧
      ∀ (i j : Nat) (e : Expr), m.getItem (.pair i j) = .ok e →
        ∃ e', Expr.diff e x 1 p = .ok e' ∧ d.getItem (.pair i j) = .ok e' := by
    intro d hd
    obtain ⟨ds, rfl, h2, h3⟩ := (diff_wf hw hl x d).1 hd
    refine ⟨rfl, rfl, fun i j e he => ?_⟩
    obtain ⟨hi, hj⟩ := hin i j e he
    have hwd := diff_entry hw h2
    rw [hw.getItem i j hi hj] at he
    obtain rfl := Except.ok.inj he
    rw [hwd.getItem i j hi hj]
    cases hk : m.entrymap.get? (i, j) with
    | none =>
      have e1 : m.entry i j = none := by unfold Mat.entry Verif.entry; rw [hk]; rfl
      have e2 : (Mat.mk' m.nrows m.ncols ds m.entrymap).entry i j = none := by
        unfold Mat.entry Verif.entry Mat.mk'; simp only [hk]; rfl
      rw [e1, e2]
      exact ⟨zero, hzero, rfl⟩
    | some n =>
      have hn := hw.store.bound _ _ hk
      have e1 : m.entry i j = some m.elements[n] := by
        unfold Mat.entry Verif.entry; rw [hk]; simp [hn]
      have hn' : n < ds.length := by omega
      have e2 : (Mat.mk' m.nrows m.ncols ds m.entrymap).entry i j = some ds[n] := by
        unfold Mat.entry Verif.entry Mat.mk'; simp only [hk]; simp [hn']
      rw [e1, e2]
      exact ⟨ds[n], h3 n _ _ (List.getElem?_eq_getElem hn) (List.getElem?_eq_getElem hn'), rfl⟩
  refine ⟨hA, ⟨?_, ?_⟩, ?_⟩
  · rintro ⟨d, hd⟩ i j e he
    obtain ⟨e', h, _⟩ := (hA d hd).2.2 i j e he
    exact ⟨e', h⟩
  · intro h
    have hall : ∀ n (hn : n < m.elements.length), ∃ e', Expr.diff m.elements[n] x 1 p = .ok e' := by
      intro n hn
      obtain ⟨⟨i, j⟩, hk⟩ := hw.store.surj n hn
      obtain ⟨hi, hj⟩ := hw.inside i j (by unfold Stores; rw [hk]; rfl)
      refine h i j _ ?_
      rw [hw.getItem i j hi hj]
      unfold Mat.entry Verif.entry; rw [hk]; simp [hn]
    let ds := List.ofFn (fun n : Fin m.elements.length => (hall n.1 n.2).choose)
    refine ⟨_, (diff_wf hw hl x _).2 ⟨ds, rfl, by simp [ds], ?_⟩⟩
    intro i e d he hd
    have hi := (List.getElem?_eq_some_iff.1 he).1
    rw [List.getElem?_eq_getElem hi] at he
    cases he
    have : ds[i]? = some (hall i hi).choose := by simp [ds, hi]
    rw [this] at hd; cases hd
    exact (hall i hi).choose_spec
  · intro o ho
    cases o with
    | expr e => exact absurd ⟨e, rfl⟩ ho
    | int n => rfl
    | other k => rfl

/-- The hypotheses hold in simplecas. -/
example : listH ∈ builtinDiff.distributive ∧ builtinDiff.zero = zero ∧ x ≠ zero ∧
    (Mat.new (.list [.list [.expr (sin x), .int 0], .list [.expr y, .expr (mul (sin x) (sin x))]])).bind
      (fun m => (m.diff (.expr x)).bind Mat.tolist) =
    .ok [[cos x, zero], [zero, add (mul (cos x) (sin x)) (mul (sin x) (cos x))]] := by
  decide +kernel

/-- **C33 at `x = Integer(0)`.** The excluded variable really is different: an unstored `0`
stays `0` under `M.diff(Integer(0))`, while `Integer(0).diff(Integer(0))` is `1`. -/
theorem C33_zero_variable : ∃ m d, Mat.new (.list [.list [.int 0]]) = .ok m ∧
    m.diff (.expr zero) = .ok d ∧ m.getItem (.pair 0 0) = .ok zero ∧
    d.getItem (.pair 0 0) = .ok zero ∧ Expr.diff zero zero = .ok (integer 1) := by
  exact ⟨Mat.mk' 1 1 [] ⟨[]⟩, Mat.mk' 1 1 [] ⟨[]⟩, by decide, by decide +kernel, by decide,
    by decide, by decide +kernel⟩

end Verif.Props
