import Verif.Model.Repr
import Verif.Props.Matrix
import Verif.Props.Print

/-!
# C46 for matrices
-/

namespace Verif.Props
open Spec Expr

theorem mapM_ok_iff_get {α β : Type} (f : α → PyM β) (l : List α) (r : List β) :
    l.mapM f = .ok r ↔ r.length = l.length ∧
      ∀ (i : Nat) (a : α) (b : β), l[i]? = some a → r[i]? = some b → f a = .ok b := by
  induction l generalizing r with
  | nil =>
    cases r with
    | nil => simp; rfl
    | cons b r =>
      constructor
      · intro h; cases h
      · rintro ⟨h, _⟩; simp at h
  | cons a l ih =>
    rw [List.mapM_cons]
    constructor
    · intro h
      cases ha : f a with
      | error e => rw [ha] at h; cases h
      | ok b =>
        rw [ha] at h
        cases hl : l.mapM f with
        | error e => rw [hl] at h; cases h
        | ok r' =>
          rw [hl] at h
          obtain rfl : b :: r' = r := Except.ok.inj h
          obtain ⟨h1, h2⟩ := (ih r').1 hl
          refine ⟨by simp [h1], ?_⟩
          intro i a' b' h3 h4
          cases i with
          | zero => simp at h3 h4; subst h3 h4; exact ha
          | succ i => simp at h3 h4; exact h2 i a' b' h3 h4
    · rintro ⟨h1, h2⟩
      cases r with
      | nil => simp at h1
      | cons b r =>
        have ha := h2 0 a b rfl rfl
        have hl := (ih r).2 ⟨by simpa using h1, fun i a' b' h3 h4 => h2 (i + 1) a' b' h3 h4⟩
        rw [ha, hl]; rfl

/-- **C46 for matrices.** `repr(M)` is `Matrix([[…, …], …])` with the texts of the entries `M[i, j]`
in their places; it returns exactly if all entries print. -/
theorem C46_matrix (m : Mat) (h : MatHistory m) (s : String) :
    m.repr = .ok s ↔ ∃ text : Nat → Nat → String,
      (∀ i j : Nat, i < m.nrows → j < m.ncols →
        ∃ e, m.getItem (.pair i j) = .ok e ∧ Prints reprStyle e (text i j)) ∧
      s = "Matrix([" ++ String.intercalate ", " ((List.range m.nrows).map fun i =>
        "[" ++ String.intercalate ", " ((List.range m.ncols).map fun j => text i j) ++ "]") ++
          "])" := by
  obtain ⟨g, h1, h2, h3, h4⟩ := C30_tolist m h
  have hrow : ∀ (i : Nat) row, g[i]? = some row → row.length = m.ncols := fun i row hr =>
    h3 row (List.mem_of_getElem? hr)
  have hent : ∀ (i j : Nat) row e, g[i]? = some row → row[j]? = some e →
      m.getItem (.pair i j) = .ok e := by
    intro i j row e hi hj
    have hi' : i < m.nrows := by
      rw [← h2]; exact (List.getElem?_eq_some_iff.1 hi).1
    have hj' : j < m.ncols := by
      rw [← hrow i row hi]; exact (List.getElem?_eq_some_iff.1 hj).1
    obtain ⟨e', he1, he2⟩ := h4 i j hi' hj'
    have : entryAt g i j = some e := by simp [entryAt, hi, hj]
    rw [this] at he1
    rw [he2, Option.some.inj he1]
  have hmat : "Matrix([" = "Matrix(" ++ "[" := rfl
  have hend : "])" = "]" ++ ")" := rfl
  unfold Mat.repr
  rw [h1]
  constructor
  · intro hs
    cases hr : g.mapM (fun row => do let ss ← row.mapM Expr.repr; return pyReprList ss) with
    | error e =>
      simp only [bind, Except.bind] at hr hs; rw [hr] at hs; cases hs
    | ok rs =>
      have hs' : "Matrix(" ++ pyReprList rs ++ ")" = s := by
        simp only [bind, Except.bind] at hr hs; rw [hr] at hs; exact Except.ok.inj hs
      subst hs'
      rw [mapM_ok_iff_get] at hr
      obtain ⟨hl, hr⟩ := hr
      -- the texts of each row
      have hrows : ∀ i : Nat, ∃ ss : List String, ∀ row, g[i]? = some row →
          row.mapM Expr.repr = .ok ss ∧ rs[i]? = some (pyReprList ss) := by
        intro i
        cases hi : g[i]? with
        | none => exact ⟨[], fun row h => by cases h⟩
        | some row =>
          have hi' : i < rs.length := by
            rw [hl]; exact (List.getElem?_eq_some_iff.1 hi).1
          have := hr i row rs[i] hi (List.getElem?_eq_getElem hi')
          cases hss : row.mapM Expr.repr with
          | error e => rw [hss] at this; cases this
          | ok ss =>
            rw [hss] at this
            refine ⟨ss, fun row' h' => ?_⟩
            obtain rfl := Option.some.inj h'
            refine ⟨hss, ?_⟩
            rw [List.getElem?_eq_getElem hi', ← Except.ok.inj this]
      choose ss hss using hrows
      refine ⟨fun i j => ((ss i)[j]?).getD "", ?_, ?_⟩
      · intro i j hi hj
        have hgi : g[i]? = some g[i] := List.getElem?_eq_getElem (by omega)
        obtain ⟨a1, _⟩ := hss i _ hgi
        obtain ⟨b1, b2⟩ := (mapM_ok_iff_get _ _ _).1 a1
        have hlen := hrow i _ hgi
        have hje : (g[i])[j]? = some ((g[i])[j]'(by omega)) := List.getElem?_eq_getElem (by omega)
        refine ⟨_, hent i j _ _ hgi hje, ?_⟩
        have hjs : (ss i)[j]? = some ((ss i)[j]'(by omega)) := List.getElem?_eq_getElem (by omega)
        show Prints reprStyle _ (((ss i)[j]?).getD "")
        rw [hjs, Option.getD_some]
        exact (C46_repr _ _).1 (b2 j _ _ hje hjs)
      · have e : rs = (List.range m.nrows).map fun i => "[" ++ String.intercalate ", "
            ((List.range m.ncols).map fun j => ((ss i)[j]?).getD "") ++ "]" := by
          apply List.ext_getElem (by simp [hl, h2])
          intro i hi1 hi2
          have hgi : g[i]? = some g[i] := List.getElem?_eq_getElem (by omega)
          obtain ⟨a1, a2⟩ := hss i _ hgi
          rw [List.getElem?_eq_getElem hi1] at a2
          rw [Option.some.inj a2, List.getElem_map, List.getElem_range, pyReprList]
          congr 2
          have hlen : (ss i).length = m.ncols := by
            rw [((mapM_ok_iff_get _ _ _).1 a1).1, hrow i _ hgi]
          congr 1
          apply List.ext_getElem (by simp [hlen])
          intro j hj1 hj2
          simp [hj1]
        rw [hmat, hend, ← e, pyReprList]
        simp only [String.append_assoc]
  · rintro ⟨text, ht, rfl⟩
    have hr : g.mapM (fun row => do let ss ← row.mapM Expr.repr; return pyReprList ss) =
        .ok ((List.range m.nrows).map fun i =>
          pyReprList ((List.range m.ncols).map fun j => text i j)) := by
      rw [mapM_ok_iff_get]
      refine ⟨by simp [h2], ?_⟩
      intro i row b hi hb
      have hi' : i < m.nrows := by rw [← h2]; exact (List.getElem?_eq_some_iff.1 hi).1
      have hss : row.mapM Expr.repr = .ok ((List.range m.ncols).map fun j => text i j) := by
        rw [mapM_ok_iff_get]
        refine ⟨by simp [hrow i row hi], ?_⟩
        intro j e c hj hc
        have hj' : j < m.ncols := by
          rw [← hrow i row hi]; exact (List.getElem?_eq_some_iff.1 hj).1
        obtain ⟨e', he1, he2⟩ := ht i j hi' hj'
        rw [hent i j row e hi hj] at he1
        obtain rfl := Except.ok.inj he1
        have : c = text i j := by
          rw [List.getElem?_map, List.getElem?_range hj'] at hc
          exact (Option.some.inj hc).symm
        rw [this]
        exact (C46_repr _ _).2 he2
      have : b = pyReprList ((List.range m.ncols).map fun j => text i j) := by
        rw [List.getElem?_map, List.getElem?_range hi'] at hb
        exact (Option.some.inj hb).symm
      rw [hss, this]; rfl
    simp only [bind, Except.bind] at hr ⊢
    rw [hr]
    simp only [pyReprList, hmat, hend, String.append_assoc]
    rfl

/-- `Matrix([[x, 0], [0, 2]])` is printed as it is written. -/
example : ∃ m, Mat.new (.list [.list [.expr x, .int 0], .list [.int 0, .int 2]]) = .ok m ∧
    MatHistory m ∧ m.repr = .ok "Matrix([[x, 0], [0, 2]])" := by
  let m := Mat.mk' 2 2 [x, integer 2] ⟨[((0, 0), 0), ((1, 1), 1)]⟩
  have h : Mat.new (.list [.list [.expr x, .int 0], .list [.int 0, .int 2]]) = .ok m := by
    decide +kernel
  exact ⟨m, h, .new h, by decide +kernel⟩

end Verif.Props
