import Verif.Spec.SymPy
import Verif.Lemmas.Matrix

/-!
# `from_sympy` and its cache
-/

namespace Verif
open Spec Expr

/-! ### `from_sympy` -/

mutual
theorem converts_unique {s : SExpr} {e : Expr} : Converts s e → ∀ e', Converts s e' → e = e'
  | .int, _, .int => rfl
  | .sym, _, .sym => rfl
  | .add _ h, _, .add _ h' => by rw [convertsAll_unique h _ h']
  | .mul _ h, _, .mul _ h' => by rw [convertsAll_unique h _ h']
  | .pow _ h, _, .pow _ h' => by rw [convertsAll_unique h _ h']
  | .sin _ h, _, .sin _ h' => by rw [convertsAll_unique h _ h']
  | .cos _ h, _, .cos _ h' => by rw [convertsAll_unique h _ h']
  | .tuple _ h, _, .tuple _ h' => by rw [convertsAll_unique h _ h']
  | .undef _ h, _, .undef _ h' => by rw [convertsAll_unique h _ h']
theorem convertsAll_unique {ss : List SExpr} {es : List Expr} : ConvertsAll ss es →
    ∀ es', ConvertsAll ss es' → es = es'
  | .nil, _, .nil => rfl
  | .cons h1 h2, _, .cons h1' h2' => by
    rw [converts_unique h1 _ h1', convertsAll_unique h2 _ h2']
end

/-- Every cached pair is right. -/
def CacheOK (cache : Dict SExpr Expr) : Prop := ∀ s e, cache.get? s = some e → Converts s e

/-- What one conversion does. -/
def Outcome (s : SExpr) (r : PyM (Expr × Dict SExpr Expr)) : Prop :=
  (∃ e c, r = .ok (e, c) ∧ Converts s e ∧ CacheOK c) ∨
  (∃ err, r = .error err ∧ (∀ e, ¬ Converts s e) ∧
    (err = .notImplementedError ∨ err = .typeError ∧ ∃ n, SSub s (.cls n)))

/-- What the conversion of a list does. -/
def OutcomeList (ss : List SExpr) (r : PyM (List Expr × Dict SExpr Expr)) : Prop :=
  (∃ es c, r = .ok (es, c) ∧ ConvertsAll ss es ∧ CacheOK c) ∨
  (∃ err, r = .error err ∧ (∀ es, ¬ ConvertsAll ss es) ∧
    (err = .notImplementedError ∨ err = .typeError ∧ ∃ s ∈ ss, ∃ n, SSub s (.cls n)))

theorem withCache_outcome {s : SExpr} {cache : Dict SExpr Expr} (hc : CacheOK cache)
    {r : PyM (Expr × Dict SExpr Expr)} (hr : Outcome s r) : Outcome s (withCache cache s r) := by
  unfold withCache
  cases hg : cache.get? s with
  | some e => exact Or.inl ⟨e, cache, rfl, hc s e hg, hc⟩
  | none =>
    rcases hr with ⟨e, c, rfl, h1, h2⟩ | ⟨err, rfl, h1, h2⟩
    · refine Or.inl ⟨e, c.set s e, rfl, h1, ?_⟩
      intro s' e' h
      rw [Dict.get?_set] at h
      split at h
      · rename_i heq; subst heq
        obtain rfl := Option.some.inj h
        exact h1
      · exact h2 s' e' h
    · exact Or.inr ⟨err, rfl, h1, h2⟩

theorem converts_app_args {k : SKind} {ss : List SExpr} {e : Expr} (h : Converts (.app k ss) e) :
    ss ≠ [] ∧ ∃ es, ConvertsAll ss es ∧ fromSympyBuild k es = .ok e := by
  cases h with
  | add h1 h2 => exact ⟨h1, _, h2, rfl⟩
  | mul h1 h2 => exact ⟨h1, _, h2, rfl⟩
  | pow h1 h2 => exact ⟨h1, _, h2, rfl⟩
  | sin h1 h2 => exact ⟨h1, _, h2, rfl⟩
  | cos h1 h2 => exact ⟨h1, _, h2, rfl⟩
  | tuple h1 h2 => exact ⟨h1, _, h2, rfl⟩
  | undef h1 h2 => exact ⟨h1, _, h2, rfl⟩

theorem converts_of_build {k : SKind} {ss : List SExpr} {es : List Expr} {e : Expr}
    (hne : ss ≠ []) (h : ConvertsAll ss es) (hb : fromSympyBuild k es = .ok e) :
    Converts (.app k ss) e := by
  cases k with
  | add => cases hb; exact .add hne h
  | mul => cases hb; exact .mul hne h
  | pow => cases hb; exact .pow hne h
  | sin => cases hb; exact .sin hne h
  | cos => cases hb; exact .cos hne h
  | tuple => cases hb; exact .tuple hne h
  | undef n => cases hb; exact .undef hne h
  | other c => cases hb

theorem build_error {k : SKind} {es : List Expr} {err : PyErr}
    (h : fromSympyBuild k es = .error err) : err = .notImplementedError := by
  cases k <;> cases h
  rfl

mutual
theorem fromSympyCache_outcome : ∀ (s : SExpr) (cache : Dict SExpr Expr), CacheOK cache →
    Outcome s (fromSympyCache s cache)
  | .int n, cache, hc => by
    unfold fromSympyCache
    exact withCache_outcome hc (Or.inl ⟨_, _, rfl, .int, hc⟩)
  | .sym n a, cache, hc => by
    unfold fromSympyCache
    exact withCache_outcome hc (Or.inl ⟨_, _, rfl, .sym, hc⟩)
  | .cls n, cache, hc => by
    unfold fromSympyCache
    exact withCache_outcome hc
      (Or.inr ⟨_, rfl, (by intro e h; cases h), Or.inr ⟨rfl, n, .refl⟩⟩)
  | .leaf n, cache, hc => by
    unfold fromSympyCache
    exact withCache_outcome hc (Or.inr ⟨_, rfl, (by intro e h; cases h), Or.inl rfl⟩)
  | .app k as, cache, hc => by
    unfold fromSympyCache
    refine withCache_outcome hc ?_
    have ih := fromSympyCacheList_outcome as cache hc
    cases as with
    | nil =>
      exact Or.inr ⟨_, rfl, fun e h => (converts_app_args h).1 rfl, Or.inl rfl⟩
    | cons a as =>
      simp only [List.isEmpty_cons, Bool.false_eq_true, if_false]
      rcases ih with ⟨es, c, h, h1, h2⟩ | ⟨err, h, h1, h2⟩
      · rw [h]
        cases hb : fromSympyBuild k es with
        | ok e =>
          refine Or.inl ⟨e, c, ?_, converts_of_build (by simp) h1 hb, h2⟩
          show (do let ret ← fromSympyBuild k es; pure (ret, c)) = _
          rw [hb]; rfl
        | error err =>
          refine Or.inr ⟨err, ?_, ?_, Or.inl (build_error hb)⟩
          · show (do let ret ← fromSympyBuild k es; pure (ret, c)) = _
            rw [hb]; rfl
          · intro e he
            obtain ⟨_, es', h1', hb'⟩ := converts_app_args he
            rw [← convertsAll_unique h1 _ h1', hb] at hb'
            cases hb'
      · rw [h]
        refine Or.inr ⟨err, rfl, ?_, ?_⟩
        · intro e he
          obtain ⟨_, es', h1', _⟩ := converts_app_args he
          exact h1 es' h1'
        · rcases h2 with h2 | ⟨h2, s, hs, n, hn⟩
          · exact Or.inl h2
          · exact Or.inr ⟨h2, n, .arg hs hn⟩
theorem fromSympyCacheList_outcome : ∀ (ss : List SExpr) (cache : Dict SExpr Expr), CacheOK cache →
    OutcomeList ss (fromSympyCacheList ss cache)
  | [], cache, hc => Or.inl ⟨[], cache, rfl, .nil, hc⟩
  | s :: ss, cache, hc => by
    unfold fromSympyCacheList
    have ih := fromSympyCache_outcome s cache hc
    have ihl := fun c hc => fromSympyCacheList_outcome ss c hc
    rcases ih with ⟨e, c, h, h1, h2⟩ | ⟨err, h, h1, h2⟩
    · rw [h]
      rcases ihl c h2 with ⟨es, c', h', h1', h2'⟩ | ⟨err, h', h1', h2'⟩
      · refine Or.inl ⟨e :: es, c', ?_, .cons h1 h1', h2'⟩
        show (do let r ← fromSympyCacheList ss c; pure (e :: r.1, r.2)) = _
        rw [h']; rfl
      · refine Or.inr ⟨err, ?_, ?_, ?_⟩
        · show (do let r ← fromSympyCacheList ss c; pure (e :: r.1, r.2)) = _
          rw [h']; rfl
        · intro es he
          cases he with
          | cons _ he => exact h1' _ he
        · rcases h2' with h2' | ⟨h2', t, ht, hn⟩
          · exact Or.inl h2'
          · exact Or.inr ⟨h2', t, by simp [ht], hn⟩
    · rw [h]
      refine Or.inr ⟨err, rfl, ?_, ?_⟩
      · intro es he
        cases he with
        | cons he _ => exact h1 _ he
      · rcases h2 with h2 | ⟨h2, hn⟩
        · exact Or.inl h2
        · exact Or.inr ⟨h2, s, by simp, hn⟩
end

theorem fromSympy_cases (s : SExpr) :
    (∃ e, fromSympy s = .ok e ∧ Converts s e) ∨
    (∃ err, fromSympy s = .error err ∧ (∀ e, ¬ Converts s e) ∧
      (err = .notImplementedError ∨ err = .typeError ∧ ∃ n, SSub s (.cls n))) := by
  unfold fromSympy
  rcases fromSympyCache_outcome s Dict.empty (by intro s e h; simp at h) with
    ⟨e, c, h, h1, _⟩ | ⟨err, h, h1⟩
  · rw [h]; exact Or.inl ⟨e, rfl, h1⟩
  · rw [h]; exact Or.inr ⟨err, rfl, h1⟩

/-! ### Matrices from SymPy -/

theorem convertsAll_snoc {ss : List SExpr} {es : List Expr} {s : SExpr} {e : Expr} :
    ConvertsAll ss es → Converts s e → ConvertsAll (ss ++ [s]) (es ++ [e])
  | .nil, h => .cons h .nil
  | .cons h1 h2, h => .cons h1 (convertsAll_snoc h2 h)

theorem convertsAll_length {ss : List SExpr} {es : List Expr} :
    ConvertsAll ss es → ss.length = es.length
  | .nil => rfl
  | .cons _ h2 => by rw [List.length_cons, List.length_cons, convertsAll_length h2]

theorem fromSympyMatrixLoop_spec : ∀ (dok : List ((Nat × Nat) × SExpr)) (em : Dict (Nat × Nat) Nat)
    (els : List SExpr) (es ds : List Expr), els.length = es.length → StoreOK es em →
    (dok.map Prod.fst).Nodup → (∀ k ∈ dok.map Prod.fst, em.get? k = none) →
    ConvertsAll (dok.map Prod.snd) ds →
    ∃ em', fromSympyMatrixLoop els.length dok (em, els) = (em', els ++ dok.map Prod.snd) ∧
      StoreOK (es ++ ds) em' ∧
      (∀ k v, (k, v) ∈ dok → ∃ e, Converts v e ∧ entry (es ++ ds) em' k = some e) ∧
      (∀ k, k ∉ dok.map Prod.fst → entry (es ++ ds) em' k = entry es em k)
  | [], em, els, es, ds, hl, hs, _, _, hc => by
    cases hc
    exact ⟨em, by simp [fromSympyMatrixLoop], by simpa using hs, by simp, by simp⟩
  | (k, v) :: dok, em, els, es, ds, hl, hs, hnd, hfresh, hc => by
    cases hc with
    | @cons _ _ d ds h1 h2 =>
    simp only [List.map_cons, List.nodup_cons] at hnd
    have hk := hfresh k (by simp)
    obtain ⟨hs', hent⟩ := hs.push hk d
    obtain ⟨em', e1, e2, e3, e4⟩ := fromSympyMatrixLoop_spec dok (em.set k es.length) (els ++ [v])
      (es ++ [d]) ds (by simp [hl]) hs' hnd.2 (by
        intro k' hk'
        rw [Dict.get?_set_ne _ _ (by rintro rfl; exact hnd.1 hk')]
        exact hfresh k' (List.mem_cons_of_mem _ hk')) h2
    refine ⟨em', ?_, ?_, ?_, ?_⟩
    · unfold fromSympyMatrixLoop
      rw [List.length_append, List.length_singleton] at e1
      rw [hl] at e1 ⊢
      rw [e1]; simp
    · simpa using e2
    · intro k' v' hm
      rcases List.mem_cons.1 hm with hm | hm
      · cases hm
        refine ⟨d, h1, ?_⟩
        have := e4 k hnd.1
        rw [hent k, if_pos rfl] at this
        simpa using this
      · obtain ⟨e, he, he'⟩ := e3 k' v' hm
        exact ⟨e, he, by simpa using he'⟩
    · intro k' hk'
      simp only [List.map_cons, List.mem_cons, not_or] at hk'
      have := e4 k' hk'.2
      rw [hent k', if_neg (fun h => hk'.1 h.symm)] at this
      simpa using this

theorem mem_dok_iff {sm : SMat} {dok : List ((Nat × Nat) × SExpr)} (hd : IsDok sm dok) (i j : Nat) :
    (i, j) ∈ dok.map Prod.fst ↔ i < sm.rows ∧ j < sm.cols ∧ sm.get i j ≠ .int 0 := by
  constructor
  · intro h
    obtain ⟨⟨k, v⟩, hm, rfl⟩ := List.mem_map.1 h
    obtain ⟨h1, h2, rfl, h3⟩ := (hd.mem i j v).1 hm
    exact ⟨h1, h2, h3⟩
  · rintro ⟨h1, h2, h3⟩
    exact List.mem_map.2 ⟨_, (hd.mem i j _).2 ⟨h1, h2, rfl, h3⟩, rfl⟩

theorem fromSympyMatrixLoop_els : ∀ (dok : List ((Nat × Nat) × SExpr)) (n : Nat)
    (em : Dict (Nat × Nat) Nat) (els : List SExpr),
    (fromSympyMatrixLoop n dok (em, els)).2 = els ++ dok.map Prod.snd
  | [], _, _, els => by simp [fromSympyMatrixLoop]
  | (k, v) :: dok, n, em, els => by
    unfold fromSympyMatrixLoop
    rw [fromSympyMatrixLoop_els dok]; simp

/-- The matrix that `from_sympy_matrix` returns. -/
theorem fromSympyMatrix_wf {L : SymPyLib} (ht : ∀ l, L.tuple l = .ok (.app .tuple l)) {sm : SMat}
    {dok : List ((Nat × Nat) × SExpr)} (hd : IsDok sm dok) {m : Mat}
    (h : fromSympyMatrix L sm.rows sm.cols dok = .ok m) :
    MatWF m ∧ m.nrows = sm.rows ∧ m.ncols = sm.cols ∧
    ∀ i j, i < sm.rows → j < sm.cols → Converts (sm.get i j) ((m.entry i j).getD zero) := by
  unfold fromSympyMatrix at h
  cases hl : fromSympyMatrixLoop 0 dok (Dict.empty, []) with
  | mk em els =>
  rw [hl] at h
  simp only [ht] at h
  rcases fromSympy_cases (.app .tuple els) with ⟨e, he, hc⟩ | ⟨err, he, _⟩
  · rw [show (do let t ← (Except.ok (SExpr.app .tuple els) : PyM SExpr)
                 let e ← fromSympy t
                 pure (Mat.mk' sm.rows sm.cols e.args em) : PyM Mat) =
        (do let e ← fromSympy (.app .tuple els)
            pure (Mat.mk' sm.rows sm.cols e.args em)) from rfl, he] at h
    obtain rfl := Except.ok.inj h
    obtain ⟨hne, es, hes, hb⟩ := converts_app_args hc
    have hels : els = dok.map Prod.snd := by
      have := fromSympyMatrixLoop_els dok 0 Dict.empty []
      rw [hl] at this; simpa using this
    rw [hels] at hes
    obtain ⟨em', e1, e2, e3, e4⟩ := fromSympyMatrixLoop_spec dok Dict.empty [] [] es rfl
      StoreOK.empty hd.nodup (by simp) hes
    rw [show ([] : List SExpr).length = 0 from rfl, hl] at e1
    obtain ⟨rfl, _⟩ := Prod.mk.inj e1
    obtain rfl := Except.ok.inj hb
    simp only [List.nil_append] at e2 e3 e4
    have hargs : Expr.args (listH.call es) = es := rfl
    rw [hargs]
    refine ⟨mk'_wf e2 ?_, rfl, rfl, ?_⟩
    · intro i j hs
      by_cases hm : (i, j) ∈ dok.map Prod.fst
      · obtain ⟨h1, h2, _⟩ := (mem_dok_iff hd i j).1 hm
        exact ⟨h1, h2⟩
      · rw [e4 _ hm] at hs
        simp [entry] at hs
    · intro i j hi hj
      show Converts _ ((entry es em (i, j)).getD zero)
      by_cases hz : sm.get i j = .int 0
      · have hm : (i, j) ∉ dok.map Prod.fst := fun h => ((mem_dok_iff hd i j).1 h).2.2 hz
        rw [e4 _ hm, hz]
        exact .int
      · obtain ⟨e, he, he'⟩ := e3 (i, j) _ ((hd.mem i j _).2 ⟨hi, hj, rfl, hz⟩)
        rw [he']; exact he
  · rw [show (do let t ← (Except.ok (SExpr.app .tuple els) : PyM SExpr)
                 let e ← fromSympy t
                 pure (Mat.mk' sm.rows sm.cols e.args em) : PyM Mat) =
        (do let e ← fromSympy (.app .tuple els)
            pure (Mat.mk' sm.rows sm.cols e.args em)) from rfl, he] at h
    cases h

end Verif
