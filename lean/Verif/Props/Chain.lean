import Verif.Lemmas.Chain

/-!
# C75: the chain rule
-/

namespace Verif.Props
open Spec Expr Mixed

theorem sum_indicator {K α : Type} [CommRing K] [DecidableEq α] (l : List α) (hn : l.Nodup) (t : α)
    (c : α → K) : (l.map fun k => if t = k then c k else 0).sum = if t ∈ l then c t else 0 := by
  induction l with
  | nil => simp
  | cons a l ih =>
    rw [List.nodup_cons] at hn
    rw [List.map_cons, List.sum_cons, ih hn.2]
    by_cases h : t = a
    · subst h
      simp [hn.1]
    · simp [h]

/-- **C75.** Let `r` be `e.xreplace({k1: g1, ..., kn: gn})`, where the `ki` are symbols that `e` does
not use as functions, and `y` any expression.  If `e` can be differentiated with respect to every `ki` and to
`y`, and every `gi` with respect to `y`, then so can `r`, and in exact real arithmetic the value of
`r.diff(y)` is the sum of those of `e.diff(ki)` times those of `gi.diff(y)` (and of `e.diff(y)`, unless
`y` is replaced itself), where the derivatives of `e` are evaluated at the values that the `gi` have -
whenever all these values exist.  (`hroot` is the proviso of C13.) -/
theorem C75_chain_rule (e y r : Expr) (ks gs : List Expr) (hks : Symbols ks) (hnd : ks.Nodup)
    (hlen : ks.length = gs.length) (hroot : e ∉ ks ∨ ks.length = 1)
    (hh : ∀ k ∈ ks, NotAHead k e)
    (hr : xreplace e (dictOf ks gs) = .ok r)
    (hek : ∀ k ∈ ks, ∃ d, e.diff k = .ok d) (hey : ∃ d, e.diff y = .ok d)
    (hgy : ∀ g ∈ gs, ∃ d, g.diff y = .ok d) :
    ∃ dr, r.diff y = .ok dr ∧
      ∀ values values' : Dict Expr ℝ, SymbolValues values → SymbolValues values' →
      (∀ k g, (k, g) ∈ ks.zip gs →
        ∃ w, g.evalF64 realOps (some values) = .ok w ∧ values'.get? k = some w) →
      (∀ t, t ∉ ks → values'.get? t = values.get? t) →
      ∀ (v b : ℝ) (a c : Expr → ℝ), dr.evalF64 realOps (some values) = .ok v →
      (∀ k ∈ ks, ∃ d, e.diff k = .ok d ∧ d.evalF64 realOps (some values') = .ok (a k)) →
      (∀ k g, (k, g) ∈ ks.zip gs →
        ∃ d, g.diff y = .ok d ∧ d.evalF64 realOps (some values) = .ok (c k)) →
      (y ∈ ks → b = 0) →
      (y ∉ ks → ∃ d, e.diff y = .ok d ∧ d.evalF64 realOps (some values') = .ok b) →
      v = (ks.map fun k => a k * c k).sum + b := by
  classical
  have hex : ∀ t u s, Expr.diff t s = .ok u ↔ Derives simplecasTable s t u := fun t u s =>
    C52_diff_exact simplecasTable builtinDiff C52_builtin t s u
  obtain ⟨h1, h2, h3⟩ := dictOf_spec ks gs hnd hlen
  have hmap : repsMap (dictOf ks gs) = fun t => lastAssoc t (ks.zip gs) := funext h2
  have hroot' : repsMap (dictOf ks gs) e = none ∨ (dictOf ks gs).items.length = 1 := by
    rw [h3, h2]
    exact hroot.imp (fun h => lastAssoc_not_mem _ _ _ h) id
  rw [C13_xreplace_subst_partial e _ h1 hroot', hmap] at hr
  obtain rfl := Except.ok.inj hr
  have hin : ∀ k, lastAssoc k (ks.zip gs) ≠ none → k ∈ ks := by
    intro k hk
    exact Classical.byContradiction fun hne => hk (lastAssoc_not_mem _ _ _ hne)
  have hσ : ∀ k, lastAssoc k (ks.zip gs) ≠ none → k.children = [] ∧
      ∀ h args, ArgSub e (.node (h :: args)) → ¬ OccursIn k h := by
    intro k hk
    have hm := hin k hk
    obtain ⟨n, rfl⟩ := hks k hm
    exact ⟨rfl, hh _ hm⟩
  have hzip : ∀ k g, lastAssoc k (ks.zip gs) = some g → (k, g) ∈ ks.zip gs := fun k g h =>
    lastAssoc_mem h
  obtain ⟨dr, hdr⟩ : Ok y (subst (fun t => lastAssoc t (ks.zip gs)) e) := by
    refine ok_subst _ e hσ ?_ ?_ ?_
    · intro k hk
      obtain ⟨d, hd⟩ := hek k (hin k hk)
      exact ⟨d, (hex _ _ _).1 hd⟩
    · obtain ⟨d, hd⟩ := hey
      exact ⟨d, (hex _ _ _).1 hd⟩
    · intro k g hg
      obtain ⟨d, hd⟩ := hgy g (List.of_mem_zip (hzip k g hg)).2
      exact ⟨d, (hex _ _ _).1 hd⟩
  refine ⟨dr, (hex _ _ _).2 hdr, ?_⟩
  intro values values' hv hv' hw hother v b a c hdv ha hc hb0 hb
  have hvalue : ∀ {vals : Dict Expr ℝ}, SymbolValues vals → ∀ {t : Expr} {u : ℝ},
      t.evalF64 realOps (some vals) = .ok u → ev realFns (given vals) t = u := by
    intro vals hvals t u h
    rw [C51_eval_f64 _ _ _ hvals.unique] at h
    exact ev_value hvals t h
  choose! D hD1 hD2 using ha
  obtain ⟨dy, hdy⟩ := hey
  have hL : ∀ q ∈ (ks.map fun k => (k, c k, D k)) ++ (if y ∈ ks then [] else [(y, 1, dy)]),
      Derives simplecasTable q.1 e q.2.2 := by
    intro q hq
    rcases List.mem_append.1 hq with hq | hq
    · obtain ⟨k, hk, rfl⟩ := List.mem_map.1 hq
      exact (hex _ _ _).1 (hD1 k hk)
    · split at hq
      · cases hq
      · obtain rfl := List.mem_singleton.1 hq
        exact (hex _ _ _).1 hdy
  have hsame : through (lift realFns) (vary (given values) y) (fun t => lastAssoc t (ks.zip gs)) =
      along (given values')
        (direction ((ks.map fun k => (k, c k, D k)) ++ (if y ∈ ks then [] else [(y, 1, dy)]))) := by
    funext t
    have hdir : direction ((ks.map fun k => (k, c k, D k)) ++ (if y ∈ ks then [] else [(y, 1, dy)])) t =
        (if t ∈ ks then c t else 0) + (if y ∈ ks then 0 else if t = y then 1 else 0) := by
      unfold direction
      rw [List.map_append, List.sum_append, List.map_map]
      congr 1
      · exact sum_indicator ks hnd t c
      · by_cases hyk : y ∈ ks <;> simp [hyk]
    unfold along through
    beta_reduce
    rw [hdir]
    by_cases ht : t ∈ ks
    · obtain ⟨g, hg⟩ := lastAssoc_of_mem t ks gs hlen ht
      have hm := hzip t g hg
      obtain ⟨w, hw1, hw2⟩ := hw t g hm
      obtain ⟨d, hd1, hd2⟩ := hc t g hm
      rw [hg]
      refine TrivSqZeroExt.ext ?_ ?_
      · change (ev (lift realFns) (vary (given values) y) g).fst = given values' t
        rw [ev_fst, hvalue hv hw1]
        unfold given
        rw [hw2]
        rfl
      · change (ev (lift realFns) (vary (given values) y) g).snd = _
        rw [ev_snd _ _ (given_ints hv) g ((hex _ _ _).1 hd1), hvalue hv hd2, snd_mk, if_pos ht]
        by_cases hyk : y ∈ ks
        · simp [hyk]
        · have : t ≠ y := fun h => hyk (h ▸ ht)
          simp [hyk, this]
    · rw [lastAssoc_not_mem _ _ _ ht, if_neg ht, zero_add]
      refine TrivSqZeroExt.ext ?_ ?_
      · change given values t = given values' t
        unfold given
        rw [hother t ht]
      · change (if t = y then (1 : ℝ) else 0) = if y ∈ ks then 0 else if t = y then 1 else 0
        by_cases hyk : y ∈ ks
        · have : t ≠ y := fun h => ht (h ▸ hyk)
          simp [hyk, this]
        · simp [hyk]
  have key := ev_total_derivative realFns (given values') (given_ints hv') e _ hL
  rw [← hsame, ← ev_subst _ _ _ _ hσ, ev_snd _ _ (given_ints hv) _ hdr, hvalue hv hdv,
    List.map_append, List.sum_append, List.map_map] at key
  rw [key]
  congr 1
  · refine congrArg List.sum (List.map_congr_left fun k hk => ?_)
    change c k * ev realFns (given values') (D k) = _
    rw [hvalue hv' (hD2 k hk), mul_comm]
  · by_cases hyk : y ∈ ks
    · simp [hyk, hb0 hyk]
    · obtain ⟨d, hd1, hd2⟩ := hb hyk
      rw [hdy] at hd1
      obtain rfl := Except.ok.inj hd1
      simp [hyk, hvalue hv' hd2]

/-- One symbol: `e.xreplace({x: g}).diff(x)` is `e.diff(x)`, taken at the value of `g`, times
`g.diff(x)`. -/
theorem C75_composition (e g r : Expr) (s : String) (hh : NotAHead (symbol s) e)
    (hr : xreplace e (dictOf [symbol s] [g]) = .ok r) (de dg : Expr)
    (hde : e.diff (symbol s) = .ok de) (hdg : g.diff (symbol s) = .ok dg) :
    ∃ dr, r.diff (symbol s) = .ok dr ∧
      ∀ values values' : Dict Expr ℝ, SymbolValues values → SymbolValues values' →
      ∀ w, g.evalF64 realOps (some values) = .ok w → values'.get? (symbol s) = some w →
      (∀ t, t ≠ symbol s → values'.get? t = values.get? t) →
      ∀ v a c : ℝ, dr.evalF64 realOps (some values) = .ok v →
      de.evalF64 realOps (some values') = .ok a → dg.evalF64 realOps (some values) = .ok c →
      v = a * c := by
  obtain ⟨dr, h1, h2⟩ := C75_chain_rule e (symbol s) r [symbol s] [g]
    (fun t ht => ⟨s, List.mem_singleton.1 ht⟩) (by simp) rfl (.inr rfl)
    (fun k hk => by obtain rfl := List.mem_singleton.1 hk; exact hh) hr
    (fun k hk => by obtain rfl := List.mem_singleton.1 hk; exact ⟨de, hde⟩) ⟨de, hde⟩
    (fun k hk => by obtain rfl := List.mem_singleton.1 hk; exact ⟨dg, hdg⟩)
  refine ⟨dr, h1, ?_⟩
  intro values values' hv hv' w hw hw' hother v a c hdv ha hc
  have := h2 values values' hv hv'
    (fun k g' hm => by
      obtain ⟨rfl, rfl⟩ := Prod.mk.inj (List.mem_singleton.1 hm)
      exact ⟨w, hw, hw'⟩)
    (fun t ht => hother t (fun h => ht (by simp [h]))) v 0 (fun _ => a) (fun _ => c) hdv
    (fun k hk => by
      obtain rfl := List.mem_singleton.1 hk
      exact ⟨de, hde, ha⟩)
    (fun k g' hm => by
      obtain ⟨rfl, rfl⟩ := Prod.mk.inj (List.mem_singleton.1 hm)
      exact ⟨dg, hdg, hc⟩)
    (fun _ => rfl) (fun h => absurd (by simp) h)
  simpa using this

theorem sample_notAHead : NotAHead x (mul x y) := by
  have key : ∀ t ∈ topologicalSort false [] (mul x y),
      t.children.head? = none ∨ t.children.head? = some mulH := by
    decide +kernel
  intro h args hs ho
  rcases key _ (((C05_topological_sort false _).1 _).2 hs) with h' | h'
  · cases h'
  · obtain rfl : h = _ := Option.some.inj h'
    have := occursIn_atom.1 ho
    cases this

/-- `x*y` with `x` replaced by `sin(y)`, differentiated with respect to `y`, at `y = 2`: all values
exist, and the rule holds. -/
example : ∃ r dr, xreplace (mul x y) (dictOf [x] [sin y]) = .ok r ∧ Expr.diff r y = .ok dr ∧
    ∃ v, dr.evalF64 realOps (some (Dict.ofPairs [(y, 2)])) = .ok v ∧
      v = ([(1 : ℝ), 2].prod * Real.cos 2) + [Real.sin 2, 1].prod := by
  have n1 : (Dict.ofPairs [(y, (2 : ℝ))]).keys.Nodup := by
    change [y].Nodup
    decide
  have n2 : (Dict.ofPairs [(x, Real.sin 2), (y, 2)]).keys.Nodup := by
    change [x, y].Nodup
    decide
  have hr : xreplace (mul x y) (dictOf [x] [sin y]) = .ok (mul (sin y) y) := by decide +kernel
  have hdr' : Expr.diff (mul (sin y) y) y = .ok (add (mul (cos y) y) (mul (sin y) one)) := by
    decide +kernel
  have hex : Expr.diff (mul x y) x = .ok (mul one y) := by decide +kernel
  have hey : Expr.diff (mul x y) y = .ok (mul x one) := by decide +kernel
  have hgy : Expr.diff (sin y) y = .ok (cos y) := by decide +kernel
  obtain ⟨dr, hdr, h⟩ := C75_chain_rule (mul x y) y _ [x] [sin y]
    (fun t ht => ⟨_, List.mem_singleton.1 ht⟩) (by simp) rfl (.inr rfl)
    (fun k hk => by obtain rfl := List.mem_singleton.1 hk; exact sample_notAHead) hr
    (fun k hk => by obtain rfl := List.mem_singleton.1 hk; exact ⟨_, hex⟩) ⟨_, hey⟩
    (fun k hk => by obtain rfl := List.mem_singleton.1 hk; exact ⟨_, hgy⟩)
  rw [hdr'] at hdr
  obtain rfl := Except.ok.inj hdr
  have e1 : Expr.evalF64 realOps (add (mul (cos y) y) (mul (sin y) one))
      (some (Dict.ofPairs [(y, (2 : ℝ))])) =
      .ok [[Real.cos 2, 2].prod, [Real.sin 2, ((1 : Int) : ℝ)].prod].sum := by
    rw [C51_eval_f64 _ _ _ n1]
    exact .sum (.cons (.product (.cons (.cosine (.given rfl rfl rfl) rfl)
      (.cons (.given rfl rfl rfl) .nil)) rfl) (.cons (.product (.cons (.sine (.given rfl rfl rfl) rfl)
      (.cons (.integer (fun v h => by cases h) rfl) .nil)) rfl) .nil)) rfl
  refine ⟨_, _, hr, hdr', _, e1, ?_⟩
  refine h (Dict.ofPairs [(y, 2)]) (Dict.ofPairs [(x, Real.sin 2), (y, 2)])
    ⟨n1, fun n => rfl⟩ ⟨n2, fun n => rfl⟩ ?_ ?_ _ [Real.sin 2, ((1 : Int) : ℝ)].prod
    (fun _ => [((1 : Int) : ℝ), 2].prod)
    (fun _ => Real.cos 2) e1 ?_ ?_ ?_ ?_ |>.trans (by simp)
  · intro k g hm
    obtain ⟨rfl, rfl⟩ := Prod.mk.inj (List.mem_singleton.1 hm)
    refine ⟨Real.sin 2, ?_, rfl⟩
    rw [C51_eval_f64 _ _ _ n1]
    exact .sine (.given rfl rfl rfl) rfl
  · intro t ht
    have hx : t ≠ x := fun h => ht (by simp [h])
    by_cases hy : t = y
    · subst hy; rfl
    · have g1 : (Dict.ofPairs [(x, Real.sin 2), (y, 2)]).get? t = lastAssoc t [(x, Real.sin 2), (y, 2)] :=
        Dict.get?_ofPairs _ _
      have g2 : (Dict.ofPairs [(y, (2 : ℝ))]).get? t = lastAssoc t [(y, 2)] := Dict.get?_ofPairs _ _
      rw [g1, g2]
      simp [lastAssoc, Ne.symm hx, Ne.symm hy]
  · intro k hk
    obtain rfl := List.mem_singleton.1 hk
    refine ⟨_, hex, ?_⟩
    rw [C51_eval_f64 _ _ _ n2]
    exact .product (.cons (.integer (fun v h => by cases h) rfl)
      (.cons (.given rfl rfl rfl) .nil)) rfl
  · intro k g hm
    obtain ⟨rfl, rfl⟩ := Prod.mk.inj (List.mem_singleton.1 hm)
    refine ⟨_, hgy, ?_⟩
    rw [C51_eval_f64 _ _ _ n1]
    exact .cosine (.given rfl rfl rfl) rfl
  · intro hy
    exact absurd (List.mem_singleton.1 hy) (by decide)
  · intro _
    refine ⟨_, hey, ?_⟩
    rw [C51_eval_f64 _ _ _ n2]
    exact .product (.cons (.given rfl rfl rfl)
      (.cons (.integer (fun v h => by cases h) rfl) .nil)) rfl

end Verif.Props
