import Verif.Props.Compiled
import Verif.Props.RealRules
import Verif.Lemmas.Mixed

/-!
# C61: the compiled derivative is the derivative of the compiled function
-/

set_option exponentiation.threshold 2000

namespace Verif.Props
open Spec Expr Mixed

/-- What the derivative is built of. -/
theorem derives_closed {x : Expr} (Q R : Expr → Prop) (h0 : R zero) (h1 : R one)
    (hsum : ∀ ts, ts ≠ [] → (∀ t ∈ ts, R t) → R (.node (addH :: ts)))
    (hprod : ∀ ts, ts ≠ [] → (∀ t ∈ ts, R t) → R (.node (mulH :: ts)))
    (hargs : ∀ h args, Q (.node (h :: args)) → h ≠ listH ∧ ∀ a ∈ args, Q a)
    (hQR : ∀ t, Q t → R t) (hsin : ∀ a, Q (.node [sinH, a]) → R (cos a))
    (hcos : ∀ a, Q (.node [cosH, a]) → R (mul negone (sin a)))
    (hpow : ∀ a b, Q (.node [powH, a, b]) → R (mul b (pow a (add b negone))))
    (e d : Expr) (hd : Derives simplecasTable x e d) : Q e → R d := by
  induction e using Tree.induction generalizing d with
  | h e ih =>
  intro hQ
  by_cases hl : e.children = []
  · rcases (derives_leaf hl).1 hd with ⟨_, rfl⟩ | ⟨_, rfl⟩
    · exact h1
    · exact h0
  · obtain ⟨h, args, rfl⟩ : ∃ h args, e = .node (h :: args) := by
      cases e with
      | atom b => exact absurd rfl hl
      | node cs =>
        cases cs with
        | nil => exact absurd rfl hl
        | cons h args => exact ⟨h, args, rfl⟩
    obtain ⟨hne, hQa⟩ := hargs h args hQ
    obtain ⟨ds, hds, hcase⟩ := derives_node.1 hd
    have hRd : ∀ d ∈ ds, R d := by
      intro d hd
      obtain ⟨i, hi, hdi⟩ := List.mem_iff_getElem.1 hd
      have hf := derivesAll_forall₂.1 hds
      have hlen := hf.length_eq
      have := (List.forall₂_iff_get.1 hf).2 i (by omega) hi
      rw [List.get_eq_getElem, List.get_eq_getElem, hdi] at this
      have hm : args[i]'(by omega) ∈ args := List.getElem_mem _
      exact ih _ (List.mem_cons_of_mem _ hm) _ this (hQa _ hm)
    have hRq : ∀ q ∈ simplecasTable.nonzero ds, R q.1 := fun q hq =>
      hRd _ (List.fst_mem_of_mem_zipIdx (List.mem_filter.1 hq).1)
    have htotal : ∀ ts, (∀ t ∈ ts, R t) → R (simplecasTable.total ts) := by
      intro ts hts
      match ts, hts with
      | [], _ => exact h0
      | [t], h => exact h t List.mem_cons_self
      | a :: b :: ts, h => exact hsum _ (by simp) h
    rcases hcase with ⟨hdist, rfl⟩ | ⟨_, rfl, rfl⟩ | ⟨_, _, rfl, rfl⟩ | ⟨_, hadd, hmul, ts, hts, rfl⟩
    · exact absurd (by simpa [DiffTable.Distributive, simplecasTable] using hdist) hne
    · apply htotal
      intro t ht
      obtain ⟨q, hq, rfl⟩ := List.mem_map.1 ht
      exact hRq q hq
    · apply htotal
      intro t ht
      obtain ⟨q, hq, rfl⟩ := List.mem_map.1 ht
      have hlen := (derivesAll_forall₂.1 hds).length_eq
      have hpos : args ≠ [] := by
        rintro rfl
        obtain rfl : ds = [] := by simpa using hlen.symm
        cases hq
      refine hprod _ (by simpa using hpos) ?_
      intro u hu
      rcases List.mem_or_eq_of_mem_set hu with hu | rfl
      · exact hQR _ (hQa u hu)
      · exact hRq q hq
    · apply htotal
      intro t ht
      obtain ⟨i, hi, hti⟩ := List.mem_iff_getElem.1 ht
      have hlen := hts.length_eq
      have hct := (List.forall₂_iff_get.1 hts).2 i (by omega) hi
      rw [List.get_eq_getElem, List.get_eq_getElem, hti] at hct
      obtain ⟨g, hg1, _, hg⟩ := chainTerm_simplecas hct
      have hq := hRq _ (List.getElem_mem (l := simplecasTable.nonzero ds) (n := i) (by omega))
      have hRg : R g := by
        rcases hg with ⟨rfl, a, rfl, rfl⟩ | ⟨rfl, a, rfl, rfl⟩ | ⟨rfl, a, b, rfl, rfl⟩
        · exact hsin a hQ
        · exact hcos a hQ
        · exact hpow a b hQ
      rw [hg1]
      split
      · exact hRg
      · refine hprod _ (by simp) ?_
        intro u hu
        rcases List.mem_pair.1 hu with rfl | rfl
        · exact hRg
        · exact hq

theorem supported_int (S : List Expr) (n : Int) (h : |n| < 2 ^ 1024 - 2 ^ 970) :
    Supported S (integer n) := (supported_leaf rfl).2 (Or.inr ⟨n, rfl, h⟩)

/-- **C61, compilability.**  The derivative of an expression that can be compiled can be compiled,
with the same parameters. -/
theorem C61_compilable (S : List Expr) (e d x : Expr) (hs : Supported S e)
    (hd : e.diff x = .ok d) : Supported S d := by
  have hsum : ∀ h, IsAssocHead h → ∀ ts, ts ≠ [] → (∀ t ∈ ts, Supported S t) →
      Supported S (.node (h :: ts)) := by
    intro h hh ts hne hts
    exact supported_node.2 ⟨Or.inl ⟨hh, List.length_pos_of_ne_nil hne⟩, hts⟩
  have hneg : Supported S negone := supported_int S (-1) (by norm_num)
  refine derives_closed (Supported S) (Supported S) (supported_int S 0 (by norm_num))
    (supported_int S 1 (by norm_num)) (hsum _ (Or.inl rfl)) (hsum _ (Or.inr rfl)) ?_ (fun _ h => h)
    ?_ ?_ ?_ e d ((C52_diff_exact _ _ C52_builtin e x d).1 hd) hs
  · intro h args hq
    obtain ⟨h1, h2⟩ := supported_node.1 hq
    refine ⟨?_, h2⟩
    rintro rfl
    rcases h1 with ⟨h | h, _⟩ | ⟨h, _⟩ | ⟨h | h, _⟩ <;> exact absurd h (by decide)
  · intro a hq
    exact supported_node.2 ⟨Or.inr (Or.inr ⟨Or.inr rfl, rfl⟩), (supported_node.1 hq).2⟩
  · intro a hq
    refine hsum mulH (Or.inr rfl) _ (by simp) ?_
    intro u hu
    rcases List.mem_pair.1 hu with rfl | rfl
    · exact hneg
    · exact supported_node.2 ⟨Or.inr (Or.inr ⟨Or.inl rfl, rfl⟩), (supported_node.1 hq).2⟩
  · intro a b hq
    obtain ⟨_, h2⟩ := supported_node.1 hq
    have ha := h2 a (by simp)
    have hb := h2 b (by simp)
    refine hsum mulH (Or.inr rfl) _ (by simp) ?_
    intro u hu
    rcases List.mem_pair.1 hu with rfl | rfl
    · exact hb
    · refine supported_node.2 ⟨Or.inr (Or.inl ⟨rfl, rfl⟩), ?_⟩
      intro u hu
      rcases List.mem_pair.1 hu with rfl | rfl
      · exact ha
      · refine hsum addH (Or.inl rfl) _ (by simp) ?_
        intro u hu
        rcases List.mem_pair.1 hu with rfl | rfl
        · exact hb
        · exact hneg

theorem exact_small (n : Int) (h : |n| ≤ 2 ^ 53) : exactFloats.ofInt n = .ok (n : ℝ) := by
  obtain ⟨s, b, h1, h2, _, h4⟩ := C45_exact n h
  have hb : doubleBits n = some b := by
    simp only [doubleToHex] at h1
    cases hd : doubleBits n with
    | none => rw [hd] at h1; cases h1
    | some b' =>
      rw [hd] at h1
      obtain rfl := Except.ok.inj h1
      rw [hexValue_pyHex] at h2
      exact h2
  simp only [exactFloats, hb, h4, Option.getD_some]
  norm_num

/-- The environment of a call. -/
theorem env_set {S : List Expr} (hn : S.Nodup) {vs : List ℝ} (hlen : vs.length = S.length) {k : Nat}
    {x : Expr} (hk : S[k]? = some x) (t : ℝ) (u : Expr) :
    ((Dict.ofPairs (S.zip vs)).set x t).get? u = lastAssoc u (S.zip (vs.set k t)) := by
  rw [Dict.get?_set, Dict.get?_ofPairs]
  have hklt : k < S.length := (List.getElem?_eq_some_iff.1 hk).1
  by_cases hu : u ∈ S
  · obtain ⟨i, hi⟩ := List.getElem?_of_mem hu
    rw [lastAssoc_getElem hn (vs.set k t) (by simp [hlen]) hi,
      lastAssoc_getElem hn vs hlen.symm hi]
    by_cases hxu : x = u
    · subst hxu
      have : i = k := by
        have h1 := (List.getElem?_eq_some_iff.1 hi)
        have h2 := (List.getElem?_eq_some_iff.1 hk)
        obtain ⟨h1a, h1b⟩ := h1
        obtain ⟨h2a, h2b⟩ := h2
        exact (hn.getElem_inj_iff).1 (h1b.trans h2b.symm)
      subst this
      rw [if_pos rfl, List.getElem?_set_self (by omega)]
    · rw [if_neg hxu, List.getElem?_set_ne]
      rintro rfl
      rw [hk] at hi
      exact hxu (Option.some.inj hi)
  · rw [lastAssoc_not_mem _ _ _ hu, lastAssoc_not_mem _ _ _ hu, if_neg]
    rintro rfl
    exact hu (List.mem_of_getElem? hk)

theorem definedAt_iff {S : List Expr} {vs : List ℝ} {e : Expr} {v : ℝ} :
    e.evalF64 exactFloats (some (Dict.ofPairs (S.zip vs))) = .ok v ↔
      evalTree (meaning (evalF64 exactFloats) (fun t => lastAssoc t (S.zip vs))) e = .ok v := by
  rw [evalF64_ok_iff _ _ _ (keys_ofPairs_nodup _)]
  have hget : (Dict.ofPairs (S.zip vs)).get? = fun t => lastAssoc t (S.zip vs) := by
    funext t; exact Dict.get?_ofPairs _ _
  rw [hget]

theorem forall₂_floats {A : IRArith ℝ} (vs : List ℝ) :
    List.Forall₂ (IsDouble A) (vs.map CallArg.float) vs := by
  induction vs with
  | nil => exact .nil
  | cons v vs ih => exact .cons (Or.inl rfl) ih

/-- The machine's values of the derivative. -/
theorem ir_derivative (S : List Expr) (hn : S.Nodup) (hS : Symbols S) (e d x : Expr)
    (hs : Supported S e) (hsd : Supported S d) (k : Nat) (hk : S[k]? = some x)
    (hd : e.diff x = .ok d) (vs : List ℝ) (hlen : vs.length = S.length) (G : ℝ → ℝ) (v' : ℝ)
    (hG1 : ∀ t, evalTree (irMeaning exactMachine S (vs.set k t)) e = .ok (G t))
    (hv1 : evalTree (irMeaning exactMachine S vs) d = .ok v')
    (he : DefinedAt S vs e) (hde : DefinedAt S vs d) (t₀ : ℝ) (ht₀ : vs[k]? = some t₀) :
    HasDerivWithinAt G v' {t | DefinedAt S (vs.set k t) e} t₀ := by
  obtain ⟨w, hw⟩ := he
  obtain ⟨w', hw'⟩ := hde
  obtain ⟨name, rfl⟩ := hS x (List.mem_of_getElem? hk)
  have hset : vs.set k t₀ = vs := by
    obtain ⟨h1, h2⟩ := List.getElem?_eq_some_iff.1 ht₀
    rw [← h2]; simp
  have hsum : ∀ e, Supported S e → ∀ args, ArgSub e (.node (addH :: args)) → 1 ≤ args.length := by
    intro e hs args ht
    rcases hs.heads addH args ht with ⟨_, h⟩ | ⟨h, _⟩ | ⟨h | h, _⟩
    · exact h
    · exact absurd h.symm heads_distinct.2.1
    · exact absurd h.symm heads_distinct.2.2.2.1
    · exact absurd h.symm heads_distinct.2.2.2.2.2.2.1
  have htr : ∀ e, Supported S e → ∀ us : List ℝ, us.length = S.length → ∀ v,
      evalTree (meaning (evalF64 exactFloats) (fun t => lastAssoc t (S.zip us))) e = .ok v →
      evalTree (irMeaning exactMachine S us) e = .ok v := fun e hs us hl v hv =>
    eval_transfer exact_same (fun _ _ => rfl) e hs (hsum e hs) hl.symm v hv
  have hev : ∀ e t v, evAt (evalF64 exactFloats) (Dict.ofPairs (S.zip vs)) (symbol name) e t = .ok v ↔
      evalTree (meaning (evalF64 exactFloats) (fun u => lastAssoc u (S.zip (vs.set k t)))) e =
        .ok v := by
    intro e t v
    rw [evAt_iff]
    unfold vEval
    have : ((Dict.ofPairs (S.zip vs)).set (symbol name) t).get? =
        fun u => lastAssoc u (S.zip (vs.set k t)) := by
      funext u; exact env_set hn hlen hk t u
    rw [this]
  have hright : RightRules simplecasTable (evalF64 exactFloats) (Dict.ofPairs (S.zip vs))
      (symbol name) := by
    refine builtin_right exactFloats.ofInt ?_ ?_ ?_ _ ⟨keys_ofPairs_nodup _, fun n => ?_⟩ _ ?_
    · simpa using exact_small 0 (by norm_num)
    · simpa using exact_small 1 (by norm_num)
    · simpa using exact_small (-1) (by norm_num)
    · rw [Dict.get?_ofPairs]
      exact lastAssoc_not_mem _ _ _ (fun hm => by obtain ⟨_, h⟩ := hS _ hm; cases h)
    · simp [Ty.symbol, Ty.integer]
  rw [definedAt_iff] at hw hw'
  have hmain := C53_right_rules simplecasTable builtinDiff C52_builtin (evalF64 exactFloats)
    (Dict.ofPairs (S.zip vs)) (symbol name) rfl hright e d hd t₀ w w'
    ((hev _ _ _).2 (by rw [hset]; exact hw)) ((hev _ _ _).2 (by rw [hset]; exact hw')) G
    (fun t v hv => by
      have := htr e hs (vs.set k t) (by simp [hlen]) v ((hev e t v).1 hv)
      rw [hG1] at this
      exact Except.ok.inj this)
  have hvv := htr d hsd vs hlen w' hw'
  rw [hv1] at hvv
  obtain rfl := Except.ok.inj hvv
  have hdom : evDomain (evalF64 exactFloats) (Dict.ofPairs (S.zip vs)) (symbol name) e =
      {t | DefinedAt S (vs.set k t) e} := by
    ext t
    exact exists_congr fun v => (hev e t v).trans definedAt_iff.symm
  rw [hdom] at hmain
  exact hmain

/-- **C61.**  Let `d` be `e.diff(x)`, where `x` is the `k`-th parameter.  Without rounding, the
function compiled from `d` returns the derivative of the function compiled from `e` with respect
to its `k`-th argument, at every point at which no domain error occurs in `e` and `d`, within the
set of those in which none occurs in `e`. -/
theorem C61_derivative {P : Platform ℝ} (hP : PlatformOK P exactMachine) (S : List Expr)
    (hg : GoodParams S) (hS : Symbols S) (e d x : Expr) (hs : Supported S e) (k : Nat)
    (hk : S[k]? = some x) (hd : e.diff x = .ok d) (s : Proc ℝ) (f fd : Callable)
    (hf : Compiled P f S (.expr e) s) (hfd : Compiled P fd S (.expr d) s) (vs : List ℝ)
    (hlen : vs.length = S.length) :
    ∃ (G : ℝ → ℝ) (v' : ℝ),
      (∀ t, call P f ((vs.set k t).map .float) s = (.float (G t), s)) ∧
      call P fd (vs.map .float) s = (.float v', s) ∧
      (DefinedAt S vs e → DefinedAt S vs d → ∀ t₀, vs[k]? = some t₀ →
        HasDerivWithinAt G v' {t | DefinedAt S (vs.set k t) e} t₀) := by
  have hsd := C61_compilable S e d x hs hd
  have hcall : ∀ t, ∃ v, evalTree (irMeaning exactMachine S (vs.set k t)) e = .ok v ∧
      call P f ((vs.set k t).map .float) s = (.float v, s) := fun t =>
    compiled_call hP hg hs hf _ _ (forall₂_floats _) (by simp [hlen])
  choose G hG1 hG2 using hcall
  obtain ⟨v', hv1, hv2⟩ := compiled_call hP hg hsd hfd (vs.map .float) vs (forall₂_floats _)
    (by simp [hlen])
  refine ⟨G, v', hG2, hv2, ?_⟩
  intro he hde t₀ ht₀
  exact ir_derivative S (goodParams_nodup hg) hS e d x hs hsd k hk hd vs hlen G v' hG1 hv1 he hde t₀
    ht₀

/-- The derivative of a matrix that can be compiled can be compiled. -/
theorem diff_matrix_supported {S : List Expr} {m md : Mat} {x : Expr} (hm : MatHistory m)
    (hs : MatSupported S m) (hx : x ≠ zero) (hd : m.diff (.expr x) = .ok md) :
    MatHistory md ∧ MatSupported S md ∧ md.nrows = m.nrows ∧ md.ncols = m.ncols := by
  have hw := history_wf hm
  obtain ⟨h1, h2, h3⟩ :=
    (C33_diff_elementwise m hm builtinDiff (by decide +kernel) (by decide +kernel) _ hx).1 md hd
  have hmd : MatHistory md := .diff hm (by decide +kernel) hd
  refine ⟨hmd, ?_, h1, h2⟩
  intro i' j' d' hst hd'
  obtain ⟨hi', hj'⟩ := (history_wf hmd).inside i' j' hst
  have he' := hw.getItem i' j' (h1 ▸ hi') (h2 ▸ hj')
  obtain ⟨d'', hd1, hd2⟩ := h3 i' j' _ he'
  rw [hd'] at hd2
  obtain rfl := Except.ok.inj hd2
  exact C61_compilable S _ _ _ (entry_supported hm hs (h1 ▸ hi') (h2 ▸ hj') he') hd1

/-- **C61, matrices.**  Likewise for `M.diff(x)`: the array returned by the function compiled from
it holds the derivatives of the cells of the array returned by the function compiled from `M`. -/
theorem C61_matrix {P : Platform ℝ} (hP : PlatformOK P exactMachine) (S : List Expr)
    (hg : GoodParams S ["_out"]) (hS : Symbols S) (m md : Mat) (x : Expr) (hm : MatHistory m)
    (hs : MatSupported S m) (hsize : m.nrows * m.ncols ≤ 2 ^ 31) (k : Nat) (hk : S[k]? = some x)
    (hd : m.diff (.expr x) = .ok md) (s : Proc ℝ) (f fd : Callable)
    (hf : Compiled P f S (.matrix m) s) (hfd : Compiled P fd S (.matrix md) s) (vs : List ℝ)
    (hlen : vs.length = S.length) (i j : Nat) (hi : i < m.nrows) (hj : j < m.ncols) :
    ∃ (e d : Expr) (G : ℝ → ℝ) (v' : ℝ), m.getItem (.pair i j) = .ok e ∧
      md.getItem (.pair i j) = .ok d ∧ e.diff x = .ok d ∧
      (∀ t, ∃ id cells s', call P f ((vs.set k t).map .float) s = (.array id, s') ∧
        s'.arrays[id]? = some cells ∧ cells[i * m.ncols + j]? = some (G t)) ∧
      (∃ id cells s', call P fd (vs.map .float) s = (.array id, s') ∧
        s'.arrays[id]? = some cells ∧ cells[i * m.ncols + j]? = some v') ∧
      (DefinedAt S vs e → DefinedAt S vs d → ∀ t₀, vs[k]? = some t₀ →
        HasDerivWithinAt G v' {t | DefinedAt S (vs.set k t) e} t₀) := by
  obtain ⟨name, rfl⟩ := hS x (List.mem_of_getElem? hk)
  have hz : zero ∉ S := fun h => by obtain ⟨_, h⟩ := hS _ h; cases h
  have hx : (symbol name : Expr) ≠ zero := by intro h; cases h
  have hw := history_wf hm
  obtain ⟨h1, h2, h3⟩ := (C33_diff_elementwise m hm builtinDiff (by decide +kernel) (by decide +kernel) _ hx).1 md hd
  obtain ⟨hmd, hsmd, _, _⟩ := diff_matrix_supported hm hs hx hd
  have hcall : ∀ (m : Mat) (f : Callable), MatHistory m → MatSupported S m →
      m.nrows * m.ncols ≤ 2 ^ 31 → Compiled P f S (.matrix m) s → ∀ us : List ℝ,
      us.length = S.length → ∃ id cells s', call P f (us.map .float) s = (.array id, s') ∧
        s'.arrays[id]? = some cells ∧ ∀ i j : Nat, i < m.nrows → j < m.ncols →
          ∃ e v, m.getItem (.pair i j) = .ok e ∧
            evalTree (irMeaning exactMachine S us) e = .ok v ∧ cells[i * m.ncols + j]? = some v := by
    intro m f hm hs hsize hf us hus
    obtain ⟨W, s0, s1, g1, g2⟩ := hf
    obtain ⟨f', s1', g3, g4⟩ := C59_matrix hP S m hm hg hs hsize hz
      (by simpa [ctypesParams] using C59_parameter_limit g1) s0
    rw [g1] at g3
    simp only [Prod.mk.injEq, Except.ok.injEq] at g3
    obtain ⟨rfl, rfl⟩ := g3
    obtain ⟨id, cells, s', g5, g6, g7, g8, g9⟩ := g4 W s g2 (us.map .float) us (forall₂_floats _)
      (by simp [hus])
    refine ⟨id, cells, s', g5, g9 (fun _ => False) s' (.refl _) (fun h => h), ?_⟩
    intro i j hi hj
    obtain ⟨e, v, g10, g11, g12⟩ := g8 i j hi hj
    exact ⟨e, v, g10, evaluates_iff.1 g11, g12⟩
  obtain ⟨d, hd1, hd2⟩ := h3 i j _ (hw.getItem i j hi hj)
  have he := hw.getItem i j hi hj
  have hse := entry_supported hm hs hi hj he
  have hsd := C61_compilable S _ _ _ hse hd1
  have hall : ∀ t, ∃ v, evalTree (irMeaning exactMachine S (vs.set k t)) ((m.entry i j).getD zero) =
      .ok v ∧ ∃ id cells s', call P f ((vs.set k t).map .float) s = (.array id, s') ∧
        s'.arrays[id]? = some cells ∧ cells[i * m.ncols + j]? = some v := by
    intro t
    obtain ⟨id, cells, s', g1, g2, g3⟩ := hcall m f hm hs hsize hf (vs.set k t) (by simp [hlen])
    obtain ⟨e, v, g4, g5, g6⟩ := g3 i j hi hj
    rw [he] at g4
    obtain rfl := Except.ok.inj g4
    exact ⟨v, g5, id, cells, s', g1, g2, g6⟩
  choose G hG1 hG2 using hall
  obtain ⟨id, cells, s', g1, g2, g3⟩ := hcall md fd hmd hsmd (by rw [h1, h2]; exact hsize) hfd vs hlen
  obtain ⟨d', v', g4, g5, g6⟩ := g3 i j (h1.symm ▸ hi) (h2.symm ▸ hj)
  rw [hd2] at g4
  obtain rfl := Except.ok.inj g4
  refine ⟨_, d, G, v', he, hd2, hd1, hG2, ⟨id, cells, s', g1, g2, by rw [← h2]; exact g6⟩, ?_⟩
  intro hde hdd t₀ ht₀
  exact ir_derivative S (goodParams_nodup hg) hS _ d _ hse hsd k hk hd1 vs hlen G v' hG1 g5 hde hdd
    t₀ ht₀

/-! ### Everywhere -/

theorem exponent_bound {n : Int} (h1 : 1 ≤ n) (h2 : n ≤ 2 ^ 53) :
    |n| ≤ 2 ^ 53 ∧ |n| < 2 ^ 1024 - 2 ^ 970 := by
  rw [abs_of_nonneg (by omega)]
  exact ⟨h2, lt_of_le_of_lt h2 (by norm_num)⟩

theorem elementary_supported {S : List Expr} (hS : Symbols S) {e : Expr} (h : Elementary S e) :
    Supported S e := by
  induction h with
  | param ht =>
    obtain ⟨n, rfl⟩ := hS _ ht
    exact (supported_leaf rfl).2 (Or.inl ht)
  | int hn => exact supported_int S _ hn
  | add hne _ ih =>
    exact supported_node.2 ⟨Or.inl ⟨Or.inl rfl, List.length_pos_of_ne_nil hne⟩, ih⟩
  | mul hne _ ih =>
    exact supported_node.2 ⟨Or.inl ⟨Or.inr rfl, List.length_pos_of_ne_nil hne⟩, ih⟩
  | pow _ h1 h2 ih =>
    refine supported_node.2 ⟨Or.inr (Or.inl ⟨rfl, rfl⟩), ?_⟩
    intro u hu
    rcases List.mem_pair.1 hu with rfl | rfl
    · exact ih
    · exact supported_int S _ (exponent_bound h1 h2).2
  | sin _ ih =>
    refine supported_node.2 ⟨Or.inr (Or.inr ⟨Or.inl rfl, rfl⟩), ?_⟩
    intro u hu
    obtain rfl := List.mem_singleton.1 hu
    exact ih
  | cos _ ih =>
    refine supported_node.2 ⟨Or.inr (Or.inr ⟨Or.inr rfl, rfl⟩), ?_⟩
    intro u hu
    obtain rfl := List.mem_singleton.1 hu
    exact ih

theorem elementary_ok {S : List Expr} (hS : Symbols S) {e : Expr} (h : Elementary S e) {x : Expr}
    (hx : x ∈ S) : Ok x e := by
  induction h with
  | param ht =>
    obtain ⟨n, rfl⟩ := hS _ ht
    exact ok_leaf rfl
  | int hn => exact ok_leaf rfl
  | add _ _ ih => exact ok_add ih
  | mul _ _ ih => exact ok_mul ih
  | pow _ _ _ ih =>
    refine ok_pow ih ((derives_leaf rfl).2 (.inr ⟨?_, rfl⟩))
    rintro rfl
    obtain ⟨_, h⟩ := hS _ hx
    cases h
  | sin _ ih => exact ok_unary (by decide) (by decide) (by decide) rule_sin (by decide) ih
  | cos _ ih => exact ok_unary (by decide) (by decide) (by decide) rule_cos (by decide) ih

section
variable {S : List Expr} {vs : List ℝ}

/-- Has a value. -/
def HasVal (S : List Expr) (vs : List ℝ) (e : Expr) : Prop :=
  ∃ v, evalTree (meaning (evalF64 exactFloats) (fun t => lastAssoc t (S.zip vs))) e = .ok v

theorem definedAt_hasVal {e : Expr} : DefinedAt S vs e ↔ HasVal S vs e :=
  exists_congr fun _ => definedAt_iff

theorem hasVal_int (hS : Symbols S) (n : Int) (v : ℝ) (hn : exactFloats.ofInt n = .ok v) :
    evalTree (meaning (evalF64 exactFloats) (fun t => lastAssoc t (S.zip vs))) (integer n) =
      .ok v := by
  rw [f64_integer _ _ _ (lastAssoc_not_mem _ _ _ (fun hm => by obtain ⟨_, h⟩ := hS _ hm; cases h))]
  exact hn

theorem hasVal_args {args : List Expr} (h : ∀ a ∈ args, HasVal S vs a) :
    ∃ ws, args.mapM (evalTree (meaning (evalF64 exactFloats) (fun t => lastAssoc t (S.zip vs)))) =
      .ok ws := mapM_ok_of_forall _ _ h

theorem hasVal_sum {args : List Expr} (h : ∀ a ∈ args, HasVal S vs a) :
    HasVal S vs (.node (addH :: args)) := by
  obtain ⟨ws, hws⟩ := hasVal_args h
  unfold HasVal
  rw [f64_node, hws]
  exact ⟨ws.sum, rfl⟩

theorem hasVal_prod {args : List Expr} (h : ∀ a ∈ args, HasVal S vs a) :
    HasVal S vs (.node (mulH :: args)) := by
  obtain ⟨ws, hws⟩ := hasVal_args h
  unfold HasVal
  rw [f64_node, hws]
  exact ⟨ws.prod, rfl⟩

theorem hasVal_sin {a : Expr} (h : HasVal S vs a) : HasVal S vs (sin a) := by
  obtain ⟨w, hw⟩ := h
  refine ⟨Real.sin w, ?_⟩
  rw [show (sin a : Expr) = .node [sinH, a] from rfl, f64_node, List.mapM_cons, hw]
  rfl

theorem hasVal_cos {a : Expr} (h : HasVal S vs a) : HasVal S vs (cos a) := by
  obtain ⟨w, hw⟩ := h
  refine ⟨Real.cos w, ?_⟩
  rw [show (cos a : Expr) = .node [cosH, a] from rfl, f64_node, List.mapM_cons, hw]
  rfl

/-- A power whose exponent has a natural number as value. -/
theorem hasVal_pow {a b : Expr} (h : HasVal S vs a) (n : Nat)
    (hb : evalTree (meaning (evalF64 exactFloats) (fun t => lastAssoc t (S.zip vs))) b =
      .ok (n : ℝ)) : HasVal S vs (pow a b) := by
  obtain ⟨w, hw⟩ := h
  refine ⟨w ^ (n : ℝ), ?_⟩
  rw [show (pow a b : Expr) = .node [powH, a, b] from rfl, f64_node, List.mapM_cons, hw,
    List.mapM_cons, hb]
  show realOps.pow w (n : ℝ) = _
  simp only [realOps]
  rw [if_pos]
  exact ⟨fun _ => by positivity, fun _ => ⟨n, by simp⟩⟩

theorem elementary_defined (hS : Symbols S) (hlen : vs.length = S.length) {e : Expr}
    (h : Elementary S e) : HasVal S vs e := by
  induction h with
  | @param t ht =>
    obtain ⟨n, rfl⟩ := hS _ ht
    obtain ⟨v, hv⟩ := lastAssoc_of_mem _ S vs hlen.symm ht
    refine ⟨v, ?_⟩
    rw [evalTree_leaf _ rfl]
    simp only [meaning, hv]
    rfl
  | @int n hn =>
    obtain ⟨b, hb⟩ := doubleBits_some n hn
    exact ⟨(((doubleValue b).getD 0 : ℚ) : ℝ), hasVal_int hS n _ (by simp only [exactFloats, hb])⟩
  | add _ _ ih => exact hasVal_sum ih
  | mul _ _ ih => exact hasVal_prod ih
  | @pow a n _ h1 h2 ih =>
    refine hasVal_pow ih n.toNat ?_
    rw [hasVal_int hS n n (exact_small n (exponent_bound h1 h2).1)]
    congr 1
    have : ((n.toNat : ℤ) : ℝ) = (n : ℝ) := by rw [Int.toNat_of_nonneg (by omega)]
    rw [← this, Int.cast_natCast]
  | sin _ ih => exact hasVal_sin ih
  | cos _ ih => exact hasVal_cos ih

theorem elementary_args (hS : Symbols S) {h : Expr} {args : List Expr}
    (hq : Elementary S (.node (h :: args))) : ∀ a ∈ args, Elementary S a := by
  generalize ht : (.node (h :: args) : Expr) = t at hq
  cases hq with
  | param hm => obtain ⟨n, rfl⟩ := hS _ hm; cases ht
  | int => cases ht
  | add _ h2 => cases ht; exact h2
  | mul _ h2 => cases ht; exact h2
  | pow ha h1 h2 =>
    cases ht
    intro u hu
    rcases List.mem_pair.1 hu with rfl | rfl
    · exact ha
    · exact .int (exponent_bound h1 h2).2
  | sin ha =>
    cases ht
    exact fun u hu => by obtain rfl := List.mem_singleton.1 hu; exact ha
  | cos ha =>
    cases ht
    exact fun u hu => by obtain rfl := List.mem_singleton.1 hu; exact ha

theorem elementary_derivative_defined (hS : Symbols S) (hlen : vs.length = S.length) {e d x : Expr}
    (h : Elementary S e) (hd : Derives simplecasTable x e d) : HasVal S vs d := by
  have hneg : HasVal S vs negone := ⟨-1, hasVal_int hS (-1) (-1) (by simpa using exact_small (-1) (by norm_num))⟩
  refine derives_closed (Elementary S) (HasVal S vs)
    ⟨0, hasVal_int hS 0 0 (by simpa using exact_small 0 (by norm_num))⟩
    ⟨1, hasVal_int hS 1 1 (by simpa using exact_small 1 (by norm_num))⟩
    (fun ts _ => hasVal_sum) (fun ts _ => hasVal_prod) ?_ (fun t => elementary_defined hS hlen)
    ?_ ?_ ?_ e d hd h
  · intro h args hq
    refine ⟨?_, elementary_args hS hq⟩
    rintro rfl
    have := (supported_node.1 (elementary_supported hS hq)).1
    rcases this with ⟨h | h, _⟩ | ⟨h, _⟩ | ⟨h | h, _⟩ <;> exact absurd h (by decide)
  · intro a hq
    exact hasVal_cos (elementary_defined hS hlen (elementary_args hS hq a (by simp)))
  · intro a hq
    refine hasVal_prod ?_
    intro u hu
    rcases List.mem_pair.1 hu with rfl | rfl
    · exact hneg
    · exact hasVal_sin (elementary_defined hS hlen (elementary_args hS hq a (by simp)))
  · intro a b hq
    generalize ht : (.node [powH, a, b] : Expr) = t at hq
    cases hq with
    | param hm => obtain ⟨n, rfl⟩ := hS _ hm; cases ht
    | int => cases ht
    | add _ h2 => exact absurd (List.cons.inj (Tree.node.inj ht)).1 (by decide)
    | mul _ h2 => exact absurd (List.cons.inj (Tree.node.inj ht)).1 (by decide)
    | sin ha => exact absurd (List.cons.inj (Tree.node.inj ht)).1 (by decide)
    | cos ha => exact absurd (List.cons.inj (Tree.node.inj ht)).1 (by decide)
    | @pow a' n ha h1 h2 =>
      cases ht
      have hn := hasVal_int (vs := vs) hS n n (exact_small n (exponent_bound h1 h2).1)
      have hm1 : evalTree (meaning (evalF64 exactFloats) (fun t => lastAssoc t (S.zip vs))) negone =
          .ok (-1) := hasVal_int hS (-1) (-1) (by simpa using exact_small (-1) (by norm_num))
      refine hasVal_prod ?_
      intro u hu
      rcases List.mem_pair.1 hu with rfl | rfl
      · exact ⟨_, hn⟩
      · refine hasVal_pow (elementary_defined hS hlen ha) (n - 1).toNat ?_
        rw [show (add (integer n) negone : Expr) = .node [addH, integer n, negone] from rfl, f64_node,
          List.mapM_cons, hn, List.mapM_cons, hm1]
        have hc : (((n - 1).toNat : ℤ) : ℝ) = (n : ℝ) + -1 := by
          rw [Int.toNat_of_nonneg (by omega)]; push_cast; ring
        rw [Int.cast_natCast] at hc
        rw [hc]
        show Except.ok ([(n : ℝ), -1].sum) = _
        congr 1
        simp

end

/-- **C61, everywhere.**  For expressions built with `+`, `*`, `sin`, `cos` and literal exponents
`1, 2, …` the derivative exists, can be compiled, and at every point it is the derivative of the
compiled function (without rounding). -/
theorem C61_elementary {P : Platform ℝ} (hP : PlatformOK P exactMachine) (S : List Expr)
    (hg : GoodParams S) (hS : Symbols S) (e x : Expr) (he : Elementary S e) (k : Nat)
    (hk : S[k]? = some x) :
    ∃ d, e.diff x = .ok d ∧ Supported S d ∧
      ∀ (s : Proc ℝ) (f fd : Callable), Compiled P f S (.expr e) s → Compiled P fd S (.expr d) s →
      ∀ (vs : List ℝ) (t₀ : ℝ), vs.length = S.length → vs[k]? = some t₀ →
      ∃ (G : ℝ → ℝ) (v' : ℝ),
        (∀ t, call P f ((vs.set k t).map .float) s = (.float (G t), s)) ∧
        call P fd (vs.map .float) s = (.float v', s) ∧ HasDerivAt G v' t₀ := by
  obtain ⟨d, hd⟩ := elementary_ok hS he (List.mem_of_getElem? hk)
  have hs := elementary_supported hS he
  have hd' := (C52_diff_exact _ _ C52_builtin e x d).2 hd
  refine ⟨d, hd', C61_compilable S e d x hs hd', ?_⟩
  intro s f fd hf hfd vs t₀ hlen ht₀
  obtain ⟨G, v', h1, h2, h3⟩ := C61_derivative hP S hg hS e d x hs k hk hd' s f fd hf hfd vs hlen
  refine ⟨G, v', h1, h2, ?_⟩
  have := h3 (definedAt_hasVal.2 (elementary_defined hS hlen he))
    (definedAt_hasVal.2 (elementary_derivative_defined hS hlen he hd)) t₀ ht₀
  have huniv : {t | DefinedAt S (vs.set k t) e} = Set.univ := by
    ext t
    refine iff_of_true ?_ trivial
    exact definedAt_hasVal.2 (elementary_defined hS (by simp [hlen]) he)
  rw [huniv, hasDerivWithinAt_univ] at this
  exact this

/-! ### Satisfiable -/

theorem symbols_xy : Symbols [x, y] := by
  intro t ht
  simp only [List.mem_cons, List.not_mem_nil, or_false] at ht
  rcases ht with rfl | rfl <;> exact ⟨_, rfl⟩

/-- `x**3*sin(x*y) + 5`. -/
theorem sample_elementary :
    Elementary [x, y] (add (mul (pow x (integer 3)) (sin (mul x y))) (integer 5)) := by
  have hx : Elementary [x, y] x := .param (by simp)
  have hy : Elementary [x, y] y := .param (by simp)
  refine .add (by simp) ?_
  intro u hu
  rcases List.mem_pair.1 hu with rfl | rfl
  · refine .mul (by simp) ?_
    intro u hu
    rcases List.mem_pair.1 hu with rfl | rfl
    · exact .pow hx (by decide) (by norm_num)
    · refine .sin (.mul (by simp) ?_)
      intro u hu
      rcases List.mem_pair.1 hu with rfl | rfl
      · exact hx
      · exact hy
  · exact .int (by norm_num)

/-- `lambdify([x, y], x**3*sin(x*y) + 5)` and the same of its derivative with respect to `y`: two
compiled functions, in the same process, the second the derivative of the first. -/
example {P : Platform ℝ} (hP : PlatformOK P exactMachine) (a b : ℝ) :
    ∃ d f fd s G v, Expr.diff (add (mul (pow x (integer 3)) (sin (mul x y))) (integer 5)) y = .ok d ∧
      Compiled P f [x, y] (.expr (add (mul (pow x (integer 3)) (sin (mul x y))) (integer 5))) s ∧
      Compiled P fd [x, y] (.expr d) s ∧
      (∀ t, call P f [.float a, .float t] s = (.float (G t), s)) ∧
      call P fd [.float a, .float b] s = (.float v, s) ∧ HasDerivAt G v b := by
  obtain ⟨h1, _, _⟩ := goodParams_xy
  obtain ⟨d, hd, hsd, hall⟩ := C61_elementary hP [x, y] h1 symbols_xy _ y sample_elementary 1 rfl
  obtain ⟨f, s1, hf, _⟩ := compiled_exists hP h1 (elementary_supported symbols_xy sample_elementary)
    Proc.start
  obtain ⟨fd, s, hfd, hl⟩ := compiled_exists hP h1 hsd s1
  have hf := hf.later hl
  obtain ⟨G, v, g1, g2, g3⟩ := hall s f fd hf hfd [a, b] b rfl rfl
  exact ⟨d, f, fd, s, G, v, hd, hf, hfd, g1, g2, g3⟩

/-- `x**y` and its derivative `y*x**(y - 1)` with respect to `x`, at `(2, 3)`: the hypotheses of
`C61_derivative` hold, and the function compiled from the second is the derivative of the other. -/
example {P : Platform ℝ} (hP : PlatformOK P exactMachine) :
    ∃ f fd s G v', Compiled P f [x, y] (.expr (pow x y)) s ∧
      Compiled P fd [x, y] (.expr (mul y (pow x (add y negone)))) s ∧
      (∀ t, call P f [.float t, .float 3] s = (.float (G t), s)) ∧
      call P fd [.float 2, .float 3] s = (.float v', s) ∧
      HasDerivWithinAt G v' {t | DefinedAt [x, y] [t, 3] (pow x y)} 2 := by
  obtain ⟨h1, _, _⟩ := goodParams_xy
  have hs : Supported [x, y] (pow x y) := supported_of_check (by decide +kernel)
  have hd : Expr.diff (pow x y) x = .ok (mul y (pow x (add y negone))) := by decide +kernel
  have hsd := C61_compilable _ _ _ _ hs hd
  obtain ⟨f, s1, hf, _⟩ := compiled_exists hP h1 hs Proc.start
  obtain ⟨fd, s, hfd, hl⟩ := compiled_exists hP h1 hsd s1
  have hf := hf.later hl
  obtain ⟨G, v', g1, g2, g3⟩ := C61_derivative hP [x, y] h1 symbols_xy _ _ x hs 0 rfl hd s f fd hf hfd
    [2, 3] rfl
  have hx : HasVal [x, y] [2, 3] x := elementary_defined symbols_xy rfl (.param (by simp))
  have hyv : evalTree (meaning (evalF64 exactFloats) (fun t => lastAssoc t ([x, y].zip [2, 3]))) y =
      .ok ((3 : ℕ) : ℝ) := by
    rw [evalTree_leaf _ rfl]
    rfl
  have hm1 : evalTree (meaning (evalF64 exactFloats) (fun t => lastAssoc t ([x, y].zip [2, 3])))
      negone = .ok (-1) :=
    hasVal_int symbols_xy (-1) (-1) (by simpa using exact_small (-1) (by norm_num))
  refine ⟨f, fd, s, G, v', hf, hfd, g1, g2, g3 ?_ ?_ 2 rfl⟩
  · exact definedAt_hasVal.2 (hasVal_pow hx 3 hyv)
  · refine definedAt_hasVal.2 (hasVal_prod ?_)
    intro u hu
    rcases List.mem_pair.1 hu with rfl | rfl
    · exact ⟨_, hyv⟩
    · refine hasVal_pow hx 2 ?_
      rw [show (add y negone : Expr) = .node [addH, y, negone] from rfl, f64_node,
        List.mapM_cons, hyv, List.mapM_cons, hm1]
      show Except.ok ([((3 : ℕ) : ℝ), -1].sum) = _
      congr 1
      norm_num

/-- `Matrix([[x, 0], [2, x*y + 1]]).diff(x)`: both matrices can be compiled, and the cell `[1, 1]` of
the second array holds the derivative of that of the first. -/
example {P : Platform ℝ} (hP : PlatformOK P exactMachine) (a b : ℝ) :
    ∃ md f fd s G v', sampleMat.diff (.expr x) = .ok md ∧
      Compiled P f [x, y] (.matrix sampleMat) s ∧ Compiled P fd [x, y] (.matrix md) s ∧
      (∀ t, ∃ id cells s', call P f [.float t, .float b] s = (.array id, s') ∧
        s'.arrays[id]? = some cells ∧ cells[3]? = some (G t)) ∧
      (∃ id cells s', call P fd [.float a, .float b] s = (.array id, s') ∧
        s'.arrays[id]? = some cells ∧ cells[3]? = some v') ∧ HasDerivAt G v' a := by
  obtain ⟨hm, hs, hg, hz, hsize, _⟩ := sampleMat_compiles
  have hx : (x : Expr) ≠ zero := by decide
  have hyes : (sampleMat.diff (.expr x)).toOption.isSome := by decide +kernel
  obtain ⟨md, hmd⟩ : ∃ md, sampleMat.diff (.expr x) = .ok md := by
    cases h : sampleMat.diff (.expr x) with
    | ok md => exact ⟨md, rfl⟩
    | error e => rw [h] at hyes; cases hyes
  obtain ⟨q1, q2, q3, q4⟩ := diff_matrix_supported hm hs hx hmd
  obtain ⟨f, s1, hf, _⟩ := C59_matrix (P := P) hP [x, y] sampleMat hm hg hs hsize hz
    (Nat.le_trans (by decide) hP.maxArgs) Proc.start
  obtain ⟨fd, s, hfd, _⟩ := C59_matrix (P := P) hP [x, y] md q1 hg q2 (by rw [q3, q4]; exact hsize) hz
    (Nat.le_trans (by decide) hP.maxArgs) s1
  have hl : Later P (fun _ => False) s1 s := by
    have := Later.step (P := P) (W := fun _ => False) (Later.refl s1)
      (Event.lambdify ([x, y].map .expr) (.matrix md) s1)
    rw [hfd] at this
    exact this
  have hf : Compiled P f [x, y] (.matrix sampleMat) s := ⟨_, _, _, hf, hl⟩
  have hfd : Compiled P fd [x, y] (.matrix md) s := ⟨fun _ => False, _, _, hfd, .refl _⟩
  obtain ⟨e, d, G, v', g1, g2, g3, g4, g5, g6⟩ := C61_matrix hP [x, y] hg symbols_xy sampleMat md x hm
    hs hsize 0 rfl hmd s f fd hf hfd [a, b] rfl 1 1 (by decide) (by decide)
  have he : sampleMat.getItem (.pair (1 : Nat) (1 : Nat)) = .ok (add (mul x y) (integer 1)) := by
    decide +kernel
  rw [he] at g1
  obtain rfl := Except.ok.inj g1
  have hel : Elementary [x, y] (add (mul x y) (integer 1)) := by
    refine .add (by simp) ?_
    intro u hu
    rcases List.mem_pair.1 hu with rfl | rfl
    · refine .mul (by simp) ?_
      intro u hu
      rcases List.mem_pair.1 hu with rfl | rfl
      · exact .param (by simp)
      · exact .param (by simp)
    · exact .int (by norm_num)
  refine ⟨md, f, fd, s, G, v', hmd, hf, hfd, g4, g5, ?_⟩
  have := g6 (definedAt_hasVal.2 (elementary_defined symbols_xy rfl hel))
    (definedAt_hasVal.2 (elementary_derivative_defined symbols_xy rfl hel
      ((C52_diff_exact _ _ C52_builtin _ _ _).1 g3))) a rfl
  have huniv : {t | DefinedAt [x, y] ([a, b].set 0 t) (add (mul x y) (integer 1))} = Set.univ := by
    ext t
    exact iff_of_true (definedAt_hasVal.2 (elementary_defined symbols_xy rfl hel)) trivial
  rw [huniv, hasDerivWithinAt_univ] at this
  exact this

end Verif.Props
