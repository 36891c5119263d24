import Verif.Props.Binary64
import Verif.Props.CompiledNth
import Verif.Props.RealDiff

/-!
# C64: rounding errors of compiled derivatives
-/

set_option exponentiation.threshold 2000

namespace Verif.Props
open Spec Expr

theorem set_self {vs : List ℝ} {k : Nat} {t : ℝ} (h : vs[k]? = some t) : vs.set k t = vs := by
  obtain ⟨h1, h2⟩ := List.getElem?_eq_some_iff.1 h
  rw [← h2]; simp

theorem symbolValues_zip {S : List Expr} (hS : Symbols S) (xs : List ℝ) :
    SymbolValues (Dict.ofPairs (S.zip xs)) := by
  refine ⟨keys_ofPairs_nodup _, fun n => ?_⟩
  rw [Dict.get?_ofPairs]
  exact lastAssoc_not_mem _ _ _ (fun hm => by obtain ⟨_, h⟩ := hS _ hm; cases h)

theorem valueAt_iff {S : List Expr} (hn : S.Nodup) {xs : List ℝ} (hlen : xs.length = S.length) {k : Nat}
    {x : Expr} (hk : S[k]? = some x) (e : Expr) (t v : ℝ) :
    valueAt (Dict.ofPairs (S.zip xs)) x e t = .ok v ↔ exactly S (xs.set k t) e = .ok v := by
  unfold valueAt
  rw [evalF64_ok_iff _ _ _ (Dict.keys_set_nodup _ (keys_ofPairs_nodup _) _ _)]
  have : ((Dict.ofPairs (S.zip xs)).set x t).get? = fun u => lastAssoc u (S.zip (xs.set k t)) := by
    funext u; exact env_set hn hlen hk t u
  rw [this]

theorem exact_valueAt {S : List Expr} (hS : Symbols S) (hn : S.Nodup) {xs : List ℝ}
    (hlen : xs.length = S.length) {k : Nat} {x : Expr} (hk : S[k]? = some x) {e : Expr} {t v : ℝ}
    (h : ExactValue S (xs.set k t) e v) : valueAt (Dict.ofPairs (S.zip xs)) x e t = .ok v :=
  (valueAt_iff hn hlen hk e t v).2 (exactValue_exactly hS hn (by simp [hlen]) h)

/-- The exact value of a derivative is the derivative of the exact value. -/
theorem exact_derivative {S : List Expr} (hS : Symbols S) (hn : S.Nodup) {e d x : Expr} {k : Nat}
    (hk : S[k]? = some x) (n : Nat) (hd : e.diff x (n : Int) = .ok d) {xs : List ℝ}
    (hlen : xs.length = S.length) {t₀ : ℝ} (ht₀ : xs[k]? = some t₀) (G : ℝ → ℝ) (U : Set ℝ)
    (hU : IsOpen U) (ht : t₀ ∈ U) (hG : ∀ t ∈ U, ExactValue S (xs.set k t) e (G t))
    (hev : ∀ j ≤ n, ∀ dj, e.diff x (j : Int) = .ok dj → ∀ t ∈ U, ∃ v, ExactValue S (xs.set k t) dj v)
    {r : ℝ} (hr : ExactValue S xs d r) : iteratedDeriv n G t₀ = r := by
  obtain ⟨name, rfl⟩ := hS x (List.mem_of_getElem? hk)
  let V := Dict.ofPairs (S.zip xs)
  let F : ℝ → ℝ := fun t => match valueAt V (symbol name) e t with
    | .ok w => w
    | .error _ => 0
  have hF : Denotes V (symbol name) e F := by
    intro t w hw; simp only [F, hw]
  have hFG : F =ᶠ[nhds t₀] G := by
    filter_upwards [hU.mem_nhds ht] with t h
    exact hF t _ (exact_valueAt hS hn hlen hk (hG t h))
  rw [← hFG.iteratedDeriv_eq n]
  refine C25_nth_derivative V (symbolValues_zip hS xs) _ (by simp [Ty.symbol, Ty.integer]) e F hF U hU n
    ?_ d hd t₀ ht r (exact_valueAt hS hn hlen hk (by rw [set_self ht₀]; exact hr))
  intro j hj dj hdj t h
  obtain ⟨v, hv⟩ := hev j hj dj hdj t h
  exact ⟨v, exact_valueAt hS hn hlen hk hv⟩

theorem exact_unique {S : List Expr} (hS : Symbols S) (hn : S.Nodup) {xs : List ℝ}
    (hlen : xs.length = S.length) {e : Expr} {r r' : ℝ} (h : ExactValue S xs e r)
    (h' : ExactValue S xs e r') : r = r' :=
  Except.ok.inj ((exactValue_exactly hS hn hlen.symm h).symm.trans
    (exactValue_exactly hS hn hlen.symm h'))

/-- The same for the first derivative, near a point. -/
theorem exact_hasDerivAt {S : List Expr} (hS : Symbols S) (hn : S.Nodup) {e d x : Expr} {k : Nat}
    (hk : S[k]? = some x) (hd : e.diff x = .ok d) {xs : List ℝ} (hlen : xs.length = S.length) {t₀ : ℝ}
    (ht₀ : xs[k]? = some t₀) (G : ℝ → ℝ) (hG : ∀ᶠ t in nhds t₀, ExactValue S (xs.set k t) e (G t))
    {r : ℝ} (hr : ExactValue S xs d r) : HasDerivAt G r t₀ := by
  obtain ⟨name, rfl⟩ := hS x (List.mem_of_getElem? hk)
  let V := Dict.ofPairs (S.zip xs)
  let F : ℝ → ℝ := fun t => match valueAt V (symbol name) e t with
    | .ok w => w
    | .error _ => 0
  have hF : Denotes V (symbol name) e F := by
    intro t w hw; simp only [F, hw]
  have hFG : F =ᶠ[nhds t₀] G := by
    filter_upwards [hG] with t h
    exact hF t _ (exact_valueAt hS hn hlen hk h)
  refine HasDerivAt.congr_of_eventuallyEq ?_ hFG.symm
  refine C22_diff_is_derivative_at V (symbolValues_zip hS xs) _ (by simp [Ty.symbol, Ty.integer]) e d hd
    t₀ r ?_ (exact_valueAt hS hn hlen hk (by rw [set_self ht₀]; exact hr)) F hF
  filter_upwards [hG] with t h
  exact ⟨_, exact_valueAt hS hn hlen hk h⟩

section
variable {F : Type} {val : F → Option ℝ} {u small hi : ℝ}

/-- **C64.**  Let `d` be `e.diff(x)`, where `x` is the `k`-th parameter, and let `G` be the exact value
of `e` as a function of it, near the point `xs`.  If `d` has magnitude `M` and `D` roundings there and
nothing overflows, the number that the function compiled from `d` returns differs from the derivative
of `G` by at most `((1 + u)^D - 1)*M`. -/
theorem C64_derivative {P : Platform F} {A : IRArith F} (hP : PlatformOK P A)
    (hA : Accurate val u small hi A) (hu : 0 ≤ u) (hsm : 0 ≤ small) (S : List Expr)
    (hg : GoodParams S) (hS : Symbols S) (e d x : Expr) (k : Nat) (hk : S[k]? = some x)
    (hd : e.diff x = .ok d) (s : Proc F) (fd : Callable) (hfd : Compiled P fd S (.expr d) s)
    (args : List (CallArg F)) (vs : List F) (xs : List ℝ) (hv : List.Forall₂ (IsDouble A) args vs)
    (hx : List.Forall₂ (fun v x => val v = some x) vs xs) (hlen : args.length = S.length) (t₀ : ℝ)
    (ht₀ : xs[k]? = some t₀) (G : ℝ → ℝ)
    (hG : ∀ᶠ t in nhds t₀, ExactValue S (xs.set k t) e (G t)) (M : ℝ) (D : ℕ)
    (hb : ErrBound S xs u small hi d M D) :
    ∃ w z G', call P fd args s = (.float w, s) ∧ val w = some z ∧ HasDerivAt G G' t₀ ∧
      |z - G'| ≤ ((1 + u) ^ D - 1) * M := by
  obtain ⟨w, z, r, h1, h2, h3, _, h4⟩ := C62_lambdify hP hA hu hsm S hg hS d s fd hfd args vs xs hv hx
    hlen M D hb
  refine ⟨w, z, r, h1, h2, ?_, h4⟩
  have hlen' : xs.length = S.length := by rw [← hx.length_eq, ← hv.length_eq, hlen]
  exact exact_hasDerivAt hS (goodParams_nodup hg) hk hd hlen' ht₀ G hG h3

/-- **C64, matrices.**  Likewise for every cell of the array that the function compiled from `M.diff(x)`
returns. -/
theorem C64_matrix {P : Platform F} {A : IRArith F} (hP : PlatformOK P A)
    (hA : Accurate val u small hi A) (hu : 0 ≤ u) (hsm : 0 ≤ small) (S : List Expr)
    (hg : GoodParams S ["_out"]) (hS : Symbols S) (m md : Mat) (x : Expr) (hm : MatHistory m)
    (hs : MatSupported S m) (hsize : m.nrows * m.ncols ≤ 2 ^ 31) (k : Nat) (hk : S[k]? = some x)
    (hd : m.diff (.expr x) = .ok md) (s : Proc F) (fd : Callable)
    (hfd : Compiled P fd S (.matrix md) s) (args : List (CallArg F)) (vs : List F) (xs : List ℝ)
    (hv : List.Forall₂ (IsDouble A) args vs) (hx : List.Forall₂ (fun v x => val v = some x) vs xs)
    (hlen : args.length = S.length) (t₀ : ℝ) (ht₀ : xs[k]? = some t₀) :
    ∃ id cells s', call P fd args s = (.array id, s') ∧ s'.arrays[id]? = some cells ∧
      ∀ (i j : Nat) (e d : Expr) (G : ℝ → ℝ) (M : ℝ) (D : ℕ), i < m.nrows → j < m.ncols →
        m.getItem (.pair i j) = .ok e → md.getItem (.pair i j) = .ok d →
        (∀ᶠ t in nhds t₀, ExactValue S (xs.set k t) e (G t)) → ErrBound S xs u small hi d M D →
        ∃ w z G', cells[i * m.ncols + j]? = some w ∧ val w = some z ∧ HasDerivAt G G' t₀ ∧
          |z - G'| ≤ ((1 + u) ^ D - 1) * M := by
  have hx0 : x ≠ zero := by
    obtain ⟨name, rfl⟩ := hS x (List.mem_of_getElem? hk)
    intro h; cases h
  obtain ⟨h1, h2, h3⟩ :=
    (C33_diff_elementwise m hm builtinDiff (by decide +kernel) (by decide +kernel) _ hx0).1 md hd
  obtain ⟨hmd, hsmd, _, _⟩ := diff_matrix_supported hm hs hx0 hd
  obtain ⟨id, cells, s', g1, g2, g3⟩ := C62_matrix hP hA hu hsm S hg hS md hmd hsmd
    (by rw [h1, h2]; exact hsize) s fd hfd args vs xs hv hx hlen
  refine ⟨id, cells, s', g1, g2, ?_⟩
  intro i j e d G M D hi hj he hde hG hb
  obtain ⟨w, z, r, g4, g5, g6, _, g7⟩ := g3 i j d M D (h1.symm ▸ hi) (h2.symm ▸ hj) hde hb
  obtain ⟨d', hd1, hd2⟩ := h3 i j e he
  rw [hde] at hd2
  obtain rfl := Except.ok.inj hd2
  have hlen' : xs.length = S.length := by rw [← hx.length_eq, ← hv.length_eq, hlen]
  exact ⟨w, z, r, by rw [← h2]; exact g4, g5,
    exact_hasDerivAt hS (goodParams_nodup hg) hk hd1 hlen' ht₀ G hG g6, g7⟩

/-- **C64, higher derivatives.**  Likewise for `e.diff(x, n)` on an open set on which `e` and its
derivatives up to the `n`-th have values. -/
theorem C64_nth {P : Platform F} {A : IRArith F} (hP : PlatformOK P A)
    (hA : Accurate val u small hi A) (hu : 0 ≤ u) (hsm : 0 ≤ small) (S : List Expr)
    (hg : GoodParams S) (hS : Symbols S) (e d x : Expr) (k : Nat) (hk : S[k]? = some x) (n : Nat)
    (hd : e.diff x (n : Int) = .ok d) (s : Proc F) (fd : Callable)
    (hfd : Compiled P fd S (.expr d) s) (args : List (CallArg F)) (vs : List F) (xs : List ℝ)
    (hv : List.Forall₂ (IsDouble A) args vs) (hx : List.Forall₂ (fun v x => val v = some x) vs xs)
    (hlen : args.length = S.length) (t₀ : ℝ) (ht₀ : xs[k]? = some t₀) (G : ℝ → ℝ) (U : Set ℝ)
    (hU : IsOpen U) (ht : t₀ ∈ U) (hG : ∀ t ∈ U, ExactValue S (xs.set k t) e (G t))
    (hev : ∀ j ≤ n, ∀ dj, e.diff x (j : Int) = .ok dj → ∀ t ∈ U, ∃ v, ExactValue S (xs.set k t) dj v)
    (M : ℝ) (D : ℕ) (hb : ErrBound S xs u small hi d M D) :
    ∃ w z, call P fd args s = (.float w, s) ∧ val w = some z ∧
      |z - iteratedDeriv n G t₀| ≤ ((1 + u) ^ D - 1) * M := by
  obtain ⟨w, z, r, h1, h2, h3, _, h4⟩ := C62_lambdify hP hA hu hsm S hg hS d s fd hfd args vs xs hv hx
    hlen M D hb
  have hlen' : xs.length = S.length := by rw [← hx.length_eq, ← hv.length_eq, hlen]
  exact ⟨w, z, h1, h2, by
    rwa [exact_derivative hS (goodParams_nodup hg) hk n hd hlen' ht₀ G U hU ht hG hev h3]⟩
end

/-! ### The error is a multiple of the unit roundoff -/

theorem expo_smallInt {v : Int} {c : Expr} (h : Expo v c) (hv : 0 ≤ v) : SmallInt c v := by
  have hle : ∀ {v c}, Expo v c → v ≤ 2 ^ 53 := by
    intro v c h
    induction h with
    | lit _ h => exact h
    | pred _ ih => omega
  induction h with
  | lit h1 h2 => exact .lit (exponent_bound h1 h2).1
  | @pred v c h ih =>
    have := hle h
    rw [sub_eq_add_neg]
    refine .add (ih (by omega)) (.lit (by norm_num)) ?_
    rw [abs_of_nonneg (by omega)]
    omega

theorem tower_exact {S : List Expr} {N : Int} {xs : List ℝ} (hlen : xs.length = S.length) {m : Nat}
    {e : Expr} (h : Tower S N m e) : ∃ v, ExactValue S xs e v := by
  have hargs : ∀ args : List Expr, (∀ a ∈ args, ∃ v, ExactValue S xs a v) →
      ∃ v : Expr → ℝ, ∀ a ∈ args, ExactValue S xs a (v a) := by
    intro args h
    have : ∀ a, ∃ v, a ∈ args → ExactValue S xs a v := by
      intro a
      by_cases ha : a ∈ args
      · obtain ⟨v, hv⟩ := h a ha
        exact ⟨v, fun _ => hv⟩
      · exact ⟨0, fun h => absurd h ha⟩
    choose v hv using this
    exact ⟨v, hv⟩
  induction h with
  | @param t ht =>
    obtain ⟨i, hi⟩ := List.getElem?_of_mem ht
    obtain ⟨hlt, _⟩ := List.getElem?_eq_some_iff.1 hi
    refine ⟨xs[i]'(by omega), .param (List.mem_of_getElem? (i := i) ?_)⟩
    rw [List.getElem?_zip_eq_some]
    exact ⟨hi, List.getElem?_eq_getElem _⟩
  | int _ => exact ⟨_, .int _⟩
  | add _ _ ih =>
    obtain ⟨v, hv⟩ := hargs _ ih
    exact ⟨_, .add hv⟩
  | mul _ _ ih =>
    obtain ⟨v, hv⟩ := hargs _ ih
    exact ⟨_, .mul hv⟩
  | @pow a c v _ h1 h2 ih =>
    obtain ⟨w, hw⟩ := ih
    exact ⟨_, .pow v hw (smallInt_exact (expo_smallInt h1 (by omega))) (fun _ => by omega)⟩
  | sin _ ih => obtain ⟨v, hv⟩ := ih; exact ⟨_, .sin hv⟩
  | cos _ ih => obtain ⟨v, hv⟩ := ih; exact ⟨_, .cos hv⟩

/-- There is a bound, if the range of numbers is large enough. -/
def Bounded (S : List Expr) (xs : List ℝ) (e : Expr) (D : ℕ) (B H : ℝ) : Prop :=
  ∀ u small hi, 0 ≤ u → u ≤ 1 → 0 ≤ small → small ≤ 1 → H ≤ hi →
    ∃ M, 0 ≤ M ∧ M ≤ B ∧ ErrBound S xs u small hi e M D

theorem growth_le {u : ℝ} (h0 : 0 ≤ u) (h1 : u ≤ 1) (D : ℕ) : (1 + u) ^ D ≤ 2 ^ D :=
  pow_le_pow_left₀ (by linarith) (by linarith) D

theorem bound_le {u M B hi H : ℝ} (h0 : 0 ≤ u) (h1 : u ≤ 1) (D : ℕ) (hM : 0 ≤ M) (hB : M ≤ B)
    (hH : B * 2 ^ D ≤ H) (hhi : H ≤ hi) : M * (1 + u) ^ D ≤ hi := by
  refine le_trans ?_ (hH.trans hhi)
  exact mul_le_mul hB (growth_le h0 h1 D) (pow_nonneg (by linarith) _) (hM.trans hB)

theorem bounded_args {S : List Expr} {xs : List ℝ} (args : List Expr)
    (h : ∀ a ∈ args, ∃ D B H, Bounded S xs a D B H) :
    ∃ (D : Expr → ℕ) (B : Expr → ℝ) (H : ℝ), 0 ≤ H ∧ (∀ a ∈ args, 0 ≤ B a) ∧
      ∀ u small hi, 0 ≤ u → u ≤ 1 → 0 ≤ small → small ≤ 1 → H ≤ hi →
        ∃ M : Expr → ℝ, ∀ a ∈ args, 0 ≤ M a ∧ M a ≤ B a ∧ ErrBound S xs u small hi a (M a) (D a) := by
  have hex : ∀ a, ∃ p : ℕ × ℝ × ℝ, a ∈ args → Bounded S xs a p.1 p.2.1 p.2.2 := by
    intro a
    by_cases ha : a ∈ args
    · obtain ⟨D, B, H, h⟩ := h a ha
      exact ⟨(D, B, H), fun _ => h⟩
    · exact ⟨(0, 0, 0), fun h => absurd h ha⟩
  choose p hp using hex
  have hle : ∀ a ∈ args, (p a).2.2 ≤ (args.map fun a => |(p a).2.2|).sum := by
    intro a ha
    refine (le_abs_self _).trans (List.single_le_sum ?_ _ (List.mem_map_of_mem ha))
    intro y hy
    obtain ⟨b, _, rfl⟩ := List.mem_map.1 hy
    exact abs_nonneg _
  refine ⟨fun a => (p a).1, fun a => (p a).2.1, (args.map fun a => |(p a).2.2|).sum, ?_, ?_, ?_⟩
  · apply List.sum_nonneg
    intro y hy
    obtain ⟨b, _, rfl⟩ := List.mem_map.1 hy
    exact abs_nonneg _
  · intro a ha
    obtain ⟨M, h1, h2, _⟩ := hp a ha 0 0 _ le_rfl zero_le_one le_rfl zero_le_one le_rfl
    exact h1.trans h2
  · intro u small hi h0 h1 h2 h3 h4
    have : ∀ a, ∃ M, a ∈ args → 0 ≤ M ∧ M ≤ (p a).2.1 ∧ ErrBound S xs u small hi a M (p a).1 := by
      intro a
      by_cases ha : a ∈ args
      · obtain ⟨M, hM⟩ := hp a ha u small hi h0 h1 h2 h3 ((hle a ha).trans h4)
        exact ⟨M, fun _ => hM⟩
      · exact ⟨0, fun h => absurd h ha⟩
    choose M hM using this
    exact ⟨M, hM⟩

theorem foldl_bounds (l : List Expr) (M B : Expr → ℝ) {small : ℝ} (h0 : 0 ≤ small) (h1 : small ≤ 1)
    (hl : ∀ a ∈ l, 0 ≤ M a ∧ M a ≤ B a) (p q : ℝ) (hp : 0 ≤ p) (hpq : p ≤ q) :
    0 ≤ l.foldl (fun p b => p * M b + small) p ∧
    l.foldl (fun p b => p * M b + small) p ≤ l.foldl (fun p b => p * (B b + 1) + 1) q := by
  induction l generalizing p q with
  | nil => exact ⟨hp, hpq⟩
  | cons a l ih =>
    obtain ⟨ha1, ha2⟩ := hl a (by simp)
    simp only [List.foldl_cons]
    refine ih (fun b hb => hl b (by simp [hb])) _ _ (by positivity) ?_
    have : p * M a ≤ q * (B a + 1) := mul_le_mul hpq (by linarith) ha1 (hp.trans hpq)
    linarith

theorem foldl_prefix (l pre : List Expr) (B : Expr → ℝ) (hB : ∀ a ∈ l, 0 ≤ B a) (h : pre <+: l) (q : ℝ)
    (hq : 0 ≤ q) :
    pre.foldl (fun p b => p * (B b + 1) + 1) q ≤ l.foldl (fun p b => p * (B b + 1) + 1) q := by
  obtain ⟨r, rfl⟩ := h
  rw [List.foldl_append]
  have hgrow : ∀ (r : List Expr), (∀ a ∈ r, 0 ≤ B a) → ∀ p : ℝ, 0 ≤ p →
      p ≤ r.foldl (fun p b => p * (B b + 1) + 1) p := by
    intro r
    induction r with
    | nil => exact fun _ p _ => le_rfl
    | cons a r ih =>
      intro hr p hp
      have ha := hr a (by simp)
      have h1 : p ≤ p * (B a + 1) + 1 := by nlinarith
      exact h1.trans (ih (fun b hb => hr b (by simp [hb])) _ (hp.trans h1))
  have hpos : ∀ (r : List Expr), (∀ a ∈ r, 0 ≤ B a) → ∀ p : ℝ, 0 ≤ p →
      0 ≤ r.foldl (fun p b => p * (B b + 1) + 1) p := fun r hr p hp => hp.trans (hgrow r hr p hp)
  exact hgrow r (fun a ha => hB a (by simp [ha])) _ (hpos pre (fun a ha => hB a (by simp [ha])) q hq)

theorem tower_bounded {S : List Expr} {xs : List ℝ} (hlen : xs.length = S.length) {m : Nat}
    {e : Expr} (h : Tower S (2 ^ 53) m e) : ∃ D B H, Bounded S xs e D B H := by
  induction h with
  | @param t ht =>
    obtain ⟨i, hi⟩ := List.getElem?_of_mem ht
    obtain ⟨hlt, _⟩ := List.getElem?_eq_some_iff.1 hi
    refine ⟨0, |xs[i]'(by omega)|, 0, fun u small hi _ _ _ _ _ =>
      ⟨_, abs_nonneg _, le_rfl, .param (List.mem_of_getElem? (i := i) ?_)⟩⟩
    rw [List.getElem?_zip_eq_some]
    exact ⟨‹_›, List.getElem?_eq_getElem _⟩
  | int hn => exact ⟨0, _, 0, fun u small hi _ _ _ _ _ => ⟨_, abs_nonneg _, le_rfl, .int hn⟩⟩
  | @add args hne _ ih =>
    obtain ⟨D, B, H, hH0, hB0, hb⟩ := bounded_args args ih
    let E := (args.map D).sum + args.length
    have hE : ∀ a ∈ args, D a + 1 ≤ E ∧ D a + args.length ≤ E + 1 := by
      intro a ha
      have h1 : D a ≤ (args.map D).sum := List.single_le_sum (by simp) _ (List.mem_map_of_mem ha)
      have h2 := List.length_pos_of_ne_nil hne
      simp only [E]
      omega
    refine ⟨E, (args.map B).sum, H + (args.map B).sum * 2 ^ E, ?_⟩
    intro u small hi h0 h1 h2 h3 h4
    have hBs : 0 ≤ (args.map B).sum := by
      apply List.sum_nonneg
      intro y hy
      obtain ⟨b, hb', rfl⟩ := List.mem_map.1 hy
      exact hB0 b hb'
    have hp : 0 ≤ (args.map B).sum * 2 ^ E := by positivity
    obtain ⟨M, hM⟩ := hb u small hi h0 h1 h2 h3 (by linarith)
    have hMs : 0 ≤ (args.map M).sum := by
      apply List.sum_nonneg
      intro y hy
      obtain ⟨b, hb', rfl⟩ := List.mem_map.1 hy
      exact (hM b hb').1
    have hMB : (args.map M).sum ≤ (args.map B).sum :=
      List.sum_le_sum fun a ha => (hM a ha).2.1
    exact ⟨_, hMs, hMB, .add hne (fun a ha => (hM a ha).2.2) hE
      (bound_le h0 h1 E hMs hMB (by linarith) h4)⟩
  | @mul args hne _ ih =>
    obtain ⟨a, args, rfl⟩ := List.exists_cons_of_ne_nil hne
    obtain ⟨D, B, H, hH0, hB0, hb⟩ := bounded_args (a :: args) ih
    let E := ((a :: args).map D).sum + args.length
    let C := args.foldl (fun p b => p * (B b + 1) + 1) (B a)
    have hBa := hB0 a (by simp)
    have hBl : ∀ b ∈ args, 0 ≤ B b := fun b hb => hB0 b (by simp [hb])
    have hC0 : 0 ≤ C := hBa.trans (foldl_prefix args [] B hBl (List.nil_prefix) _ hBa)
    refine ⟨E, C, H + C * 2 ^ E, ?_⟩
    intro u small hi h0 h1 h2 h3 h4
    have hp : 0 ≤ C * 2 ^ E := by positivity
    obtain ⟨M, hM⟩ := hb u small hi h0 h1 h2 h3 (by linarith)
    have hMa := hM a (by simp)
    have hpre : ∀ pre, pre <+: args → 0 ≤ pre.foldl (fun p b => p * M b + small) (M a) ∧
        pre.foldl (fun p b => p * M b + small) (M a) ≤ C := by
      intro pre hpre
      obtain ⟨g1, g2⟩ := foldl_bounds pre M B h2 h3 (fun b hb => by
        have := hM b (by simp [hpre.subset hb])
        exact ⟨this.1, this.2.1⟩) (M a) (B a) hMa.1 hMa.2.1
      exact ⟨g1, g2.trans (foldl_prefix args pre B hBl hpre _ hBa)⟩
    exact ⟨_, (hpre args (List.prefix_refl _)).1, (hpre args (List.prefix_refl _)).2,
      .mul (fun b hb => (hM b hb).2.2) le_rfl fun pre h =>
        bound_le h0 h1 E (hpre pre h).1 (hpre pre h).2 (by linarith) h4⟩
  | @pow a c v _ hc hv ih =>
    obtain ⟨D, B, H, hb⟩ := ih
    have hcast : ((v.toNat : ℕ) : ℤ) = v := Int.toNat_of_nonneg (by omega)
    have hB0 : 0 ≤ B := by
      obtain ⟨M, g1, g2, _⟩ := hb 0 0 _ le_rfl zero_le_one le_rfl zero_le_one le_rfl
      exact g1.trans g2
    refine ⟨v.toNat * D + 1, B ^ v.toNat + 1, |H| + (B ^ v.toNat + 1) * 2 ^ (v.toNat * D + 1), ?_⟩
    intro u small hi h0 h1 h2 h3 h4
    have hp : 0 ≤ (B ^ v.toNat + 1) * 2 ^ (v.toNat * D + 1) := by positivity
    have := le_abs_self H
    have := abs_nonneg H
    obtain ⟨M, hM0, hMB, hM⟩ := hb u small hi h0 h1 h2 h3 (by linarith)
    have hpw : M ^ v.toNat ≤ B ^ v.toNat := pow_le_pow_left₀ hM0 hMB _
    have hpw0 : 0 ≤ M ^ v.toNat := pow_nonneg hM0 _
    refine ⟨M ^ v.toNat + small, by linarith, by linarith, .pow hM ?_ ?_⟩
    · rw [hcast]; exact expo_smallInt hc (by omega)
    · exact bound_le (B := B ^ v.toNat + 1) h0 h1 _ (by linarith) (by linarith) (by linarith) h4
  | sin _ ih =>
    obtain ⟨D, B, H, hb⟩ := ih
    refine ⟨D + 1, 1 + B, H, fun u small hi h0 h1 h2 h3 h4 => ?_⟩
    obtain ⟨M, hM0, hMB, hM⟩ := hb u small hi h0 h1 h2 h3 h4
    exact ⟨1 + M, by linarith, by linarith, .sin hM⟩
  | cos _ ih =>
    obtain ⟨D, B, H, hb⟩ := ih
    refine ⟨D + 1, 1 + B, H, fun u small hi h0 h1 h2 h3 h4 => ?_⟩
    obtain ⟨M, hM0, hMB, hM⟩ := hb u small hi h0 h1 h2 h3 h4
    exact ⟨1 + M, by linarith, by linarith, .cos hM⟩

theorem growth_linear {u : ℝ} (h0 : 0 ≤ u) (h1 : u ≤ 1) (D : ℕ) : (1 + u) ^ D - 1 ≤ D * 2 ^ D * u := by
  induction D with
  | zero => simp
  | succ D ih =>
    have h2 := growth_le h0 h1 D
    have h3 : (0 : ℝ) ≤ 2 ^ D := by positivity
    have h4 : (0 : ℝ) ≤ D * 2 ^ D * u := by positivity
    have h5 : (1 + u) ^ D * u ≤ 2 ^ D * u := mul_le_mul_of_nonneg_right h2 h0
    have h6 : (1 + u) ^ (D + 1) - 1 = ((1 + u) ^ D - 1) + (1 + u) ^ D * u := by ring
    rw [h6]
    push_cast
    rw [pow_succ]
    nlinarith [mul_nonneg h3 h0]

/-- **C64, order of the error.**  Let `e` be built with `+`, `*`, `sin`, `cos` and literal exponents that
are all at least `n` (and 1), with integers up to `2^53`; `n = 0` is the expression itself.  At every point, in every arithmetic
with unit roundoff `u` and a large enough range, the numbers that the function compiled from
`e.diff(x, n)` and `eval_f64` return differ from the `n`-th derivative of the exact value of `e` by at
most `K*u`, where `K` does not depend on the arithmetic. -/
theorem C64_order (S : List Expr) (hg : GoodParams S) (hS : Symbols S) (e x : Expr)
    (he : Elementary S e) (k : Nat) (hk : S[k]? = some x) (n : Nat)
    (hexp : ∀ a (m : Int), ArgSub e (pow a (integer m)) → (n : Int) ≤ m)
    (hint : ∀ m : Int, ArgSub e (integer m) → |m| ≤ 2 ^ 53) (xs : List ℝ)
    (hlen : xs.length = S.length) (t₀ : ℝ) (ht₀ : xs[k]? = some t₀) :
    ∃ (d : Expr) (G : ℝ → ℝ) (K H : ℝ), e.diff x (n : Int) = .ok d ∧ Supported S d ∧
      (∀ t, ExactValue S (xs.set k t) e (G t)) ∧
      ∀ (F : Type) (val : F → Option ℝ) (u small hi : ℝ), 0 ≤ u → u ≤ 1 → 0 ≤ small → small ≤ 1 →
        H ≤ hi → ∀ vs : List F, List.Forall₂ (fun v x => val v = some x) vs xs →
        (∀ (P : Platform F) (A : IRArith F), PlatformOK P A → Accurate val u small hi A →
          ∀ (s : Proc F) (fd : Callable), Compiled P fd S (.expr d) s →
          ∀ args, List.Forall₂ (IsDouble A) args vs →
          ∃ w z, call P fd args s = (.float w, s) ∧ val w = some z ∧
            |z - iteratedDeriv n G t₀| ≤ K * u) ∧
        (∀ [HasNone F] (B : FloatOps F), AccuratePython val u small hi B →
          (∀ v ∈ vs, HasNone.isNone v = false) →
          ∃ w z, d.evalF64 B (some (Dict.ofPairs (S.zip vs))) = .ok w ∧ val w = some z ∧
            |z - iteratedDeriv n G t₀| ≤ K * u) := by
  have hx := List.mem_of_getElem? hk
  have ht := elementary_tower n he (fun m h _ => hint m h) hexp
  have hn := goodParams_nodup hg
  obtain ⟨d, hd, hdt⟩ := tower_nth le_rfl hS hx n 0 e (by rwa [Nat.zero_add])
  have hex : ∀ t, ∃ v, ExactValue S (xs.set k t) e v := fun t => tower_exact (by simp [hlen]) ht
  choose G hG using hex
  obtain ⟨D, B, H, hb⟩ := tower_bounded hlen hdt
  have hB0 : 0 ≤ B := by
    obtain ⟨M, g1, g2, _⟩ := hb 0 0 _ le_rfl zero_le_one le_rfl zero_le_one le_rfl
    exact g1.trans g2
  refine ⟨d, G, D * 2 ^ D * B, H, hd, nth_supported S x e (elementary_supported hS he) n d hd, hG, ?_⟩
  intro F val u small hi hu hu1 hsm hsm1 hH vs hxs
  obtain ⟨M, hM0, hMB, hM⟩ := hb u small hi hu hu1 hsm hsm1 hH
  have hle : ((1 + u) ^ D - 1) * M ≤ D * 2 ^ D * B * u := by
    have h1 := growth_linear hu hu1 D
    have h2 : 0 ≤ (1 + u) ^ D - 1 := by linarith [one_le_growth hu D]
    have h3 : ((1 + u) ^ D - 1) * M ≤ (D * 2 ^ D * u) * B := mul_le_mul h1 hMB hM0 (h2.trans h1)
    linarith
  have hder : ∀ r, ExactValue S xs d r → iteratedDeriv n G t₀ = r := fun r hr =>
    exact_derivative hS hn hk n hd hlen ht₀ G Set.univ isOpen_univ trivial (fun t _ => hG t)
      (fun j hj dj hdj t _ => by
        obtain ⟨dj', hdj', htj⟩ := tower_nth le_rfl hS hx j (n - j) e (by rwa [Nat.sub_add_cancel hj])
        rw [hdj] at hdj'
        obtain rfl := Except.ok.inj hdj'
        exact tower_exact (by simp [hlen]) htj) hr
  have hvl : vs.length = S.length := by rw [hxs.length_eq, hlen]
  constructor
  · intro P A hP hA s fd hfd args hv
    obtain ⟨w, z, r, h1, h2, h3, _, h4⟩ := C62_lambdify hP hA hu hsm S hg hS d s fd hfd args vs xs hv
      hxs (by rw [hv.length_eq, hvl]) M D hM
    exact ⟨w, z, h1, h2, by rw [hder r h3]; exact h4.trans hle⟩
  · intro _ B' hB' hnone
    obtain ⟨w, z, r, h1, h2, h3, _, h4⟩ := C62_eval_f64 hB' hu hsm S hS hn d vs hnone xs hxs hvl M D hM
    exact ⟨w, z, h1, h2, by rw [hder r h3]; exact h4.trans hle⟩

/-! ### Concrete cases -/

/-- The derivative of `x**2` is `2*x**(2 + -1)`.  For doubles between -1000 and 1000 the hypotheses of
`C64_derivative` hold, and the compiled derivative is within `((1 + 2^-52)^2 - 1)*(2*|x| + 3*2^-1022)`
of `2*x`. -/
example (va vb : ℕ) (a b : ℝ) (hva : bitsVal va = some a) (hvb : bitsVal vb = some b)
    (ha : |a| ≤ 1000) : ∃ (P : Platform ℕ) (d : Expr) (f : Callable) (s : Proc ℕ) (w : ℕ) (z : ℝ),
      PlatformOK P binary64 ∧ Expr.diff (pow x (integer 2)) x = .ok d ∧
      Compiled P f [x, y] (.expr d) s ∧ call P f [.float va, .float vb] s = (.float w, s) ∧
      bitsVal w = some z ∧
      |z - 2 * a| ≤ ((1 + 2⁻¹ ^ 52) ^ 2 - 1) * (2 * (|a| + 2⁻¹ ^ 1022) + 2⁻¹ ^ 1022) := by
  obtain ⟨P, hP⟩ := platformOK_exists binary64
  have hd : Expr.diff (pow x (integer 2)) x =
      .ok (mul (integer 2) (pow x (add (integer 2) negone))) := by decide +kernel
  have hbound : ErrBound [x, y] [a, b] (2⁻¹ ^ 52) (2⁻¹ ^ 1022) largest
      (mul (integer 2) (pow x (add (integer 2) negone)))
      (2 * (|a| + 2⁻¹ ^ 1022) + 2⁻¹ ^ 1022) 2 := by
    have hsm0 : (0 : ℝ) ≤ 2⁻¹ ^ 1022 := pow_nonneg (by norm_num) _
    have hsm1 : (2⁻¹ : ℝ) ^ 1022 ≤ 1 := pow_le_one₀ (by norm_num) (by norm_num)
    have hl := two_pow_le_largest
    generalize (2⁻¹ : ℝ) ^ 1022 = sm at hsm0 hsm1 ⊢
    generalize largest = hi at hl ⊢
    have ha0 := abs_nonneg a
    have h4 : ∀ t : ℝ, 0 ≤ t → t ≤ 5000 → t * (1 + 2⁻¹ ^ 52) ^ 2 ≤ hi := by
      intro t h0 ht
      refine le_trans ?_ hl
      have : (1 + 2⁻¹ ^ 52 : ℝ) ^ 2 ≤ 2 := by norm_num
      nlinarith
    have hp : ErrBound [x, y] [a, b] (2⁻¹ ^ 52) sm hi (pow x (add (integer 2) negone)) (|a| + sm) 1 := by
      have := ErrBound.pow (S := [x, y]) (xs := [a, b]) (u := 2⁻¹ ^ 52) (small := sm) (hi := hi)
        (a := x) (c := add (integer 2) negone) (M := |a|) (k := 0) (n := 1) (.param (by simp))
        (.add (m := 2) (n := -1) (.lit (by norm_num)) (.lit (by norm_num)) (by norm_num)) (by
          have := h4 (|a| + sm) (by linarith) (by linarith)
          refine le_trans ?_ this
          rw [pow_one]
          exact mul_le_mul_of_nonneg_left (pow_le_pow_right₀ (by norm_num) (by norm_num)) (by linarith))
      rwa [pow_one] at this
    have hi2 : ErrBound [x, y] [a, b] (2⁻¹ ^ 52) sm hi (integer 2) 2 0 := by
      have := ErrBound.int (S := [x, y]) (xs := [a, b]) (u := 2⁻¹ ^ 52) (small := sm) (hi := hi)
        (n := 2) (by decide)
      rwa [Int.cast_ofNat, abs_two] at this
    have hne : pow x (add (integer 2) negone) ≠ integer 2 := by decide
    have := ErrBound.mul (S := [x, y]) (xs := [a, b]) (u := 2⁻¹ ^ 52) (small := sm) (hi := hi)
      (a := integer 2) (args := [pow x (add (integer 2) negone)])
      (M := fun t => if t = integer 2 then 2 else |a| + sm) (k := fun t => if t = integer 2 then 0 else 1) (D := 2)
      (by
        intro t ht
        rcases List.mem_pair.1 ht with rfl | rfl
        · simpa using hi2
        · simpa [hne] using hp)
      (by simp [hne])
      (by
        intro pre hpre
        rw [List.prefix_cons_iff] at hpre
        rcases hpre with rfl | ⟨l, rfl, hl'⟩
        · simp only [List.foldl_nil, if_true]
          exact h4 _ (by norm_num) (by norm_num)
        · rw [List.prefix_nil.1 hl']
          simp only [List.foldl_cons, List.foldl_nil, if_true, hne, if_false]
          exact h4 _ (by linarith) (by linarith))
    simp only [List.foldl_cons, List.foldl_nil, if_true, hne, if_false] at this
    exact this
  obtain ⟨f, s, hf, _⟩ := compiled_exists hP goodParams_xy.1
    (errBound_supported symbols_xy hbound) Proc.start
  have hG : ∀ t, ExactValue [x, y] ([a, b].set 0 t) (pow x (integer 2)) (t ^ 2) := by
    intro t
    have := ExactValue.pow (S := [x, y]) (xs := [t, b]) (a := x) (c := integer 2) (v := t) 2
      (.param (by simp)) (.int 2) (fun _ => by norm_num)
    exact_mod_cast this
  obtain ⟨w, z, G', h1, h2, h3, h5⟩ := C64_derivative hP (C62_binary64 _ binary64_ok) (pow_nonneg (by norm_num) _)
    (pow_nonneg (by norm_num) _) [x, y] goodParams_xy.1 symbols_xy _ _ x 0 rfl hd s f hf
    [.float va, .float vb] [va, vb] [a, b] (.cons (Or.inl rfl) (.cons (Or.inl rfl) .nil))
    (.cons hva (.cons hvb .nil)) rfl a rfl (fun t => t ^ 2) (Filter.Eventually.of_forall hG) _ _ hbound
  have h6 : G' = 2 * a := by
    have := (hasDerivAt_pow 2 a).unique h3
    rw [← this]
    simp
  rw [h6] at h5
  exact ⟨P, _, f, s, w, z, hP, hd, hf, h1, h2, h5⟩

/-- The hypotheses of `C64_nth` hold of the second derivative `-1*sin(x)` of `sin(x)`, for doubles
between -1000 and 1000. -/
example (va vb : ℕ) (a b : ℝ) (hva : bitsVal va = some a) (hvb : bitsVal vb = some b)
    (ha : |a| ≤ 1000) : ∃ (P : Platform ℕ) (d : Expr) (f : Callable) (s : Proc ℕ) (w : ℕ) (z : ℝ),
      PlatformOK P binary64 ∧ Expr.diff (sin x) x 2 = .ok d ∧
      Compiled P f [x, y] (.expr d) s ∧ call P f [.float va, .float vb] s = (.float w, s) ∧
      bitsVal w = some z ∧
      |z - iteratedDeriv 2 Real.sin a| ≤ ((1 + 2⁻¹ ^ 52) ^ 2 - 1) * (1 + |a| + 2⁻¹ ^ 1022) := by
  obtain ⟨P, hP⟩ := platformOK_exists binary64
  have hd : Expr.diff (sin x) x ((2 : ℕ) : Int) = .ok (mul negone (sin x)) := by decide +kernel
  have hbound : ErrBound [x, y] [a, b] (2⁻¹ ^ 52) (2⁻¹ ^ 1022) largest (mul negone (sin x))
      (1 + |a| + 2⁻¹ ^ 1022) 2 := by
    have hsm0 : (0 : ℝ) ≤ 2⁻¹ ^ 1022 := pow_nonneg (by norm_num) _
    have hsm1 : (2⁻¹ : ℝ) ^ 1022 ≤ 1 := pow_le_one₀ (by norm_num) (by norm_num)
    have hl := two_pow_le_largest
    generalize (2⁻¹ : ℝ) ^ 1022 = sm at hsm0 hsm1 ⊢
    generalize largest = hi at hl ⊢
    have ha0 := abs_nonneg a
    have h4 : ∀ t : ℝ, 0 ≤ t → t ≤ 5000 → t * (1 + 2⁻¹ ^ 52) ^ 2 ≤ hi := by
      intro t h0 ht
      refine le_trans ?_ hl
      have : (1 + 2⁻¹ ^ 52 : ℝ) ^ 2 ≤ 2 := by norm_num
      nlinarith
    have hp : ErrBound [x, y] [a, b] (2⁻¹ ^ 52) sm hi (sin x) (1 + |a|) 1 := .sin (.param (by simp))
    have hi2 : ErrBound [x, y] [a, b] (2⁻¹ ^ 52) sm hi negone 1 0 := by
      have := ErrBound.int (S := [x, y]) (xs := [a, b]) (u := 2⁻¹ ^ 52) (small := sm) (hi := hi)
        (n := -1) (by decide)
      rwa [Int.cast_neg, Int.cast_one, abs_neg, abs_one] at this
    have hne : sin x ≠ negone := by decide
    have := ErrBound.mul (S := [x, y]) (xs := [a, b]) (u := 2⁻¹ ^ 52) (small := sm) (hi := hi)
      (a := negone) (args := [sin x])
      (M := fun t => if t = negone then 1 else 1 + |a|) (k := fun t => if t = negone then 0 else 1)
      (D := 2)
      (by
        intro t ht
        rcases List.mem_pair.1 ht with rfl | rfl
        · simpa using hi2
        · simpa [hne] using hp)
      (by simp [hne])
      (by
        intro pre hpre
        rw [List.prefix_cons_iff] at hpre
        rcases hpre with rfl | ⟨l, rfl, hl'⟩
        · simp only [List.foldl_nil, if_true]
          exact h4 _ (by norm_num) (by norm_num)
        · rw [List.prefix_nil.1 hl']
          simp only [List.foldl_cons, List.foldl_nil, if_true, hne, if_false]
          exact h4 _ (by linarith) (by linarith))
    simp only [List.foldl_cons, List.foldl_nil, if_true, hne, if_false, one_mul] at this
    exact this
  obtain ⟨f, s, hf, _⟩ := compiled_exists hP goodParams_xy.1
    (errBound_supported symbols_xy hbound) Proc.start
  have ht : Tower [x, y] (2 ^ 53) 2 (sin x) := .sin (.param (by simp))
  obtain ⟨w, z, h1, h2, h3⟩ := C64_nth hP (C62_binary64 _ binary64_ok) (pow_nonneg (by norm_num) _)
    (pow_nonneg (by norm_num) _) [x, y] goodParams_xy.1 symbols_xy _ _ x 0 rfl 2 hd s f hf
    [.float va, .float vb] [va, vb] [a, b] (.cons (Or.inl rfl) (.cons (Or.inl rfl) .nil))
    (.cons hva (.cons hvb .nil)) rfl a rfl Real.sin Set.univ isOpen_univ trivial
    (fun t _ => .sin (.param (by simp)))
    (fun j hj dj hdj t _ => by
      obtain ⟨dj', hdj', htj⟩ := tower_nth le_rfl symbols_xy (x := x) (by simp) j (2 - j) (sin x)
        (by rwa [Nat.sub_add_cancel hj])
      rw [hdj] at hdj'
      obtain rfl := Except.ok.inj hdj'
      exact tower_exact (by simp) htj) _ _ hbound
  exact ⟨P, _, f, s, w, z, hP, hd, hf, h1, h2, h3⟩

/-- The hypotheses of `C64_matrix` hold of `Matrix([[x, 0], [2, x*y + 1]])`: the first cell of its
derivative is exactly 1. -/
example (va vb : ℕ) (a b : ℝ) (hva : bitsVal va = some a) (hvb : bitsVal vb = some b) :
    ∃ (P : Platform ℕ) (md : Mat) (f : Callable) (s s' : Proc ℕ) (id : ℕ) (cells : List ℕ) (w : ℕ),
      PlatformOK P binary64 ∧ sampleMat.diff (.expr x) = .ok md ∧
      Compiled P f [x, y] (.matrix md) s ∧
      call P f [.float va, .float vb] s = (.array id, s') ∧ s'.arrays[id]? = some cells ∧
      cells[0]? = some w ∧ bitsVal w = some 1 := by
  obtain ⟨P, hP⟩ := platformOK_exists binary64
  obtain ⟨hm, hs, hg, hz, hsize, _⟩ := sampleMat_compiles
  obtain ⟨md, hd, hentry⟩ : ∃ md, sampleMat.diff (.expr x) = .ok md ∧ md.getItem (.pair 0 0) = .ok one := by
    have h : (sampleMat.diff (.expr x)).bind (fun md => md.getItem (.pair 0 0)) = .ok one := by
      decide +kernel
    cases hd : sampleMat.diff (.expr x) with
    | error err => rw [hd] at h; cases h
    | ok md => rw [hd] at h; exact ⟨md, rfl, h⟩
  obtain ⟨hmd, hsmd, h1, h2⟩ := diff_matrix_supported hm hs (by decide) hd
  obtain ⟨f, s, hf, _⟩ := C59_matrix (P := P) hP [x, y] md hmd hg hsmd (by rw [h1, h2]; exact hsize) hz
    (Nat.le_trans (by decide) hP.maxArgs) Proc.start
  have hf : Compiled P f [x, y] (.matrix md) s := ⟨fun _ => False, _, _, hf, .refl _⟩
  obtain ⟨id, cells, s', h1, h2, h3⟩ := C64_matrix hP (C62_binary64 _ binary64_ok)
    (pow_nonneg (by norm_num) _) (pow_nonneg (by norm_num) _) [x, y] hg symbols_xy sampleMat md x hm hs
    hsize 0 rfl hd s f hf [.float va, .float vb] [va, vb] [a, b]
    (.cons (Or.inl rfl) (.cons (Or.inl rfl) .nil)) (.cons hva (.cons hvb .nil)) rfl a rfl
  have h1e : ErrBound [x, y] [a, b] (2⁻¹ ^ 52) (2⁻¹ ^ 1022) largest one 1 0 := by
    have := ErrBound.int (S := [x, y]) (xs := [a, b]) (u := 2⁻¹ ^ 52) (small := 2⁻¹ ^ 1022)
      (hi := largest) (n := 1) (by decide)
    rwa [Int.cast_one, abs_one] at this
  obtain ⟨w, z, G', h4, h5, h6, h7⟩ := h3 0 0 x one (fun t => t) 1 0 (by decide) (by decide) rfl hentry
    (Filter.Eventually.of_forall fun t => .param (by simp)) h1e
  rw [pow_zero, sub_self, zero_mul, h6.unique (hasDerivAt_id a)] at h7
  have hzb : z = 1 := sub_eq_zero.1 (abs_nonpos_iff.1 h7)
  exact ⟨P, md, f, s, s', id, cells, w, hP, hd, hf, h1, h2, h4, by rw [h5, hzb]⟩

/-- An arithmetic of unlimited range in which every multiplication, power, sine and cosine is off by
the factor `1 + u`. -/
noncomputable def noisy (u : ℝ) : IRArith ℝ where
  const b := (((doubleValue b).getD 0 : ℚ) : ℝ)
  fadd a b := a + b
  fmul a b := a * b * (1 + u)
  pow a b := a ^ b * (1 + u)
  sin a := Real.sin a * (1 + u)
  cos a := Real.cos a * (1 + u)

theorem noisy_accurate {u : ℝ} (hu : 0 ≤ u) (hi : ℝ) : Accurate some u 0 hi (noisy u) := by
  have h1 : ∀ t : ℝ, |t * (1 + u) - t| = u * |t| := by
    intro t
    rw [show t * (1 + u) - t = u * t by ring, abs_mul, abs_of_nonneg hu]
  have h2 : ∀ t : ℝ, |t| ≤ 1 → |t * (1 + u) - t| ≤ u := by
    intro t ht
    rw [h1]
    nlinarith
  exact {
    const := by
      intro b q hq
      simp only [noisy, hq, Option.getD_some]
    add := by
      intro a b x y ha hb _
      cases ha; cases hb
      refine ⟨_, rfl, ?_⟩
      simp only [noisy, sub_self, abs_zero]
      positivity
    addInt := by
      intro a b m n ha hb _ _ _
      cases ha; cases hb
      simp [noisy]
    mul := by
      intro a b x y ha hb _
      cases ha; cases hb
      refine ⟨_, rfl, ?_⟩
      rw [max_eq_left (abs_nonneg _)]
      exact (h1 _).le
    pow := by
      intro a b x n _ ha hb _
      cases ha; cases hb
      refine ⟨_, rfl, ?_⟩
      rw [max_eq_left (abs_nonneg _)]
      simp only [noisy, Real.rpow_intCast]
      exact (h1 _).le
    sin := by
      intro a x ha
      cases ha
      exact ⟨_, rfl, h2 _ (Real.abs_sin_le_one _)⟩
    cos := by
      intro a x ha
      cases ha
      exact ⟨_, rfl, h2 _ (Real.abs_cos_le_one _)⟩ }

theorem sample_integers (m : Int)
    (h : ArgSub (add (mul (pow x (integer 3)) (sin (mul x y))) (integer 5)) (integer m)) :
    |m| ≤ 2 ^ 53 := by
  have hm := ((C05_topological_sort false _).1 _).2 h
  revert hm
  rw [show topologicalSort false [] (add (mul (pow x (integer 3)) (sin (mul x y))) (integer 5)) =
    [x, integer 3, pow x (integer 3), y, mul x y, sin (mul x y),
      mul (pow x (integer 3)) (sin (mul x y)), integer 5,
      add (mul (pow x (integer 3)) (sin (mul x y))) (integer 5)] from by decide +kernel]
  intro hm
  simp only [List.mem_cons, List.not_mem_nil, or_false] at hm
  rcases hm with h | h | h | h | h | h | h | h | h <;> cases h <;> norm_num

/-- `C64_order` for the third derivative of `x**3*sin(x*y) + 5`: in the arithmetics `noisy u` the error
is at most `K*u`. -/
example (a b : ℝ) : ∃ (d : Expr) (G : ℝ → ℝ) (K : ℝ),
    Expr.diff (add (mul (pow x (integer 3)) (sin (mul x y))) (integer 5)) x 3 = .ok d ∧
    (∀ t, ExactValue [x, y] [t, b] (add (mul (pow x (integer 3)) (sin (mul x y))) (integer 5)) (G t)) ∧
    ∀ u : ℝ, 0 ≤ u → u ≤ 1 → ∀ P, PlatformOK P (noisy u) → ∃ f s z,
      Compiled P f [x, y] (.expr d) s ∧ call P f [.float a, .float b] s = (.float z, s) ∧
      |z - iteratedDeriv 3 G a| ≤ K * u := by
  obtain ⟨d, G, K, H, h1, h2, h3, h4⟩ := C64_order [x, y] goodParams_xy.1 symbols_xy _ x
    sample_elementary 0 rfl 3 sample_exponents sample_integers [a, b] rfl a rfl
  refine ⟨d, G, K, h1, h3, ?_⟩
  intro u hu hu1 P hP
  obtain ⟨f, s, hf, _⟩ := compiled_exists hP goodParams_xy.1 h2 Proc.start
  obtain ⟨w, z, g1, g2, g3⟩ := (h4 ℝ some u 0 H hu hu1 le_rfl zero_le_one le_rfl [a, b]
    (.cons rfl (.cons rfl .nil))).1 P _ hP (noisy_accurate hu H) s f hf
    [.float a, .float b] (.cons (Or.inl rfl) (.cons (Or.inl rfl) .nil))
  obtain rfl := Option.some.inj g2
  exact ⟨f, s, w, hf, g1, g3⟩

end Verif.Props
