import Verif.Props.CompiledNth
import Verif.Props.Mixed

/-!
# Repeated derivatives of matrices (C33, C58, C61)
-/

set_option exponentiation.threshold 2000

namespace Verif.Props
open Spec Expr Mixed

theorem getItem_inside {m : Mat} {i j : Nat} {e : Expr} (h : m.getItem (.pair i j) = .ok e) :
    i < m.nrows ∧ j < m.ncols := by
  unfold Mat.getItem at h
  simp only at h
  split at h
  · cases h
  · rename_i hn
    simp only [not_not] at hn
    omega

/-- **C33, one derivative after the other.** Differentiating a matrix with respect to `x`, then `y`,
... differentiates each entry in the same way; it succeeds exactly when that succeeds for all the
entries. -/
theorem C33_sequence (m : Mat) (hm : MatHistory m) (p : DiffProps Val) (hl : listH ∈ p.distributive)
    (hz : p.zero = zero) (xs : List Expr) (hx : zero ∉ xs) :
    (∀ d, xs.foldlM (fun (m : Mat) x => m.diff (.expr x) p) m = .ok d →
      MatHistory d ∧ d.nrows = m.nrows ∧ d.ncols = m.ncols ∧
      ∀ (i j : Nat) (e : Expr), m.getItem (.pair i j) = .ok e →
        ∃ e', xs.foldlM (fun e x => Expr.diff e x 1 p) e = .ok e' ∧
          d.getItem (.pair i j) = .ok e') ∧
    ((∃ d, xs.foldlM (fun (m : Mat) x => m.diff (.expr x) p) m = .ok d) ↔
      ∀ (i j : Nat) (e : Expr), m.getItem (.pair i j) = .ok e →
        ∃ e', xs.foldlM (fun e x => Expr.diff e x 1 p) e = .ok e') := by
  induction xs generalizing m with
  | nil =>
    refine ⟨?_, ?_⟩
    · intro d hd
      obtain rfl := Except.ok.inj hd
      exact ⟨hm, rfl, rfl, fun i j e he => ⟨e, rfl, he⟩⟩
    · exact ⟨fun _ i j e _ => ⟨e, rfl⟩, fun _ => ⟨m, rfl⟩⟩
  | cons x xs ih =>
    rw [List.mem_cons, not_or] at hx
    obtain ⟨c1, c2, _⟩ := C33_diff_elementwise m hm p hl hz x (fun h => hx.1 h.symm)
    constructor
    · intro d hd
      rw [List.foldlM_cons] at hd
      cases h1 : m.diff (.expr x) p with
      | error err => rw [h1] at hd; cases hd
      | ok m1 =>
        rw [h1] at hd
        obtain ⟨s1, s2, s3⟩ := c1 m1 h1
        obtain ⟨t0, t1, t2, t3⟩ := (ih m1 (.diff hm hl h1) hx.2).1 d hd
        refine ⟨t0, t1.trans s1, t2.trans s2, fun i j e he => ?_⟩
        obtain ⟨e1, he1, hg1⟩ := s3 i j e he
        obtain ⟨e', he', hg'⟩ := t3 i j e1 hg1
        exact ⟨e', by rw [List.foldlM_cons, he1]; exact he', hg'⟩
    · constructor
      · rintro ⟨d, hd⟩ i j e he
        rw [List.foldlM_cons] at hd
        cases h1 : m.diff (.expr x) p with
        | error err => rw [h1] at hd; cases hd
        | ok m1 =>
          rw [h1] at hd
          obtain ⟨e1, he1, hg1⟩ := (c1 m1 h1).2.2 i j e he
          obtain ⟨e', he'⟩ := (ih m1 (.diff hm hl h1) hx.2).2.1 ⟨d, hd⟩ i j e1 hg1
          exact ⟨e', by rw [List.foldlM_cons, he1]; exact he'⟩
      · intro h
        have hfirst : ∀ (i j : Nat) (e : Expr), m.getItem (.pair i j) = .ok e →
            ∃ e', Expr.diff e x 1 p = .ok e' := by
          intro i j e he
          obtain ⟨e', he'⟩ := h i j e he
          rw [List.foldlM_cons] at he'
          cases h1 : Expr.diff e x 1 p with
          | error err => rw [h1] at he'; cases he'
          | ok e1 => exact ⟨e1, rfl⟩
        obtain ⟨m1, h1⟩ := c2.2 hfirst
        obtain ⟨s1, s2, s3⟩ := c1 m1 h1
        obtain ⟨d, hd⟩ := (ih m1 (.diff hm hl h1) hx.2).2.2 (by
          intro i j e1 hg1
          obtain ⟨hi, hj⟩ := getItem_inside hg1
          have hin := (history_wf hm).getItem i j (s1 ▸ hi) (s2 ▸ hj)
          obtain ⟨e1', he1, hg1'⟩ := s3 i j _ hin
          rw [hg1] at hg1'
          obtain rfl := Except.ok.inj hg1'
          obtain ⟨e', he'⟩ := h i j _ hin
          rw [List.foldlM_cons, he1] at he'
          exact ⟨e', he'⟩)
        exact ⟨d, by rw [List.foldlM_cons, h1]; exact hd⟩

theorem foldlM_replicate (e x : Expr) (n : Nat) :
    (List.replicate n x).foldlM (fun e x => Expr.diff e x) e = e.diff x (n : Int) := by
  induction n generalizing e with
  | zero => exact (diff_zero e x).symm
  | succ n ih =>
    rw [List.replicate_succ, List.foldlM_cons]
    have hr : e.diff x ((n + 1 : Nat) : Int) = (e.diff x).bind (fun d => d.diff x (n : Int)) := by
      unfold Expr.diff
      rw [Int.toNat_natCast]
      show (do iterPy _ n (← SymDifferentiator.call builtinDiff e x 1)) = _
      have h1 : (1 : Int).toNat = 1 := rfl
      rw [h1]
      simp only [iterPy, Int.toNat_natCast]
      cases SymDifferentiator.call builtinDiff e x 1 <;> rfl
    rw [hr]
    cases e.diff x with
    | error err => rfl
    | ok d => exact ih d

/-- **C58 for matrices.** -/
theorem C58_matrix (m : Mat) (hm : MatHistory m) (xs ys : List Expr) (hp : xs.Perm ys)
    (hx : ∀ x ∈ xs, (∀ n, x ≠ integer n) ∧ ∃ d, m.diff (.expr x) = .ok d) :
    ∃ d d', xs.foldlM (fun (m : Mat) x => m.diff (.expr x)) m = .ok d ∧
      ys.foldlM (fun (m : Mat) x => m.diff (.expr x)) m = .ok d' ∧
      d.nrows = d'.nrows ∧ d.ncols = d'.ncols ∧
      ∀ (i j : Nat) (a b : Expr), d.getItem (.pair i j) = .ok a → d'.getItem (.pair i j) = .ok b →
      ∀ values : Dict Expr ℝ, SymbolValues values → ∀ v w,
        a.evalF64 realOps (some values) = .ok v → b.evalF64 realOps (some values) = .ok w → v = w := by
  have hl : listH ∈ builtinDiff.distributive := by decide +kernel
  have hz : builtinDiff.zero = zero := by decide +kernel
  have hx0 : zero ∉ xs := fun h => (hx _ h).1 0 rfl
  have hy0 : zero ∉ ys := fun h => hx0 (hp.mem_iff.2 h)
  have hall : ∀ (i j : Nat) (e : Expr), m.getItem (.pair i j) = .ok e →
      ∀ x ∈ xs, (∀ n, x ≠ integer n) ∧ ∃ d, e.diff x = .ok d := by
    intro i j e he x hm'
    obtain ⟨h1, d, h2⟩ := hx x hm'
    obtain ⟨e', h3, _⟩ := ((C33_diff_elementwise m hm builtinDiff hl hz x (h1 0)).1 d h2).2.2 i j e he
    exact ⟨h1, e', h3⟩
  obtain ⟨x1, x2⟩ := C33_sequence m hm builtinDiff hl hz xs hx0
  obtain ⟨y1, y2⟩ := C33_sequence m hm builtinDiff hl hz ys hy0
  obtain ⟨d, hd⟩ := x2.2 (fun i j e he => by
    obtain ⟨a, _, ha, _⟩ := C58_order_of_differentiation e xs ys hp (hall i j e he)
    exact ⟨a, ha⟩)
  obtain ⟨d', hd'⟩ := y2.2 (fun i j e he => by
    obtain ⟨_, b, _, hb, _⟩ := C58_order_of_differentiation e xs ys hp (hall i j e he)
    exact ⟨b, hb⟩)
  obtain ⟨_, a1, a2, a3⟩ := x1 d hd
  obtain ⟨_, b1, b2, b3⟩ := y1 d' hd'
  refine ⟨d, d', hd, hd', a1.trans b1.symm, a2.trans b2.symm, ?_⟩
  intro i j a b ha hb values hv v w hva hvb
  obtain ⟨hi, hj⟩ := getItem_inside ha
  have he := (history_wf hm).getItem i j (a1 ▸ hi) (a2 ▸ hj)
  obtain ⟨a', ha1, ha2⟩ := a3 i j _ he
  obtain ⟨b', hb1, hb2⟩ := b3 i j _ he
  rw [ha] at ha2
  rw [hb] at hb2
  obtain rfl := Except.ok.inj ha2
  obtain rfl := Except.ok.inj hb2
  obtain ⟨a'', b'', h1, h2, h3⟩ := C58_order_of_differentiation _ xs ys hp (hall i j _ he)
  obtain rfl := Except.ok.inj (ha1.symm.trans h1)
  obtain rfl := Except.ok.inj (hb1.symm.trans h2)
  exact h3 values hv v w hva hvb

theorem sequence_supported {S : List Expr} (xs : List Expr) (hx : zero ∉ xs) (m md : Mat)
    (hm : MatHistory m) (hs : MatSupported S m)
    (hd : xs.foldlM (fun (m : Mat) x => m.diff (.expr x)) m = .ok md) : MatSupported S md := by
  induction xs generalizing m with
  | nil => obtain rfl := Except.ok.inj hd; exact hs
  | cons x xs ih =>
    rw [List.mem_cons, not_or] at hx
    rw [List.foldlM_cons] at hd
    cases h1 : m.diff (.expr x) with
    | error err => rw [h1] at hd; cases hd
    | ok m1 =>
      rw [h1] at hd
      obtain ⟨a, b, _, _⟩ := diff_matrix_supported hm hs (fun h => hx.1 h.symm) h1
      exact ih hx.2 m1 a b hd

/-- What a compiled matrix returns, cell by cell. -/
theorem compiled_matrix_call {P : Platform ℝ} (hP : PlatformOK P exactMachine) {S : List Expr}
    (hg : GoodParams S ["_out"]) (hz : zero ∉ S) {s : Proc ℝ} (m : Mat) (f : Callable)
    (hm : MatHistory m) (hs : MatSupported S m) (hsize : m.nrows * m.ncols ≤ 2 ^ 31)
    (hf : Compiled P f S (.matrix m) s) (us : List ℝ) (hus : us.length = S.length) :
    ∃ id cells s', call P f (us.map .float) s = (.array id, s') ∧
      s'.arrays[id]? = some cells ∧ ∀ i j : Nat, i < m.nrows → j < m.ncols →
        ∃ e v, m.getItem (.pair i j) = .ok e ∧
          evalTree (irMeaning exactMachine S us) e = .ok v ∧ cells[i * m.ncols + j]? = some v := by
  obtain ⟨W, s0, s1, g1, g2⟩ := hf
  obtain ⟨f', s1', g3, g4⟩ := C59_matrix hP S m hm hg hs hsize hz
    (by simpa [ctypesParams] using C59_parameter_limit g1) s0
  rw [g1] at g3
  simp only [Prod.mk.injEq, Except.ok.injEq] at g3
  obtain ⟨rfl, rfl⟩ := g3
  obtain ⟨id, cells, s', g5, g6, g7, g8, g9⟩ := g4 W s g2 (us.map .float) us (forall₂_floats _)
    (by simp [hus])
  refine ⟨id, cells, s', g5, g9 (fun _ => False) s' (.refl _) (fun h => h), ?_⟩
  intro i j hi hj
  obtain ⟨e, v, g10, g11, g12⟩ := g8 i j hi hj
  exact ⟨e, v, g10, evaluates_iff.1 g11, g12⟩

/-- **C61, higher derivatives of matrices.** Without rounding, every cell that the function compiled
from `M.diff(x)` ... `.diff(x)` (`n` times) returns is the `n`-th derivative of the same cell of the
function compiled from `M`, on every open set on which no domain error occurs in that entry and its
derivatives up to the `n`-th. -/
theorem C61_matrix_nth {P : Platform ℝ} (hP : PlatformOK P exactMachine) (S : List Expr)
    (hg : GoodParams S ["_out"]) (hS : Symbols S) (m md : Mat) (x : Expr) (hm : MatHistory m)
    (hs : MatSupported S m) (hsize : m.nrows * m.ncols ≤ 2 ^ 31) (k : Nat) (hk : S[k]? = some x)
    (n : Nat) (hd : (List.replicate n x).foldlM (fun (m : Mat) x => m.diff (.expr x)) m = .ok md)
    (s : Proc ℝ) (f fd : Callable) (hf : Compiled P f S (.matrix m) s)
    (hfd : Compiled P fd S (.matrix md) s) (vs : List ℝ) (hlen : vs.length = S.length) (i j : Nat)
    (hi : i < m.nrows) (hj : j < m.ncols) :
    ∃ (e d : Expr) (G D : ℝ → ℝ), m.getItem (.pair i j) = .ok e ∧
      md.getItem (.pair i j) = .ok d ∧ e.diff x (n : Int) = .ok d ∧
      (∀ t, ∃ id cells s', call P f ((vs.set k t).map .float) s = (.array id, s') ∧
        s'.arrays[id]? = some cells ∧ cells[i * m.ncols + j]? = some (G t)) ∧
      (∀ t, ∃ id cells s', call P fd ((vs.set k t).map .float) s = (.array id, s') ∧
        s'.arrays[id]? = some cells ∧ cells[i * m.ncols + j]? = some (D t)) ∧
      ∀ U : Set ℝ, IsOpen U →
        (∀ r ≤ n, ∀ dr, e.diff x (r : Int) = .ok dr → ∀ t ∈ U, DefinedAt S (vs.set k t) dr) →
        ∀ t ∈ U, D t = iteratedDeriv n G t := by
  obtain ⟨name, rfl⟩ := hS x (List.mem_of_getElem? hk)
  have hz : zero ∉ S := fun h => by obtain ⟨_, h⟩ := hS _ h; cases h
  have hx : zero ∉ List.replicate n (symbol name : Expr) := by
    intro h
    have := List.eq_of_mem_replicate h
    cases this
  have hw := history_wf hm
  obtain ⟨hmd, h1, h2, h3⟩ :=
    (C33_sequence m hm builtinDiff (by decide +kernel) (by decide +kernel) _ hx).1 md hd
  have hsmd := sequence_supported _ hx m md hm hs hd
  have he := hw.getItem i j hi hj
  obtain ⟨d, hd1, hd2⟩ := h3 i j _ he
  rw [foldlM_replicate] at hd1
  have hse := entry_supported hm hs hi hj he
  have hsd := nth_supported S _ _ hse n d hd1
  have hall : ∀ t, ∃ v, evalTree (irMeaning exactMachine S (vs.set k t)) ((m.entry i j).getD zero) =
      .ok v ∧ ∃ id cells s', call P f ((vs.set k t).map .float) s = (.array id, s') ∧
        s'.arrays[id]? = some cells ∧ cells[i * m.ncols + j]? = some v := by
    intro t
    obtain ⟨id, cells, s', g1, g2, g3⟩ :=
      compiled_matrix_call hP hg hz m f hm hs hsize hf (vs.set k t) (by simp [hlen])
    obtain ⟨e, v, g4, g5, g6⟩ := g3 i j hi hj
    rw [he] at g4
    obtain rfl := Except.ok.inj g4
    exact ⟨v, g5, id, cells, s', g1, g2, g6⟩
  choose G hG1 hG2 using hall
  have halld : ∀ t, ∃ v, evalTree (irMeaning exactMachine S (vs.set k t)) d = .ok v ∧
      ∃ id cells s', call P fd ((vs.set k t).map .float) s = (.array id, s') ∧
        s'.arrays[id]? = some cells ∧ cells[i * m.ncols + j]? = some v := by
    intro t
    obtain ⟨id, cells, s', g1, g2, g3⟩ :=
      compiled_matrix_call hP hg hz md fd hmd hsmd (by rw [h1, h2]; exact hsize) hfd (vs.set k t)
        (by simp [hlen])
    obtain ⟨d', v, g4, g5, g6⟩ := g3 i j (h1.symm ▸ hi) (h2.symm ▸ hj)
    rw [hd2] at g4
    obtain rfl := Except.ok.inj g4
    exact ⟨v, g5, id, cells, s', g1, g2, by rw [← h2]; exact g6⟩
  choose D hD1 hD2 using halld
  refine ⟨_, d, G, D, he, hd2, hd1, hG2, hD2, ?_⟩
  intro U hU hdef t ht
  have htot : ∀ e, Supported S e → ∀ us : List ℝ, us.length = S.length →
      ∃ v, evalTree (irMeaning exactMachine S us) e = .ok v := by
    intro e hs us hus
    obtain ⟨W, s0, s1, g1, g2⟩ := hf
    have hmax : S.length ≤ P.maxArgs := by
      have := C59_parameter_limit g1
      simp only [ctypesParams, List.length_map] at this
      omega
    have hg' : GoodParams S := by
      obtain ⟨names, n1, n2, n3⟩ := hg
      exact ⟨names, n1, n2, fun a ha => ⟨(n3 a ha).1, (n3 a ha).2.1, List.not_mem_nil⟩⟩
    obtain ⟨g, s', hgc, _⟩ := compiled_exists_of_le hP hg' hs Proc.start hmax
    obtain ⟨v, hv, _⟩ := compiled_call hP hg' hs hgc _ us (forall₂_floats us) (by simp [hus])
    exact ⟨v, hv⟩
  exact (ir_nth S (goodParams_nodup hg) hS _ _ hse k hk vs hlen htot G hG1 U hU n hdef d hd1 t ht _
    (hD1 t)).symm

theorem entry11_exponents (n : Nat) (a : Expr) (m : Int)
    (h : ArgSub (add (mul x y) (integer 1)) (pow a (integer m))) : (n : Int) ≤ m := by
  have hm := ((C05_topological_sort false _).1 _).2 h
  revert hm
  rw [show topologicalSort false [] (add (mul x y) (integer 1)) =
    [x, y, mul x y, integer 1, add (mul x y) (integer 1)] from by decide +kernel]
  intro hm
  simp only [List.mem_cons, List.not_mem_nil, or_false] at hm
  rcases hm with h | h | h | h | h
  all_goals first
    | cases h
    | exact absurd (List.cons.inj (Tree.node.inj h)).1 (by decide)

/-- `Matrix([[x, 0], [2, x*y + 1]])` differentiated twice with respect to `x`: both matrices can be
compiled, and the cell `[1, 1]` of the second array is everywhere the second derivative of that of the
first. -/
example {P : Platform ℝ} (hP : PlatformOK P exactMachine) (b : ℝ) :
    ∃ md f fd s G, (List.replicate 2 x).foldlM (fun (m : Mat) x => m.diff (.expr x)) sampleMat = .ok md ∧
      Compiled P f [x, y] (.matrix sampleMat) s ∧ Compiled P fd [x, y] (.matrix md) s ∧
      (∀ t, ∃ id cells s', call P f [.float t, .float b] s = (.array id, s') ∧
        s'.arrays[id]? = some cells ∧ cells[3]? = some (G t)) ∧
      ∀ t, ∃ id cells s', call P fd [.float t, .float b] s = (.array id, s') ∧
        s'.arrays[id]? = some cells ∧ cells[3]? = some (iteratedDeriv 2 G t) := by
  obtain ⟨hm, hs, hg, hz, hsize, _⟩ := sampleMat_compiles
  have hx : zero ∉ List.replicate 2 (x : Expr) := by decide
  have hyes : ((List.replicate 2 x).foldlM (fun (m : Mat) x => m.diff (.expr x))
      sampleMat).toOption.isSome := by decide +kernel
  obtain ⟨md, hmd⟩ : ∃ md, (List.replicate 2 x).foldlM (fun (m : Mat) x => m.diff (.expr x))
      sampleMat = .ok md := by
    cases h : (List.replicate 2 x).foldlM (fun (m : Mat) x => m.diff (.expr x)) sampleMat with
    | ok md => exact ⟨md, rfl⟩
    | error e => rw [h] at hyes; cases hyes
  obtain ⟨q1, q3, q4, _⟩ := (C33_sequence sampleMat hm builtinDiff (by decide +kernel)
    (by decide +kernel) _ hx).1 md hmd
  have q2 := sequence_supported _ hx sampleMat md hm hs hmd
  obtain ⟨f, s1, hf, _⟩ := C59_matrix (P := P) hP [x, y] sampleMat hm hg hs hsize hz
    (Nat.le_trans (by decide) hP.maxArgs) Proc.start
  obtain ⟨fd, s, hfd, _⟩ := C59_matrix (P := P) hP [x, y] md q1 hg q2 (by rw [q3, q4]; exact hsize) hz
    (Nat.le_trans (by decide) hP.maxArgs) s1
  have hl : Later P (fun _ => False) s1 s := by
    have := Later.step (P := P) (W := fun _ => False) (Later.refl s1)
      (Event.lambdify ([x, y].map .expr) (.matrix md) s1)
    rw [hfd] at this
    exact this
  have hf : Compiled P f [x, y] (.matrix sampleMat) s := ⟨_, _, _, hf, hl⟩
  have hfd : Compiled P fd [x, y] (.matrix md) s := ⟨fun _ => False, _, _, hfd, .refl _⟩
  obtain ⟨e, d, G, D, g1, g2, g3, g4, g5, g6⟩ := C61_matrix_nth hP [x, y] hg symbols_xy sampleMat md x
    hm hs hsize 0 rfl 2 hmd s f fd hf hfd [0, b] rfl 1 1 (by decide) (by decide)
  have he : sampleMat.getItem (.pair (1 : Nat) (1 : Nat)) = .ok (add (mul x y) (integer 1)) := by
    decide +kernel
  rw [he] at g1
  obtain rfl := Except.ok.inj g1
  have hel : Elementary [x, y] (add (mul x y) (integer 1)) := by
    refine .add (by simp) ?_
    intro u hu
    rcases List.mem_pair.1 hu with rfl | rfl
    · refine .mul (by simp) ?_
      intro u hu
      rcases List.mem_pair.1 hu with rfl | rfl
      · exact .param (by simp)
      · exact .param (by simp)
    · exact .int (by norm_num)
  have hD : ∀ t, D t = iteratedDeriv 2 G t := by
    intro t
    refine g6 Set.univ isOpen_univ ?_ t trivial
    intro r hr dr hdr t _
    have htow := elementary_tower (N := 2 ^ 1024 - 2 ^ 970 - 1) 2 hel
      (fun m _ h => Int.le_sub_one_of_lt h) (entry11_exponents 2)
    obtain ⟨dr', hdr', htr⟩ := tower_nth (N := 2 ^ 1024 - 2 ^ 970 - 1) (by norm_num) symbols_xy (List.mem_of_getElem? (i := 0) rfl) r
      (2 - r) _ (by rwa [Nat.sub_add_cancel hr])
    rw [hdr] at hdr'
    obtain rfl := Except.ok.inj hdr'
    exact definedAt_hasVal.2 (tower_defined (by norm_num) symbols_xy (by simp) htr)
  refine ⟨md, f, fd, s, G, hmd, hf, hfd, g4, fun t => ?_⟩
  rw [← hD t]
  exact g5 t

/-- `Matrix([[x, 0], [2, x*y + 1]])` differentiated by `x`, then `y`, and the other way round. -/
example : ∃ d d', [x, y].foldlM (fun (m : Mat) x => m.diff (.expr x)) sampleMat = .ok d ∧
    [y, x].foldlM (fun (m : Mat) x => m.diff (.expr x)) sampleMat = .ok d' ∧
    d.getItem (.pair (1 : Nat) (1 : Nat)) = .ok (mul one one) ∧
    d'.getItem (.pair (1 : Nat) (1 : Nat)) = .ok (mul one one) := by
  have hyes : ∀ u ∈ [x, y], (sampleMat.diff (.expr u)).toOption.isSome := by decide +kernel
  obtain ⟨d, d', h1, h2, _⟩ := C58_matrix sampleMat sampleMat_compiles.1 [x, y] [y, x]
    (.swap _ _ _) (fun u hu => ⟨(by
      intro n h
      rcases List.mem_pair.1 hu with rfl | rfl <;> cases h), by
      have := hyes u hu
      cases h : sampleMat.diff (.expr u) with
      | ok md => exact ⟨md, rfl⟩
      | error e => rw [h] at this; cases this⟩)
  have a1 : ([x, y].foldlM (fun (m : Mat) x => m.diff (.expr x)) sampleMat).bind
    (fun d => d.getItem (.pair (1 : Nat) (1 : Nat))) = .ok (mul one one) := by decide +kernel
  have a2 : ([y, x].foldlM (fun (m : Mat) x => m.diff (.expr x)) sampleMat).bind
    (fun d => d.getItem (.pair (1 : Nat) (1 : Nat))) = .ok (mul one one) := by decide +kernel
  rw [h1] at a1
  rw [h2] at a2
  exact ⟨d, d', h1, h2, a1, a2⟩

end Verif.Props
