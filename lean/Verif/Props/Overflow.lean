import Verif.Spec.Overflow
import Verif.Props.CompiledError
import Verif.Props.Binary64
import Verif.Props.DiffExact

/-!
# C74: results that are numbers are accurate, whether or not something overflows
-/

set_option exponentiation.threshold 2000

namespace Verif.Props
open Spec Expr

variable {F : Type} {val : F → Option ℝ} {u small hi : ℝ}

/-- If the float `v` stands for a number, it is near `r`. -/
def IfNear (val : F → Option ℝ) (u : ℝ) (v : F) (r M : ℝ) (D : ℕ) : Prop :=
  |r| ≤ M ∧ ∀ z, val v = some z → |z - r| ≤ ((1 + u) ^ D - 1) * M

theorem IfNear.mono {v : F} {r M : ℝ} {D D' : ℕ} (hu : 0 ≤ u) (h : IfNear val u v r M D) (hD : D ≤ D') :
    IfNear val u v r M D' :=
  ⟨h.1, fun z hz => near_mono h.1 (h.2 z hz) (pow_le_pow_right₀ (by linarith) hD)⟩

theorem ifNear_foldl_add {add : F → F → F} (ha : ∀ a b z, val (add a b) = some z →
      ∃ x y, val a = some x ∧ val b = some y ∧ |z - (x + y)| ≤ u * |x + y|) (hu : 0 ≤ u) (k : ℕ)
    (l : List (F × ℝ × ℝ)) (hl : ∀ p ∈ l, IfNear val u p.1 p.2.1 p.2.2 k) (v : F) (r M : ℝ) (j : ℕ)
    (hv : IfNear val u v r M (k + j)) :
    IfNear val u ((l.map fun p => p.1).foldl add v) (r + (l.map fun p => p.2.1).sum)
      (M + (l.map fun p => p.2.2).sum) (k + j + l.length) := by
  induction l generalizing v r M j with
  | nil => simpa using hv
  | cons p l ih =>
    have hp := (hl p (by simp)).mono hu (D' := k + j) (by omega)
    have hr : |r + p.2.1| ≤ M + p.2.2 := (abs_add_le _ _).trans (by linarith [hv.1, hp.1])
    have := ih (fun q hq => hl q (by simp [hq])) (add v p.1) (r + p.2.1) (M + p.2.2) (j + 1) (by
      refine ⟨hr, fun z hz => ?_⟩
      obtain ⟨x, y, h1, h2, h3⟩ := ha _ _ _ hz
      have h4 := near_round hu hr (near_add (hv.2 x h1) (hp.2 y h2)) h3
      rwa [← pow_succ] at h4)
    simp only [List.map_cons, List.foldl_cons, List.sum_cons, List.length_cons]
    rw [← add_assoc, ← add_assoc, show k + j + (l.length + 1) = k + (j + 1) + l.length by omega]
    exact this

theorem ifNear_foldl_mul {mul : F → F → F} (hm : ∀ a b z, val (mul a b) = some z →
      ∃ x y, val a = some x ∧ val b = some y ∧ |z - x * y| ≤ u * max |x * y| small) (hu : 0 ≤ u)
    (hsm : 0 ≤ small) (l : List (F × ℝ × ℝ × ℕ))
    (hl : ∀ p ∈ l, IfNear val u p.1 p.2.1 p.2.2.1 p.2.2.2)
    (v : F) (r M : ℝ) (D : ℕ) (hv : IfNear val u v r M D) (E : ℕ)
    (hE : D + (l.map fun p => p.2.2.2).sum + l.length ≤ E) :
    IfNear val u (l.foldl (fun w p => mul w p.1) v) (l.foldl (fun q p => q * p.2.1) r)
      (l.foldl (fun q p => q * p.2.2.1 + small) M) E := by
  induction l generalizing v r M D with
  | nil => exact hv.mono hu (by simpa using hE)
  | cons p l ih =>
    have hp := hl p (by simp)
    have hg1 := one_le_growth hu D
    have hg2 := one_le_growth hu p.2.2.2
    simp only [List.map_cons, List.sum_cons, List.length_cons] at hE
    have h7 : |r * p.2.1| ≤ M * p.2.2.1 := by
      rw [abs_mul]
      exact mul_le_mul hv.1 hp.1 (abs_nonneg _) ((abs_nonneg _).trans hv.1)
    refine ih (fun q hq => hl q (by simp [hq])) (mul v p.1) (r * p.2.1) (M * p.2.2.1 + small)
      (D + p.2.2.2 + 1) ⟨by linarith, fun z hz => ?_⟩ (by omega)
    obtain ⟨x, y, h1, h2, h3⟩ := hm _ _ _ hz
    have h8 := (near_mul hg1 hv.1 (hv.2 x h1) hp.1 (hp.2 y h2)).2
    have h11 := near_round_small hu hsm (one_le_mul_of_one_le_of_one_le hg1 hg2) h7 h8 h3
    rwa [← pow_add, ← pow_succ] at h11

/-- What an evaluation does with the operations. -/
structure PropMeaning (val : F → Option ℝ) (u small : ℝ) (Mg : Meaning Val F) : Prop where
  add : ∀ (l : List (F × ℝ × ℝ)) (k : ℕ) (D : ℕ) v, l ≠ [] →
    (∀ p ∈ l, IfNear val u p.1 p.2.1 p.2.2 k) → k + 1 ≤ D → k + l.length ≤ D + 1 →
    Mg.op addH (l.map fun p => p.1) = .ok v →
    IfNear val u v (l.map fun p => p.2.1).sum (l.map fun p => p.2.2).sum D
  mul : ∃ mul : F → F → F, (∀ a b z, val (mul a b) = some z →
      ∃ x y, val a = some x ∧ val b = some y ∧ |z - x * y| ≤ u * max |x * y| small) ∧
    ∀ a vs, Mg.op mulH (a :: vs) = .ok (vs.foldl mul a)
  pow : ∀ a b x (n : ℤ) v z, (x = 0 → 0 ≤ n) → val a = some x → val b = some (n : ℝ) →
    Mg.op powH [a, b] = .ok v → val v = some z → |z - x ^ n| ≤ u * max |x ^ n| small
  base : ∀ a b (n : ℤ) v z, 1 ≤ n → val b = some (n : ℝ) → Mg.op powH [a, b] = .ok v →
    val v = some z → ∃ x, val a = some x
  power0 : ∀ a b v, val b = some 0 → Mg.op powH [a, b] = .ok v → val v = some 1
  sin : ∀ a v z, Mg.op sinH [a] = .ok v → val v = some z →
    ∃ x, val a = some x ∧ |z - Real.sin x| ≤ u
  cos : ∀ a v z, Mg.op cosH [a] = .ok v → val v = some z →
    ∃ x, val a = some x ∧ |z - Real.cos x| ≤ u

theorem machine_prop {A : IRArith F} (hA : Accurate val u small hi A) (hp : Propagates val u small A)
    (hu : 0 ≤ u) (S : List Expr) (vs : List F) : PropMeaning val u small (irMeaning A S vs) where
  add := by
    intro l k D v hne hl hk hD hv
    obtain ⟨p, l, rfl⟩ := List.exists_cons_of_ne_nil hne
    obtain rfl := Except.ok.inj hv
    simp only [List.length_cons] at hD
    exact (ifNear_foldl_add hp.add hu k l (fun q hq => hl q (by simp [hq])) p.1 p.2.1 p.2.2 0
      (hl p (by simp))).mono hu (by omega)
  mul := ⟨A.fmul, hp.mul, fun a vs => rfl⟩
  pow := by
    intro a b x n v z h1 h2 h3 hv h4
    obtain rfl := Except.ok.inj hv
    exact hp.pow a b x n z h1 h2 h3 h4
  base := by
    intro a b n v z h1 h3 hv h4
    obtain rfl := Except.ok.inj hv
    exact hp.base a b n z h1 h3 h4
  power0 := by
    intro a b v h1 hv
    obtain rfl := Except.ok.inj hv
    exact hp.power0 a b h1
  sin := by
    intro a v z hv h
    obtain rfl := Except.ok.inj hv
    obtain ⟨x, hx⟩ := hp.sin a z h
    obtain ⟨z', h1, h2⟩ := hA.sin a x hx
    obtain rfl := Option.some.inj (h.symm.trans h1)
    exact ⟨x, hx, h2⟩
  cos := by
    intro a v z hv h
    obtain rfl := Except.ok.inj hv
    obtain ⟨x, hx⟩ := hp.cos a z h
    obtain ⟨z', h1, h2⟩ := hA.cos a x hx
    obtain rfl := Option.some.inj (h.symm.trans h1)
    exact ⟨x, hx, h2⟩

theorem sum_ifNear {k : ℕ} (l : List (F × ℝ × ℝ)) (hl : ∀ p ∈ l, IfNear val u p.1 p.2.1 p.2.2 k)
    (xs : List ℝ) (hx : List.Forall₂ (fun v x => val v = some x) (l.map fun p => p.1) xs) :
    |xs.sum - (l.map fun p => p.2.1).sum| ≤ ((1 + u) ^ k - 1) * (l.map fun p => p.2.2).sum := by
  induction l generalizing xs with
  | nil => cases hx; simp
  | cons p l ih =>
    cases hx with
    | @cons _ x _ xs h1 h2 =>
      simp only [List.map_cons, List.sum_cons]
      exact near_add ((hl p (by simp)).2 x h1) (ih (fun q hq => hl q (by simp [hq])) xs h2)

theorem abs_sum_ifNear {k : ℕ} (l : List (F × ℝ × ℝ)) (hl : ∀ p ∈ l, IfNear val u p.1 p.2.1 p.2.2 k) :
    |(l.map fun p => p.2.1).sum| ≤ (l.map fun p => p.2.2).sum := by
  induction l with
  | nil => simp
  | cons p l ih =>
    simp only [List.map_cons, List.sum_cons]
    exact (abs_add_le _ _).trans (by linarith [(hl p (by simp)).1, ih (fun q hq => hl q (by simp [hq]))])

theorem python_prop [HasNone F] {B : FloatOps F} (hB : AccuratePython val u small hi B)
    (hp : PropagatesPython val u small B) (hu : 0 ≤ u) (env : Expr → Option F) :
    PropMeaning val u small (meaning (evalF64 B) env) where
  add := by
    intro l k D v hne hl hk hD hv
    rw [f64_op] at hv
    have h0 := abs_sum_ifNear l hl
    refine IfNear.mono hu (D := k + 1) ⟨h0, fun z hz => ?_⟩ hk
    obtain ⟨xs, h1, h2⟩ := hp.fsum _ v z hv hz
    have := near_round hu h0 (sum_ifNear l hl xs h1) h2
    rwa [← pow_succ] at this
  mul := by
    obtain ⟨mul, h1, h2⟩ := hp.prod
    exact ⟨mul, h1, fun a vs => by rw [f64_op]; exact h2 a vs⟩
  pow := by rw [f64_op]; exact hp.pow
  base := by rw [f64_op]; exact hp.base
  power0 := by rw [f64_op]; exact hp.power0
  sin := by
    rw [f64_op]
    intro a v z hv h
    obtain ⟨x, hx⟩ := hp.sin a v z hv h
    obtain ⟨v', z', h1, h2, h3⟩ := hB.sin a x hx
    obtain rfl := Except.ok.inj (h1.symm.trans hv)
    obtain rfl := Option.some.inj (h2.symm.trans h)
    exact ⟨x, hx, h3⟩
  cos := by
    rw [f64_op]
    intro a v z hv h
    obtain ⟨x, hx⟩ := hp.cos a v z hv h
    obtain ⟨v', z', h1, h2, h3⟩ := hB.cos a x hx
    obtain rfl := Except.ok.inj (h1.symm.trans hv)
    obtain rfl := Option.some.inj (h2.symm.trans h)
    exact ⟨x, hx, h3⟩

/-- Something that has a value is an operation on the values of its arguments. -/
theorem value_node {Mg : Meaning Val F} {h : Expr} {args : List Expr} {v : F}
    (hv : evalTree Mg (.node (h :: args)) = .ok v) :
    ∃ g : Expr → F, (∀ a ∈ args, evalTree Mg a = .ok (g a)) ∧ Mg.op h (args.map g) = .ok v := by
  rw [evalTree_node _ rfl] at hv
  change args.mapM (evalTree Mg) >>= Mg.op h = _ at hv
  have hg : ∀ a ∈ args, evalTree Mg a = .ok (match evalTree Mg a with | .ok w => w | .error _ => v) := by
    cases hm : args.mapM (evalTree Mg) with
    | error err => rw [hm] at hv; cases hv
    | ok vs =>
      clear hv
      have := (mapM_forall₂ _ _ _).1 hm
      clear hm
      induction this with
      | nil => intro a ha; cases ha
      | cons h _ ih =>
        intro a ha
        rcases List.mem_cons.1 ha with rfl | ha
        · rw [h]
        · exact ih a ha
  refine ⟨_, hg, ?_⟩
  rw [mapM_of_forall args hg] at hv
  exact hv

theorem safe_sub {S : List Expr} {xs : List ℝ} {e t : Expr} (h : SafeExponents S xs u small hi e)
    (ht : ArgSub e t) : SafeExponents S xs u small hi t :=
  fun a c n hs hc => h a c n (argSub_trans ht hs) hc

/-- The error of an evaluation, if its result is a number. -/
theorem eval_ifNear {Mg : Meaning Val F} (hG : GoodMeaning val u small hi Mg)
    (hp : PropMeaning val u small Mg) (hu : 0 ≤ u)
    (hsm : 0 ≤ small) {S : List Expr} (hS : Symbols S) (hn : S.Nodup)
    {xs : List ℝ} (hxs : S.length = xs.length)
    (hparam : ∀ t x, (t, x) ∈ S.zip xs → ∃ v, evalTree Mg t = .ok v ∧ val v = some x)
    (hint : ∀ (n : Int) b q, doubleBits n = some b → doubleValue b = some q →
      ∃ v, evalTree Mg (integer n) = .ok v ∧ val v = some (q : ℝ))
    {hi' : ℝ} {e : Expr} {M : ℝ} {D : ℕ} (h : ErrBound S xs u small hi' e M D)
    (hs : SafeExponents S xs u small hi e) :
    ∃ r, ExactValue S xs e r ∧ |r| ≤ M ∧ ∀ v, evalTree Mg e = .ok v → IfNear val u v r M D := by
  induction h with
  | @param t x ht =>
    obtain ⟨v, h1, h2⟩ := hparam t x ht
    refine ⟨x, .param ht, le_rfl, fun w hw => ⟨le_rfl, fun z hz => ?_⟩⟩
    obtain rfl := Except.ok.inj (h1.symm.trans hw)
    obtain rfl := Option.some.inj (h2.symm.trans hz)
    simp
  | @int n hn' =>
    obtain ⟨v, h1, h2⟩ := smallInt_eval hG hint (.lit hn')
    refine ⟨n, .int n, le_rfl, fun w hw => ⟨le_rfl, fun z hz => ?_⟩⟩
    obtain rfl := Except.ok.inj (h1.symm.trans hw)
    obtain rfl := Option.some.inj (h2.symm.trans hz)
    simp
  | @bigInt n hn' hu' =>
    obtain ⟨b, q, h1, h2, h3, _⟩ := doubleBits_near n hn'
    obtain ⟨v, h4, h5⟩ := hint n b q h1 h2
    refine ⟨n, .int n, le_rfl, fun w hw => ⟨le_rfl, fun z hz => ?_⟩⟩
    obtain rfl := Except.ok.inj (h4.symm.trans hw)
    obtain rfl := Option.some.inj (h5.symm.trans hz)
    rw [pow_one, add_sub_cancel_left]
    exact h3.trans (mul_le_mul_of_nonneg_right hu' (abs_nonneg _))
  | @add args M k D hne _ hk _ ih =>
    have hcl : ∀ a, ∃ r : ℝ, a ∈ args → ExactValue S xs a r ∧ |r| ≤ M a ∧
        ∀ v, evalTree Mg a = .ok v → IfNear val u v r (M a) (k a) := by
      intro a
      by_cases ha : a ∈ args
      · obtain ⟨r, h1⟩ := ih a ha (safe_sub hs (argSub_arg ha))
        exact ⟨r, fun _ => h1⟩
      · exact ⟨0, fun h => absurd h ha⟩
    choose r hr using hcl
    obtain ⟨K, hK1, hK2, hK3⟩ : ∃ K, (∀ a ∈ args, k a ≤ K) ∧ K + 1 ≤ D ∧ K + args.length ≤ D + 1 := by
      have hlen := List.length_pos_of_ne_nil hne
      obtain ⟨b, hb⟩ := List.exists_mem_of_ne_nil args hne
      have := hk b hb
      refine ⟨min (D - 1) (D + 1 - args.length), fun a ha => ?_, by omega, by omega⟩
      have := hk a ha
      omega
    refine ⟨(args.map r).sum, .add fun a ha => (hr a ha).1, ?_, ?_⟩
    · have : ∀ l : List Expr, (∀ a ∈ l, |r a| ≤ M a) → |(l.map r).sum| ≤ (l.map M).sum := by
        intro l
        induction l with
        | nil => simp
        | cons a l ih =>
          intro h
          simp only [List.map_cons, List.sum_cons]
          exact (abs_add_le _ _).trans (add_le_add (h a (by simp)) (ih fun b hb => h b (by simp [hb])))
      exact this args fun a ha => (hr a ha).2.1
    · intro v hv
      obtain ⟨g, hg, hop⟩ := value_node hv
      have := hp.add (args.map fun a => (g a, r a, M a)) K D v (by simpa using hne)
        (by
          intro q hq
          obtain ⟨a, ha, rfl⟩ := List.mem_map.1 hq
          exact ((hr a ha).2.2 _ (hg a ha)).mono hu (hK1 a ha)) hK2 (by simpa using hK3)
        (by simpa [List.map_map, Function.comp_def] using hop)
      simpa only [List.map_map, Function.comp_def] using this
  | @mul a args M k D _ hD _ ih =>
    have hcl : ∀ b, ∃ r : ℝ, b ∈ a :: args → ExactValue S xs b r ∧ |r| ≤ M b ∧
        ∀ v, evalTree Mg b = .ok v → IfNear val u v r (M b) (k b) := by
      intro b
      by_cases hb : b ∈ a :: args
      · obtain ⟨r, h1⟩ := ih b hb (safe_sub hs (argSub_arg hb))
        exact ⟨r, fun _ => h1⟩
      · exact ⟨0, fun h => absurd h hb⟩
    choose r hr using hcl
    have hprod : List.foldl (fun q b => q * r b) (r a) args = ((a :: args).map r).prod := by
      rw [List.map_cons, List.prod_cons, ← foldl_prod, List.foldl_map]
    refine ⟨((a :: args).map r).prod, .mul fun b hb => (hr b hb).1, ?_, ?_⟩
    · rw [← hprod]
      have : ∀ (l : List Expr) (q m : ℝ), (∀ b ∈ l, |r b| ≤ M b) → |q| ≤ m →
          |l.foldl (fun q b => q * r b) q| ≤ l.foldl (fun p b => p * M b + small) m := by
        intro l
        induction l with
        | nil => intro q m _ h; exact h
        | cons b l ih =>
          intro q m h1 h2
          refine ih _ _ (fun c hc => h1 c (by simp [hc])) ?_
          rw [abs_mul]
          have := mul_le_mul h2 (h1 b (by simp)) (abs_nonneg _) ((abs_nonneg _).trans h2)
          linarith
      exact this args _ _ (fun b hb => (hr b (by simp [hb])).2.1) (hr a (by simp)).2.1
    · intro v hv
      obtain ⟨g, hg, hop⟩ := value_node hv
      obtain ⟨mul, hm1, hm2⟩ := hp.mul
      rw [List.map_cons, hm2, List.foldl_map] at hop
      obtain rfl := Except.ok.inj hop
      have hnear := ifNear_foldl_mul hm1 hu hsm (args.map fun b => (g b, r b, M b, k b)) (by
        intro q hq
        obtain ⟨b, hb, rfl⟩ := List.mem_map.1 hq
        exact (hr b (by simp [hb])).2.2 _ (hg b (by simp [hb]))) (g a) (r a) (M a) (k a)
        ((hr a (by simp)).2.2 _ (hg a (by simp))) D (by
        simpa [List.map_map, Function.comp_def] using hD)
      rw [List.foldl_map, List.foldl_map, List.foldl_map] at hnear
      rwa [hprod] at hnear
  | @pow a c M k n _ hc _ ih =>
    obtain ⟨r, h1, h2, h3⟩ := ih (safe_sub hs (argSub_arg (by simp)))
    have hg := one_le_growth hu k
    have h6 : |r ^ n| ≤ M ^ n := by
      rw [abs_pow]
      exact pow_le_pow_left₀ (abs_nonneg _) h2 n
    have hgn : 1 ≤ ((1 + u) ^ k) ^ n := one_le_pow₀ hg
    have hev := ExactValue.pow (n : ℤ) h1 (smallInt_exact hc) (fun _ => by omega)
    rw [zpow_natCast] at hev
    refine ⟨r ^ n, hev, by linarith, ?_⟩
    intro v hv
    obtain ⟨g, hg', hop⟩ := value_node hv
    obtain ⟨w, g5, g6⟩ := smallInt_eval hG hint hc
    obtain rfl : w = g c := Except.ok.inj (g5.symm.trans (hg' c (by simp)))
    refine ⟨by linarith, fun z hz => ?_⟩
    by_cases h0 : n = 0
    · subst h0
      have := hp.power0 (g a) (g c) v (by rw [g6]; simp) hop
      rw [hz] at this
      obtain rfl := Option.some.inj this
      rw [pow_zero, sub_self, abs_zero]
      exact mul_nonneg (by linarith [one_le_growth hu (0 * k + 1)]) (by rw [pow_zero]; linarith)
    · obtain ⟨x, hx⟩ := hp.base (g a) (g c) n v z (by omega) g6 hop hz
      have h7 := (near_pow hg h2 ((h3 _ (hg' a (by simp))).2 x hx) n).2
      have g9 := hp.pow (g a) (g c) x n v z (fun _ => by omega) hx g6 hop hz
      rw [zpow_natCast] at g9
      have := near_round_small hu hsm hgn h6 h7 g9
      rw [← pow_mul, mul_comm k n, ← pow_succ] at this
      exact this
  | @powNeg a c r0 M k L n _ hc hr0 hL hLr _ ih =>
    obtain ⟨r, h1, h2, h3⟩ := ih (safe_sub hs (argSub_arg (by simp)))
    obtain rfl : r0 = r := exact_unique hS hn hxs.symm hr0 h1
    have hg := one_le_growth hu k
    have hzp : ∀ t : ℝ, t ^ (-n : ℤ) = t⁻¹ ^ n := by intro t; rw [zpow_neg, zpow_natCast, inv_pow]
    have hself : |r0 - r0| ≤ ((1 + u) ^ k - 1) * M := by
      rw [sub_self, abs_zero]
      exact mul_nonneg (by linarith) ((abs_nonneg _).trans h2)
    obtain ⟨_, hr0', i1, _⟩ := near_inv hg h2 hself hL hLr
    have h6 : |r0⁻¹ ^ n| ≤ (M / L ^ 2) ^ n := by
      rw [abs_pow]
      exact pow_le_pow_left₀ (abs_nonneg _) i1 n
    have hgn : 1 ≤ ((1 + u) ^ k) ^ n := one_le_pow₀ hg
    have hev := ExactValue.pow (-n : ℤ) h1 (smallInt_exact hc) (fun h => absurd h hr0')
    rw [hzp] at hev
    refine ⟨_, hev, by linarith, ?_⟩
    intro v hv
    obtain ⟨g, hg', hop⟩ := value_node hv
    obtain ⟨w, g5, g6⟩ := smallInt_eval hG hint hc
    obtain rfl : w = g c := Except.ok.inj (g5.symm.trans (hg' c (by simp)))
    refine ⟨by linarith, fun z hz => ?_⟩
    rcases hs a c (-n) (argSub_refl _) hc with h0 | ⟨M', D', hb⟩
    · obtain rfl : n = 0 := by omega
      have := hp.power0 (g a) (g c) v (by rw [g6]; simp) hop
      rw [hz] at this
      obtain rfl := Option.some.inj this
      rw [pow_zero, sub_self, abs_zero]
      exact mul_nonneg (by linarith [one_le_growth hu (0 * k + 1)]) (by rw [pow_zero]; linarith)
    · obtain ⟨w', r', g1, _, x, hx, _⟩ := eval_near hG hu hsm hS hn hxs hparam hint hb
      obtain rfl : w' = g a := Except.ok.inj (g1.symm.trans (hg' a (by simp)))
      obtain ⟨hx0, _, _, i2⟩ := near_inv hg h2 ((h3 _ (hg' a (by simp))).2 x hx) hL hLr
      have h7 := (near_pow hg i1 i2 n).2
      have g9 := hp.pow (g a) (g c) x (-n) v z (fun h => absurd h hx0) hx g6 hop hz
      rw [hzp] at g9
      have := near_round_small hu hsm hgn h6 h7 g9
      rw [← pow_mul, mul_comm k n, ← pow_succ] at this
      exact this
  | @sin a M k _ ih =>
    obtain ⟨r, h1, h2, h3⟩ := ih (safe_sub hs (argSub_arg (by simp)))
    have hM : 0 ≤ M := (abs_nonneg _).trans h2
    refine ⟨Real.sin r, .sin h1, (Real.abs_sin_le_one r).trans (by linarith), fun v hv =>
      ⟨(Real.abs_sin_le_one r).trans (by linarith), fun z' hz => ?_⟩⟩
    obtain ⟨g, hg', hop⟩ := value_node hv
    obtain ⟨z, hx, g3⟩ := hp.sin (g a) v z' hop hz
    have h5 := (h3 _ (hg' a (by simp))).2 z hx
    have hl : |Real.sin z - Real.sin r| ≤ |z - r| := sin_lipschitz z r
    have := abs_sub_le z' (Real.sin z) (Real.sin r)
    have hg := one_le_growth hu k
    rw [pow_succ]
    nlinarith [mul_nonneg (mul_nonneg (le_trans zero_le_one hg) hu) hM]
  | @cos a M k _ ih =>
    obtain ⟨r, h1, h2, h3⟩ := ih (safe_sub hs (argSub_arg (by simp)))
    have hM : 0 ≤ M := (abs_nonneg _).trans h2
    refine ⟨Real.cos r, .cos h1, (Real.abs_cos_le_one r).trans (by linarith), fun v hv =>
      ⟨(Real.abs_cos_le_one r).trans (by linarith), fun z' hz => ?_⟩⟩
    obtain ⟨g, hg', hop⟩ := value_node hv
    obtain ⟨z, hx, g3⟩ := hp.cos (g a) v z' hop hz
    have h5 := (h3 _ (hg' a (by simp))).2 z hx
    have hl : |Real.cos z - Real.cos r| ≤ |z - r| := cos_lipschitz z r
    have := abs_sub_le z' (Real.cos z) (Real.cos r)
    have hg := one_le_growth hu k
    rw [pow_succ]
    nlinarith [mul_nonneg (mul_nonneg (le_trans zero_le_one hg) hu) hM]

theorem machine_ifNear {A : IRArith F} (hA : Accurate val u small hi A)
    (hp : Propagates val u small A) (hu : 0 ≤ u)
    (hsm : 0 ≤ small) {S : List Expr} (hS : Symbols S) (hn : S.Nodup) {vs : List F} {xs : List ℝ}
    (hx : List.Forall₂ (fun v x => val v = some x) vs xs) (hlen : S.length = vs.length) {hi' : ℝ}
    {e : Expr} {M : ℝ} {D : ℕ} (h : ErrBound S xs u small hi' e M D)
    (hs : SafeExponents S xs u small hi e) :
    ∃ r, ExactValue S xs e r ∧ |r| ≤ M ∧ ∀ v, evalTree (irMeaning A S vs) e = .ok v →
      IfNear val u v r M D := by
  refine eval_ifNear (machine_good hA hu S vs) (machine_prop hA hp hu S vs) hu hsm hS hn
    (hlen.trans hx.length_eq) ?_ ?_ h hs
  · intro t x ht
    obtain ⟨v, h1, _, h2⟩ := lastAssoc_values hn hx hlen ht
    obtain ⟨nm, rfl⟩ := hS t (List.of_mem_zip ht).1
    refine ⟨v, ?_, h2⟩
    rw [evalTree_leaf _ rfl]
    simp only [irMeaning, h1]
  · intro n b q hb hq
    refine ⟨A.const b, ?_, hA.const b q hq⟩
    rw [evalTree_leaf _ rfl]
    have : lastAssoc (integer n) (S.zip vs) = none :=
      lastAssoc_not_mem _ _ _ (fun hm => by obtain ⟨_, h⟩ := hS _ hm; cases h)
    simp only [irMeaning, this]
    simp only [integer, if_true, hb]

theorem python_ifNear [HasNone F] {B : FloatOps F} (hB : AccuratePython val u small hi B)
    (hp : PropagatesPython val u small B)
    (hu : 0 ≤ u) (hsm : 0 ≤ small) {S : List Expr} (hS : Symbols S) (hn : S.Nodup)
    {vs : List F} (hnone : ∀ v ∈ vs, HasNone.isNone v = false) {xs : List ℝ}
    (hx : List.Forall₂ (fun v x => val v = some x) vs xs) (hlen : S.length = vs.length) {hi' : ℝ}
    {e : Expr} {M : ℝ} {D : ℕ} (h : ErrBound S xs u small hi' e M D)
    (hs : SafeExponents S xs u small hi e) :
    ∃ r, ExactValue S xs e r ∧ |r| ≤ M ∧
      ∀ v, evalTree (meaning (evalF64 B) (fun t => lastAssoc t (S.zip vs))) e = .ok v →
        IfNear val u v r M D := by
  refine eval_ifNear (python_good hB hu _) (python_prop hB hp hu _) hu hsm hS hn
    (hlen.trans hx.length_eq) ?_ ?_ h hs
  · intro t x ht
    obtain ⟨v, h1, hm, h2⟩ := lastAssoc_values hn hx hlen ht
    obtain ⟨nm, rfl⟩ := hS t (List.of_mem_zip ht).1
    refine ⟨v, ?_, h2⟩
    rw [evalTree_leaf _ rfl]
    simp only [meaning, h1, hnone v hm]
    rfl
  · intro n b q hb hq
    obtain ⟨v, h1, h2⟩ := hB.ofInt n b q hb hq
    refine ⟨v, ?_, h2⟩
    rw [f64_integer _ _ _ (lastAssoc_not_mem _ _ _ (fun hm => by obtain ⟨_, h⟩ := hS _ hm; cases h))]
    exact h1

/-- **C74, compiled functions.**  Let `e` have magnitude `M` and `D` roundings at the point `xs`, in
whatever range `hi'`, and no negative exponents except over bases that stay in the range `hi` of the
arithmetic.  The compiled function returns a float, and if it is a number it differs from the exact
value of `e` by at most `((1 + u)^D - 1)*M`, whether or not something overflowed. -/
theorem C74_lambdify {P : Platform F} {A : IRArith F} (hP : PlatformOK P A)
    (hA : Accurate val u small hi A) (hp : Propagates val u small A) (hu : 0 ≤ u) (hsm : 0 ≤ small)
    (S : List Expr) (hg : GoodParams S) (hS : Symbols S) (e : Expr) (s : Proc F) (f : Callable)
    (hf : Compiled P f S (.expr e) s) (args : List (CallArg F)) (vs : List F) (xs : List ℝ)
    (hv : List.Forall₂ (IsDouble A) args vs)
    (hx : List.Forall₂ (fun v x => val v = some x) vs xs) (hlen : args.length = S.length)
    (hi' M : ℝ) (D : ℕ) (hb : ErrBound S xs u small hi' e M D)
    (hs : SafeExponents S xs u small hi e) :
    ∃ w r, call P f args s = (.float w, s) ∧ ExactValue S xs e r ∧
      ∀ z, val w = some z → |z - r| ≤ ((1 + u) ^ D - 1) * M := by
  obtain ⟨v, h1, h2⟩ := compiled_call hP hg (errBound_supported hS hb) hf args vs hv hlen
  obtain ⟨r, h3, _, h4⟩ := machine_ifNear hA hp hu hsm hS (goodParams_nodup hg) hx
    (hlen.symm.trans hv.length_eq) hb hs
  exact ⟨v, r, h2, h3, (h4 v h1).2⟩

/-- **C74, `eval_f64`.**  Likewise for `e.eval_f64(dict(zip(S, vs)))`: if it returns a number, the
number is accurate. -/
theorem C74_eval_f64 [HasNone F] {B : FloatOps F} (hB : AccuratePython val u small hi B)
    (hp : PropagatesPython val u small B) (hu : 0 ≤ u) (hsm : 0 ≤ small) (S : List Expr)
    (hS : Symbols S) (hn : S.Nodup) (e : Expr) (vs : List F)
    (hnone : ∀ v ∈ vs, HasNone.isNone v = false) (xs : List ℝ)
    (hx : List.Forall₂ (fun v x => val v = some x) vs xs) (hlen : vs.length = S.length)
    (hi' M : ℝ) (D : ℕ) (hb : ErrBound S xs u small hi' e M D)
    (hs : SafeExponents S xs u small hi e) :
    ∃ r, ExactValue S xs e r ∧
      ∀ w z, e.evalF64 B (some (Dict.ofPairs (S.zip vs))) = .ok w → val w = some z →
        |z - r| ≤ ((1 + u) ^ D - 1) * M := by
  obtain ⟨r, h3, _, h4⟩ := python_ifNear hB hp hu hsm hS hn hnone hx hlen.symm hb hs
  refine ⟨r, h3, fun w z hw hz => ?_⟩
  rw [evalF64_ok_iff _ _ _ (keys_ofPairs_nodup _)] at hw
  have hget : (Dict.ofPairs (S.zip vs)).get? = fun t => lastAssoc t (S.zip vs) := by
    funext t; exact Dict.get?_ofPairs _ _
  rw [hget] at hw
  exact (h4 w hw).2 z hz

/-- **C74, matrices.**  Every cell of the array that a compiled matrix returns is accurate or not a
number. -/
theorem C74_matrix {P : Platform F} {A : IRArith F} (hP : PlatformOK P A)
    (hA : Accurate val u small hi A) (hp : Propagates val u small A) (hu : 0 ≤ u) (hsm : 0 ≤ small)
    (S : List Expr) (hg : GoodParams S ["_out"]) (hS : Symbols S) (m : Mat) (hm : MatHistory m)
    (hs : MatSupported S m) (hsize : m.nrows * m.ncols ≤ 2 ^ 31) (s : Proc F) (f : Callable)
    (hf : Compiled P f S (.matrix m) s) (args : List (CallArg F)) (vs : List F) (xs : List ℝ)
    (hv : List.Forall₂ (IsDouble A) args vs)
    (hx : List.Forall₂ (fun v x => val v = some x) vs xs) (hlen : args.length = S.length) :
    ∃ id cells s', call P f args s = (.array id, s') ∧ s'.arrays[id]? = some cells ∧
      ∀ (i j : Nat) (e : Expr) (hi' M : ℝ) (D : ℕ), i < m.nrows → j < m.ncols →
        m.getItem (.pair i j) = .ok e → ErrBound S xs u small hi' e M D →
        SafeExponents S xs u small hi e →
        ∃ w r, cells[i * m.ncols + j]? = some w ∧ ExactValue S xs e r ∧
          ∀ z, val w = some z → |z - r| ≤ ((1 + u) ^ D - 1) * M := by
  have hz : zero ∉ S := fun h => by obtain ⟨_, h⟩ := hS _ h; cases h
  obtain ⟨W, s0, s1, g1, g2⟩ := hf
  obtain ⟨f', s1', g3, g4⟩ := C59_matrix hP S m hm hg hs hsize hz
    (by simpa [ctypesParams] using C59_parameter_limit g1) s0
  rw [g1] at g3
  simp only [Prod.mk.injEq, Except.ok.injEq] at g3
  obtain ⟨rfl, rfl⟩ := g3
  obtain ⟨id, cells, s', g5, g6, g7, g8, g9⟩ := g4 W s g2 args vs hv hlen
  refine ⟨id, cells, s', g5, g9 (fun _ => False) s' (.refl _) (fun h => h), ?_⟩
  intro i j e hi' M D hi hj he hb hse
  obtain ⟨e', v, g10, g11, g12⟩ := g8 i j hi hj
  rw [he] at g10
  obtain rfl := Except.ok.inj g10
  obtain ⟨r, h3, _, h4⟩ := machine_ifNear hA hp hu hsm hS (goodParams_nodup hg) hx
    (hlen.symm.trans hv.length_eq) hb hse
  exact ⟨v, r, g12, h3, (h4 v (evaluates_iff.1 g11)).2⟩

/-! ### Derivatives -/

theorem smallInt_no_pow {c t a b : Expr} {n : Int} (h : SmallInt c n) (ht : ArgSub c t) :
    t ≠ pow a b := by
  induction h with
  | lit _ =>
    rw [argSub_leaf rfl ht]
    intro h; cases h
  | add _ _ _ ih1 ih2 =>
    rcases argSub_node.1 ht with rfl | ⟨d, hd, ht'⟩
    · intro h
      exact absurd (congrArg headOf h) (by decide : addH ≠ powH)
    · rcases List.mem_pair.1 hd with rfl | rfl
      · exact ih1 ht'
      · exact ih2 ht'

theorem tower_safe {S : List Expr} (hS : Symbols S) {xs : List ℝ} {N : Int} {m : Nat} {e : Expr}
    (h : Tower S N m e) : SafeExponents S xs u small hi e := by
  have hleaf : ∀ {t : Expr}, t.children = [] → SafeExponents S xs u small hi t := by
    intro t ht a c n hs _
    have := argSub_leaf ht hs
    rw [← this] at ht
    cases ht
  have hnode : ∀ {h : Expr} {args : List Expr}, (∀ a ∈ args, SafeExponents S xs u small hi a) →
      h ≠ powH → SafeExponents S xs u small hi (.node (h :: args)) := by
    intro h args ih hh a c n hs hc
    rcases argSub_node.1 hs with heq | ⟨b, hb, hs⟩
    · cases heq
      exact absurd rfl hh
    · exact ih b hb a c n hs hc
  induction h with
  | param ht =>
    obtain ⟨n, rfl⟩ := hS _ ht
    exact hleaf rfl
  | int _ => exact hleaf rfl
  | add _ _ ih => exact hnode ih (by decide)
  | mul _ _ ih => exact hnode ih (by decide)
  | @pow a c v _ h1 h2 ih =>
    have hv : SmallInt c v := expo_smallInt h1 (by omega)
    intro a' c' n hs hc
    rcases argSub_node.1 hs with heq | ⟨b, hb, hs'⟩
    · cases heq
      rw [smallInt_unique hc hv]
      exact Or.inl (by omega)
    · rcases List.mem_pair.1 hb with rfl | rfl
      · exact ih a' c' n hs' hc
      · exact absurd rfl (smallInt_no_pow hv hs')
  | sin _ ih => exact hnode (by simpa using ih) (by decide)
  | cos _ ih => exact hnode (by simpa using ih) (by decide)

/-- **C74, derivatives.**  Let `e` be built with `+`, `*`, `sin`, `cos` and literal exponents that are
all at least `n` (and 1), with integers up to `2^53`.  At every point, in every arithmetic with unit
roundoff `u`, whatever its range: if the function compiled from `e.diff(x, n)` or `eval_f64` returns a
number, it differs from the `n`-th derivative of the exact value of `e` by at most `K*u`, where `K`
does not depend on the arithmetic. -/
theorem C74_order (S : List Expr) (hg : GoodParams S) (hS : Symbols S) (e x : Expr)
    (he : Elementary S e) (k : Nat) (hk : S[k]? = some x) (n : Nat)
    (hexp : ∀ a (m : Int), ArgSub e (pow a (integer m)) → (n : Int) ≤ m)
    (hint : ∀ m : Int, ArgSub e (integer m) → |m| ≤ 2 ^ 53) (xs : List ℝ)
    (hlen : xs.length = S.length) (t₀ : ℝ) (ht₀ : xs[k]? = some t₀) :
    ∃ (d : Expr) (G : ℝ → ℝ) (K : ℝ), e.diff x (n : Int) = .ok d ∧ Supported S d ∧
      (∀ t, ExactValue S (xs.set k t) e (G t)) ∧
      ∀ (F : Type) (val : F → Option ℝ) (u small hi : ℝ), 0 ≤ u → u ≤ 1 → 0 ≤ small → small ≤ 1 →
        ∀ vs : List F, List.Forall₂ (fun v x => val v = some x) vs xs →
        (∀ (P : Platform F) (A : IRArith F), PlatformOK P A → Accurate val u small hi A →
          Propagates val u small A →
          ∀ (s : Proc F) (fd : Callable), Compiled P fd S (.expr d) s →
          ∀ args, List.Forall₂ (IsDouble A) args vs →
          ∃ w, call P fd args s = (.float w, s) ∧
            ∀ z, val w = some z → |z - iteratedDeriv n G t₀| ≤ K * u) ∧
        (∀ [HasNone F] (B : FloatOps F), AccuratePython val u small hi B →
          PropagatesPython val u small B → (∀ v ∈ vs, HasNone.isNone v = false) →
          ∀ w z, d.evalF64 B (some (Dict.ofPairs (S.zip vs))) = .ok w → val w = some z →
            |z - iteratedDeriv n G t₀| ≤ K * u) := by
  have hx := List.mem_of_getElem? hk
  have ht := elementary_tower n he (fun m h _ => hint m h) hexp
  have hn := goodParams_nodup hg
  obtain ⟨d, hd, hdt⟩ := tower_nth le_rfl hS hx n 0 e (by rwa [Nat.zero_add])
  have hex : ∀ t, ∃ v, ExactValue S (xs.set k t) e v := fun t => tower_exact (by simp [hlen]) ht
  choose G hG using hex
  obtain ⟨D, B, H, hb⟩ := tower_bounded hlen hdt
  have hB0 : 0 ≤ B := by
    obtain ⟨M, g1, g2, _⟩ := hb 0 0 _ le_rfl zero_le_one le_rfl zero_le_one le_rfl
    exact g1.trans g2
  refine ⟨d, G, D * 2 ^ D * B, hd, nth_supported S x e (elementary_supported hS he) n d hd, hG, ?_⟩
  intro F val u small hi hu hu1 hsm hsm1 vs hxs
  obtain ⟨M, hM0, hMB, hM⟩ := hb u small H hu hu1 hsm hsm1 le_rfl
  have hle : ((1 + u) ^ D - 1) * M ≤ D * 2 ^ D * B * u := by
    have h1 := growth_linear hu hu1 D
    have h2 : 0 ≤ (1 + u) ^ D - 1 := by linarith [one_le_growth hu D]
    have h3 : ((1 + u) ^ D - 1) * M ≤ (D * 2 ^ D * u) * B := mul_le_mul h1 hMB hM0 (h2.trans h1)
    linarith
  have hder : ∀ r, ExactValue S xs d r → iteratedDeriv n G t₀ = r := fun r hr =>
    exact_derivative hS hn hk n hd hlen ht₀ G Set.univ isOpen_univ trivial (fun t _ => hG t)
      (fun j hj dj hdj t _ => by
        obtain ⟨dj', hdj', htj⟩ := tower_nth le_rfl hS hx j (n - j) e (by rwa [Nat.sub_add_cancel hj])
        rw [hdj] at hdj'
        obtain rfl := Except.ok.inj hdj'
        exact tower_exact (by simp [hlen]) htj) hr
  have hvl : vs.length = S.length := by rw [hxs.length_eq, hlen]
  constructor
  · intro P A hP hA hp s fd hfd args hv
    obtain ⟨w, r, h1, h3, h4⟩ := C74_lambdify hP hA hp hu hsm S hg hS d s fd hfd args vs xs hv
      hxs (by rw [hv.length_eq, hvl]) H M D hM (tower_safe hS hdt)
    exact ⟨w, h1, fun z hz => by rw [hder r h3]; exact (h4 z hz).trans hle⟩
  · intro _ B' hB' hp' hnone w z hw hz
    obtain ⟨r, h3, h4⟩ := C74_eval_f64 hB' hp' hu hsm S hS hn d vs hnone xs hxs hvl H M D hM
      (tower_safe hS hdt)
    rw [hder r h3]
    exact (h4 w z hw hz).trans hle

/-! ### Doubles -/

theorem nearest_error_overflow {x : ℝ} {b : ℕ} (hx : |x| < overflowAt) (h : IsNearest x b) :
    ∃ z, bitsVal b = some z ∧ |z - x| ≤ 2⁻¹ ^ 53 * max |x| (2⁻¹ ^ 1022) := by
  obtain ⟨_, z, hz, hmin⟩ := h
  obtain ⟨b', q, _, h1, h2⟩ := near_double x hx
  exact ⟨z, hz, (hmin b' q (bitsVal_some.2 ⟨q, h1, rfl⟩)).trans h2⟩

theorem nearest_grid_overflow {k : ℤ} {b : ℕ} (hx : |(k : ℝ) * 2⁻¹ ^ 1074| < overflowAt)
    (h : IsNearest ((k : ℝ) * 2⁻¹ ^ 1074) b) :
    ∃ z, bitsVal b = some z ∧ |z - k * 2⁻¹ ^ 1074| ≤ 2⁻¹ ^ 53 * |(k : ℝ) * 2⁻¹ ^ 1074| := by
  by_cases hs : |(k : ℝ) * 2⁻¹ ^ 1074| < 2⁻¹ ^ 1022
  · obtain ⟨_, z, hz, hmin⟩ := h
    obtain ⟨b', hb'⟩ := grid_double k hs
    refine ⟨z, hz, (hmin b' _ hb').trans ?_⟩
    rw [sub_self, abs_zero]
    exact mul_nonneg (pow_nonneg (by norm_num) _) (abs_nonneg _)
  · obtain ⟨z, hz, h⟩ := nearest_error_overflow hx h
    exact ⟨z, hz, by rwa [max_eq_left (not_lt.1 hs)] at h⟩

/-- **C74, doubles.**  The arithmetic of IEEE-754 with its overflow satisfies the hypothesis of
`C74_lambdify`. -/
theorem C74_binary64 (A : IRArith ℕ) (h : Overflow64 A) :
    Propagates bitsVal (2⁻¹ ^ 52) (2⁻¹ ^ 1022) A where
  add := by
    intro a b z hz
    obtain ⟨x, y, h1, h2, h3, h4⟩ := h.add a b (by rw [hz]; rfl)
    refine ⟨x, y, h1, h2, ?_⟩
    obtain ⟨k, rfl⟩ := double_grid h1
    obtain ⟨j, rfl⟩ := double_grid h2
    have he : (k : ℝ) * 2⁻¹ ^ 1074 + j * 2⁻¹ ^ 1074 = ((k + j : ℤ) : ℝ) * 2⁻¹ ^ 1074 := by
      push_cast; ring
    rw [he] at h3 h4 ⊢
    obtain ⟨z', h5, h6⟩ := nearest_grid_overflow h3 h4
    obtain rfl := Option.some.inj (h5.symm.trans hz)
    exact ulp_le h6 (abs_nonneg _)
  mul := by
    intro a b z hz
    obtain ⟨x, y, h1, h2, h3, h4⟩ := h.mul a b (by rw [hz]; rfl)
    obtain ⟨z', h5, h6⟩ := nearest_error_overflow h3 h4
    obtain rfl := Option.some.inj (h5.symm.trans hz)
    exact ⟨x, y, h1, h2, ulp_le h6 (le_max_of_le_left (abs_nonneg _))⟩
  pow := h.pow
  base := fun a b n z h1 h2 h3 => Option.isSome_iff_exists.1 (h.base a b n h1 h2 (by rw [h3]; rfl))
  power0 := h.power0
  sin := fun a z h3 => Option.isSome_iff_exists.1 (h.sin a (by rw [h3]; rfl))
  cos := fun a z h3 => Option.isSome_iff_exists.1 (h.cos a (by rw [h3]; rfl))

/-- **C74, Python's floats.** -/
theorem C74_binary64_python (B : FloatOps ℕ) (h : Overflow64Python B) :
    PropagatesPython bitsVal (2⁻¹ ^ 52) (2⁻¹ ^ 1022) B where
  fsum := by
    intro vs v z hv hz
    obtain ⟨xs, h1, h2, h3⟩ := h.fsum vs v hv (by rw [hz]; rfl)
    refine ⟨xs, h1, ?_⟩
    obtain ⟨k, hk⟩ := grid_sum h1
    rw [hk] at h2 h3 ⊢
    obtain ⟨z', h5, h6⟩ := nearest_grid_overflow h2 h3
    obtain rfl := Option.some.inj (h5.symm.trans hz)
    exact ulp_le h6 (abs_nonneg _)
  prod := by
    obtain ⟨mul, g1, g2⟩ := h.prod
    refine ⟨mul, ?_, g2⟩
    intro a b z hz
    obtain ⟨x, y, h1, h2, h3, h4⟩ := g1 a b (by rw [hz]; rfl)
    obtain ⟨z', h5, h6⟩ := nearest_error_overflow h3 h4
    obtain rfl := Option.some.inj (h5.symm.trans hz)
    exact ⟨x, y, h1, h2, ulp_le h6 (le_max_of_le_left (abs_nonneg _))⟩
  pow := h.pow
  base := fun a b n v z h1 h2 hv h3 =>
    Option.isSome_iff_exists.1 (h.base a b n v h1 h2 hv (by rw [h3]; rfl))
  power0 := h.power0
  sin := fun a v z hv h3 => Option.isSome_iff_exists.1 (h.sin a v hv (by rw [h3]; rfl))
  cos := fun a v z hv h3 => Option.isSome_iff_exists.1 (h.cos a v hv (by rw [h3]; rfl))

/-! ### Concrete cases -/

/-- Not a number. -/
def nan64 : ℕ := 0x7ff8000000000000

/-- Rounding with overflow. -/
noncomputable def round64 (x : ℝ) : ℕ :=
  open Classical in
  if |x| < overflowAt then roundNearest x else if 0 < x then 0x7ff0000000000000 else 0xfff0000000000000

/-- A finite function of two floats. -/
noncomputable def finite2 (f : ℝ → ℝ → ℝ) (a b : ℕ) : ℕ :=
  match bitsVal a, bitsVal b with
  | some x, some y => round64 (f x y)
  | _, _ => nan64

/-- A finite function of one float. -/
noncomputable def finite1 (f : ℝ → ℝ) (a : ℕ) : ℕ :=
  match bitsVal a with
  | some x => round64 (f x)
  | none => nan64

/-- Doubles with correctly rounded operations and overflow (sums and products with infinities give
NaN). -/
noncomputable def ieee64 : IRArith ℕ where
  const b := b
  fadd := finite2 (· + ·)
  fmul := finite2 (· * ·)
  pow a b := open Classical in
    match bitsVal a, bitsVal b with
    | some x, some y => if x = 0 ∧ y < 0 then 0x7ff0000000000000 else round64 (x ^ y)
    | none, some y => if y = 0 then 0x3ff0000000000000 else if y < 0 then 0 else nan64
    | _, none => nan64
  sin := finite1 Real.sin
  cos := finite1 Real.cos

theorem nan64_val : bitsVal nan64 = none := by
  simp [bitsVal, show doubleValue nan64 = none from by decide +kernel]

theorem inf64_val : bitsVal 0x7ff0000000000000 = none := by
  simp [bitsVal, show doubleValue 0x7ff0000000000000 = none from by decide +kernel]

theorem one64_val : bitsVal 0x3ff0000000000000 = some 1 := by
  simp [bitsVal, show doubleValue 0x3ff0000000000000 = some 1 from by decide +kernel]

theorem round64_small {x : ℝ} (h : |x| < overflowAt) : IsNearest x (round64 x) := by
  rw [round64, if_pos h]
  exact (exists_nearest x).choose_spec

theorem round64_some {x z : ℝ} (h : bitsVal (round64 x) = some z) :
    |x| < overflowAt ∧ IsNearest x (round64 x) := by
  by_cases hx : |x| < overflowAt
  · exact ⟨hx, round64_small hx⟩
  · exfalso
    rw [round64, if_neg hx] at h
    split at h
    · rw [inf64_val] at h; cases h
    · rw [bitsVal, show doubleValue 0xfff0000000000000 = none from by decide +kernel] at h
      cases h

theorem overflow_largest : largest < overflowAt := largest_lt

theorem finite2_some {f : ℝ → ℝ → ℝ} {a b : ℕ} (h : (bitsVal (finite2 f a b)).isSome) :
    ∃ x y, bitsVal a = some x ∧ bitsVal b = some y ∧ |f x y| < overflowAt ∧
      IsNearest (f x y) (finite2 f a b) := by
  obtain ⟨z, hz⟩ := Option.isSome_iff_exists.1 h
  unfold finite2 at hz ⊢
  cases ha : bitsVal a with
  | none => rw [ha] at hz; simp only [nan64_val] at hz; cases hz
  | some x =>
    cases hb : bitsVal b with
    | none => rw [ha, hb] at hz; simp only [nan64_val] at hz; cases hz
    | some y =>
      rw [ha, hb] at hz
      exact ⟨x, y, rfl, rfl, round64_some hz⟩

theorem finite2_nearest {f : ℝ → ℝ → ℝ} {a b : ℕ} {x y : ℝ} (ha : bitsVal a = some x)
    (hb : bitsVal b = some y) (h : |f x y| ≤ largest) : IsNearest (f x y) (finite2 f a b) := by
  simp only [finite2, ha, hb]
  exact round64_small (lt_of_le_of_lt h overflow_largest)

theorem finite1_some {f : ℝ → ℝ} {a : ℕ} (h : (bitsVal (finite1 f a)).isSome) :
    (bitsVal a).isSome := by
  cases ha : bitsVal a with
  | none => simp only [finite1, ha, nan64_val] at h; cases h
  | some x => rfl

theorem finite1_unit {f : ℝ → ℝ} (hf : ∀ x, |f x| ≤ 1) {a : ℕ} {x : ℝ} (ha : bitsVal a = some x) :
    ∃ z, bitsVal (finite1 f a) = some z ∧ |z - f x| ≤ 2⁻¹ ^ 52 := by
  have hle : |f x| < overflowAt := by
    refine lt_of_le_of_lt ((hf x).trans ?_) overflow_largest
    exact le_trans (by norm_num) two_pow_le_largest
  have : finite1 f a = roundNearest (f x) := by simp only [finite1, ha, round64, if_pos hle]
  rw [this]
  exact round_unit (hf x)

theorem ieee64_pow {a b : ℕ} {x : ℝ} {n : ℤ} (hn : x = 0 → 0 ≤ n) (ha : bitsVal a = some x)
    (hb : bitsVal b = some (n : ℝ)) : ieee64.pow a b = round64 (x ^ n) := by
  simp only [ieee64, ha, hb, Real.rpow_intCast]
  rw [if_neg]
  rintro ⟨h1, h2⟩
  have := hn h1
  have : (0 : ℝ) ≤ n := by exact_mod_cast this
  linarith

theorem ieee64_ok : Binary64 ieee64 where
  const _ := rfl
  add := fun a b x y ha hb h => finite2_nearest ha hb h
  mul := fun a b x y ha hb h => finite2_nearest ha hb h
  pow := by
    intro a b x n hn ha hb hx
    rw [ieee64_pow hn ha hb]
    have hlt := lt_of_le_of_lt hx overflow_largest
    obtain ⟨z, h1, h2⟩ := nearest_error_overflow hlt (round64_small hlt)
    exact ⟨z, h1, ulp_le h2 (le_max_of_le_left (abs_nonneg _))⟩
  sin := fun a x ha => finite1_unit Real.abs_sin_le_one ha
  cos := fun a x ha => finite1_unit Real.abs_cos_le_one ha

theorem ieee64_overflow : Overflow64 ieee64 where
  add := fun a b h => finite2_some h
  mul := fun a b h => finite2_some h
  pow := by
    intro a b x n z hn ha hb hz
    rw [ieee64_pow hn ha hb] at hz
    obtain ⟨h1, h2⟩ := round64_some hz
    obtain ⟨z', h3, h4⟩ := nearest_error_overflow h1 h2
    obtain rfl := Option.some.inj (h3.symm.trans hz)
    exact ulp_le h4 (le_max_of_le_left (abs_nonneg _))
  base := by
    intro a b n hn hb h
    cases ha : bitsVal a with
    | some x => rfl
    | none =>
      have h1 : (1 : ℝ) ≤ n := by exact_mod_cast hn
      simp only [ieee64, ha, hb] at h
      rw [if_neg (by linarith), if_neg (by linarith), nan64_val] at h
      cases h
  power0 := by
    intro a b hb
    cases ha : bitsVal a with
    | none =>
      simp only [ieee64, ha, hb, if_true]
      exact one64_val
    | some x =>
      rw [ieee64_pow (n := 0) (fun _ => le_rfl) ha (by rw [hb]; simp), zpow_zero]
      have := nearest_int (n := 1) (b := round64 1) (by norm_num) (by
        rw [Int.cast_one]
        refine round64_small (lt_of_le_of_lt ?_ overflow_largest)
        rw [abs_one]
        exact le_trans (by norm_num) two_pow_le_largest)
      rw [this, Int.cast_one]
  sin := fun a h => finite1_some h
  cos := fun a h => finite1_some h

/-- Python's functions over the same arithmetic. -/
noncomputable def ieeePython : FloatOps ℕ where
  ofInt n := match doubleBits n with
    | some b => .ok b
    | none => .error .overflowError
  fsum vs := open Classical in
    if ∃ v ∈ vs, bitsVal v = none then .ok nan64
    else if |(vs.map fun v => (bitsVal v).getD 0).sum| < overflowAt then
      .ok (roundNearest (vs.map fun v => (bitsVal v).getD 0).sum)
    else .error .overflowError
  prod vs := match vs with
    | [] => .ok 0x3ff0000000000000
    | a :: vs => .ok (vs.foldl ieee64.fmul a)
  pow a b := .ok (ieee64.pow a b)
  sin a := .ok (ieee64.sin a)
  cos a := .ok (ieee64.cos a)

theorem values_forall₂ {vs : List ℕ} {xs : List ℝ}
    (h : List.Forall₂ (fun v x => bitsVal v = some x) vs xs) :
    vs.map (fun v => (bitsVal v).getD 0) = xs ∧ ¬ ∃ v ∈ vs, bitsVal v = none := by
  induction h with
  | nil => exact ⟨rfl, by simp⟩
  | cons h _ ih =>
    refine ⟨by rw [List.map_cons, h, ih.1]; rfl, ?_⟩
    rintro ⟨v, hv, hn⟩
    rcases List.mem_cons.1 hv with rfl | hv
    · rw [h] at hn; cases hn
    · exact ih.2 ⟨v, hv, hn⟩

theorem ieeePython_ok : Binary64Python ieeePython where
  ofInt := by intro n b hb; simp only [ieeePython, hb]
  fsum := by
    intro vs xs hx hs
    obtain ⟨h1, h2⟩ := values_forall₂ hx
    have hle : |xs.sum| ≤ largest := by
      refine le_trans ?_ hs
      clear hx hs h1
      induction xs with
      | nil => simp
      | cons x xs ih =>
        simp only [List.sum_cons, List.map_cons]
        exact (abs_add_le _ _).trans (by linarith)
    refine ⟨roundNearest xs.sum, ?_, (exists_nearest _).choose_spec⟩
    simp only [ieeePython]
    rw [if_neg h2, h1, if_pos (lt_of_le_of_lt hle overflow_largest)]
  prod := ⟨ieee64.fmul, ieee64_ok.mul, fun a vs => rfl⟩
  pow := by
    intro a b x n hn ha hb hx
    obtain ⟨z, h⟩ := ieee64_ok.pow a b x n hn ha hb hx
    exact ⟨_, z, rfl, h⟩
  sin := by
    intro a x ha
    obtain ⟨z, h⟩ := ieee64_ok.sin a x ha
    exact ⟨_, z, rfl, h⟩
  cos := by
    intro a x ha
    obtain ⟨z, h⟩ := ieee64_ok.cos a x ha
    exact ⟨_, z, rfl, h⟩

theorem forall₂_values {vs : List ℕ} (h : ¬ ∃ v ∈ vs, bitsVal v = none) :
    List.Forall₂ (fun v x => bitsVal v = some x) vs (vs.map fun v => (bitsVal v).getD 0) := by
  induction vs with
  | nil => exact .nil
  | cons v vs ih =>
    refine .cons ?_ (ih fun ⟨w, hw, hn⟩ => h ⟨w, by simp [hw], hn⟩)
    cases hv : bitsVal v with
    | none => exact absurd ⟨v, by simp, hv⟩ h
    | some x => simp [hv]

theorem ieeePython_overflow : Overflow64Python ieeePython where
  fsum := by
    intro vs v hv hs
    simp only [ieeePython] at hv
    split at hv
    · obtain rfl := Except.ok.inj hv
      rw [nan64_val] at hs
      cases hs
    · rename_i hn
      split at hv
      · rename_i hlt
        obtain rfl := Except.ok.inj hv
        exact ⟨_, forall₂_values hn, hlt, (exists_nearest _).choose_spec⟩
      · cases hv
  prod := ⟨ieee64.fmul, ieee64_overflow.mul, fun a vs => rfl⟩
  pow := by
    intro a b x n v z hn ha hb hv hz
    obtain rfl := Except.ok.inj hv
    exact ieee64_overflow.pow a b x n z hn ha hb hz
  base := by
    intro a b n v hn hb hv h
    obtain rfl := Except.ok.inj hv
    exact ieee64_overflow.base a b n hn hb h
  power0 := by
    intro a b v hb hv
    obtain rfl := Except.ok.inj hv
    exact ieee64_overflow.power0 a b hb
  sin := by
    intro a v hv h
    obtain rfl := Except.ok.inj hv
    exact ieee64_overflow.sin a h
  cos := by
    intro a v hv h
    obtain rfl := Except.ok.inj hv
    exact ieee64_overflow.cos a h

/-- `x*x` for a double `x`. -/
theorem square_errBound (a u small : ℝ) (hu : 0 ≤ u) (hsm : 0 ≤ small) :
    ∃ hi', ErrBound [x] [a] u small hi' (mul x x) (|a| * |a| + small) 1 := by
  refine ⟨(|a| + (|a| * |a| + small)) * (1 + u) ^ 1, ?_⟩
  have h := ErrBound.mul (S := [x]) (xs := [a]) (u := u) (small := small)
    (hi := (|a| + (|a| * |a| + small)) * (1 + u) ^ 1)
    (a := x) (args := [x]) (M := fun _ => |a|) (k := fun _ => 0) (D := 1)
    (by
      intro t ht
      simp only [List.mem_cons, List.not_mem_nil, or_false, or_self] at ht
      subst ht
      exact .param (by simp))
    (by simp)
    (by
      intro pre hpre
      have h0 := abs_nonneg a
      rw [List.prefix_cons_iff] at hpre
      rcases hpre with rfl | ⟨l, rfl, hl'⟩
      · simp only [List.foldl_nil]
        exact mul_le_mul_of_nonneg_right (by nlinarith) (by positivity)
      · rw [List.prefix_nil.1 hl']
        simp only [List.foldl_cons, List.foldl_nil]
        exact mul_le_mul_of_nonneg_right (by linarith) (by positivity))
  exact h

theorem square_safe (xs : List ℝ) : SafeExponents [x] xs u small hi (mul x x) := by
  intro a c n hs _
  rcases argSub_node.1 hs with heq | ⟨b, hb, hs'⟩
  · exact absurd (congrArg headOf heq) (by decide : powH ≠ mulH)
  · have hb : b = x := by simpa using hb
    subst hb
    have := argSub_leaf (t := x) rfl hs'
    exact absurd (congrArg headOf this) (by decide : powH ≠ headOf x)

theorem symbols_x : Symbols [x] := by
  intro t ht
  obtain rfl : t = x := by simpa using ht
  exact ⟨_, rfl⟩

/-- The hypotheses of `C74_lambdify` and `C74_eval_f64` hold of `x*x` for every double `x`, however
large: the results are within `2^-52*(x*x + 2^-1022)` of `x*x`, or not numbers. -/
example (va : ℕ) (a : ℝ) (hva : bitsVal va = some a) : ∃ (P : Platform ℕ) (f : Callable) (s : Proc ℕ)
      (w : ℕ), PlatformOK P ieee64 ∧ Compiled P f [x] (.expr (mul x x)) s ∧
      call P f [.float va] s = (.float w, s) ∧
      (∀ z, bitsVal w = some z → |z - a * a| ≤ 2⁻¹ ^ 52 * (|a| * |a| + 2⁻¹ ^ 1022)) ∧
      (∀ w' z, Expr.evalF64 ieeePython (mul x x) (some ⟨[(x, va)]⟩) = .ok w' → bitsVal w' = some z →
        |z - a * a| ≤ 2⁻¹ ^ 52 * (|a| * |a| + 2⁻¹ ^ 1022)) := by
  obtain ⟨P, hP⟩ := platformOK_exists ieee64
  have hu : (0 : ℝ) ≤ 2⁻¹ ^ 52 := by positivity
  have hsm : (0 : ℝ) ≤ 2⁻¹ ^ 1022 := pow_nonneg (by norm_num) _
  obtain ⟨hi', hb⟩ := square_errBound a _ _ hu hsm
  have hg := goodParams_x
  have hS := symbols_x
  obtain ⟨f, s, hf, _⟩ := compiled_exists hP hg (errBound_supported hS hb) Proc.start
  obtain ⟨w, r, h1, h2, h3⟩ := C74_lambdify hP (C62_binary64 _ ieee64_ok)
    (C74_binary64 _ ieee64_overflow) hu hsm [x] hg hS _ s f hf [.float va] [va] [a]
    (.cons (Or.inl rfl) .nil) (.cons hva .nil) rfl hi' _ _ hb (square_safe _)
  obtain ⟨r', h2', h3'⟩ := C74_eval_f64 (C62_binary64_python _ ieeePython_ok)
    (C74_binary64_python _ ieeePython_overflow) hu hsm [x] hS (by decide) (mul x x) [va]
    (fun _ _ => rfl) [a] (.cons hva .nil) rfl hi' _ _ hb (square_safe _)
  have hev : ExactValue [x] [a] (mul x x) (a * a) := by
    have := ExactValue.mul (S := [x]) (xs := [a]) (args := [x, x]) (v := fun _ => a) (by
      intro t ht
      have ht : t = x := by simpa using ht
      subst ht
      exact .param (by simp))
    simp only [List.map_cons, List.map_nil, List.prod_cons, List.prod_nil, mul_one] at this
    exact this
  obtain rfl := exact_unique hS (by decide) rfl h2 hev
  obtain rfl := exact_unique hS (by decide) rfl h2' hev
  rw [pow_one, add_sub_cancel_left] at h3 h3'
  exact ⟨P, f, s, w, hP, hf, h1, h3, h3'⟩

/-- A larger range changes nothing. -/
theorem errBound_mono {S : List Expr} {xs : List ℝ} {hi hi' : ℝ} (hle : hi ≤ hi') {e : Expr} {M : ℝ}
    {D : ℕ} (h : ErrBound S xs u small hi e M D) : ErrBound S xs u small hi' e M D := by
  induction h with
  | param h => exact .param h
  | int h => exact .int h
  | bigInt h h' => exact .bigInt h h'
  | add h1 _ h2 h3 ih => exact .add h1 ih h2 (h3.trans hle)
  | mul _ h2 h3 ih => exact .mul ih h2 fun pre hp => (h3 pre hp).trans hle
  | pow _ h1 h2 ih => exact .pow ih h1 (h2.trans hle)
  | powNeg _ h1 h2 h3 h4 h5 ih => exact .powNeg ih h1 h2 h3 h4 (h5.trans hle)
  | sin _ ih => exact .sin ih
  | cos _ ih => exact .cos ih

/-- `e*x` for a double `x`. -/
theorem times_errBound {a u small hi' M : ℝ} {D : ℕ} {e : Expr} (he : e ≠ x)
    (h : ErrBound [x] [a] u small hi' e M D)
    (h1 : M * (1 + u) ^ (D + 1) ≤ hi') (h2 : (M * |a| + small) * (1 + u) ^ (D + 1) ≤ hi') :
    ErrBound [x] [a] u small hi' (mul e x) (M * |a| + small) (D + 1) := by
  have h := ErrBound.mul (S := [x]) (xs := [a]) (u := u) (small := small) (hi := hi')
    (a := e) (args := [x]) (M := fun t => if t = e then M else |a|)
    (k := fun t => if t = e then D else 0) (D := D + 1)
    (by
      intro t ht
      simp only [List.mem_cons, List.not_mem_nil, or_false] at ht
      rcases ht with rfl | rfl
      · simpa using h
      · simpa [he.symm] using ErrBound.param (by simp))
    (by simp [he.symm])
    (by
      intro pre hpre
      rw [List.prefix_cons_iff] at hpre
      rcases hpre with rfl | ⟨l, rfl, hl'⟩
      · simpa using h1
      · rw [List.prefix_nil.1 hl']
        simpa [he.symm] using h2)
  simp only [List.foldl_cons, List.foldl_nil, if_true, he.symm, if_false] at h
  exact h

/-- `((x*x)**-1*x)*x`. -/
def _root_.Verif.Samples.cancelled : Expr := mul (mul (pow (mul x x) (integer (-1))) x) x

theorem cancelled_errBound {A s u : ℝ} (hA : 1 ≤ A) (hs : 0 ≤ s) (hs1 : s * A * A ≤ 4)
    (hu : u = 2⁻¹ ^ 52) : ∃ hi' M, M ≤ 40 ∧ ErrBound [x] [A] u s hi' Samples.cancelled M 4 := by
  have hA0 : 0 < A := by linarith
  have habs : |A| = A := abs_of_pos hA0
  have hu0 : 0 ≤ u := by rw [hu]; positivity
  have hs3 : s * A ≤ 4 := by
    have := mul_le_mul_of_nonneg_left hA (mul_nonneg hs hA0.le)
    linarith
  have hs2 : s ≤ 4 := by
    have := mul_le_mul_of_nonneg_left hA hs
    linarith
  obtain ⟨hi0, hb0⟩ := square_errBound A u s hu0 hs
  rw [habs] at hb0
  set M0 := A * A + s with hM0
  set L := A * A / 2 with hL
  set M1 := (M0 / L ^ 2) ^ 1 + s with hM1
  have hM1le : M1 * A * A ≤ 24 := by
    have : M0 / L ^ 2 * A * A = 4 + 4 * s / (A * A) := by
      rw [hM0, hL]; field_simp; ring
    have h5 : 4 * s / (A * A) ≤ 16 := by
      rw [div_le_iff₀ (by positivity)]; nlinarith
    rw [hM1, pow_one]
    nlinarith
  have hM0p : 0 ≤ M0 := by positivity
  have hM1p : 0 ≤ M1 := by positivity
  have hev : ExactValue [x] [A] (mul x x) (A * A) := by
    have := ExactValue.mul (S := [x]) (xs := [A]) (args := [x, x]) (v := fun _ => A) (by
      intro t ht
      have ht : t = x := by simpa using ht
      subst ht
      exact .param (by simp))
    simp only [List.map_cons, List.map_nil, List.prod_cons, List.prod_nil, mul_one] at this
    exact this
  have hLr : L + ((1 + u) ^ 1 - 1) * M0 ≤ |A * A| := by
    rw [abs_of_pos (by positivity), pow_one, add_sub_cancel_left, hL, hM0, hu]
    nlinarith
  set hi' := |hi0| + (M1 + M1 * A + s + (M1 * A + s) * A + s) * (1 + u) ^ 4 with hhi
  have hg4 : 1 ≤ (1 + u) ^ 4 := one_le_growth hu0 4
  have hle : ∀ (t : ℝ) (j : ℕ), j ≤ 4 → 0 ≤ t → t ≤ M1 + M1 * A + s + (M1 * A + s) * A + s →
      t * (1 + u) ^ j ≤ hi' := by
    intro t j hj ht h
    have h1 : t * (1 + u) ^ j ≤ t * (1 + u) ^ 4 :=
      mul_le_mul_of_nonneg_left (pow_le_pow_right₀ (by linarith) hj) ht
    have h2 := mul_le_mul_of_nonneg_right h (by linarith : 0 ≤ (1 + u) ^ 4)
    have := abs_nonneg hi0
    rw [hhi]
    linarith
  have p1 : 0 ≤ M1 * A := by positivity
  have p2 : 0 ≤ (M1 * A + s) * A := by positivity
  have hb1 := ErrBound.powNeg (n := 1) (c := integer (-1)) (errBound_mono (hi' := hi') (by
      rw [hhi]
      have := le_abs_self hi0
      have : 0 ≤ (M1 + M1 * A + s + (M1 * A + s) * A + s) * (1 + u) ^ 4 := by positivity
      linarith) hb0) (.lit (by norm_num)) hev (by positivity : 0 < L) hLr
    (hle M1 _ (by norm_num) hM1p (by linarith))
  have hb2 := times_errBound (by decide) hb1 (hle M1 _ (by norm_num) hM1p (by linarith)) (by
    rw [habs]; exact hle _ _ (by norm_num) (by linarith) (by linarith))
  have hb3 := times_errBound (by decide) hb2 (by
    rw [habs]; exact hle _ _ (by norm_num) (by linarith) (by linarith)) (by
    rw [habs]; exact hle _ _ (by norm_num) (by linarith) (by linarith))
  rw [habs] at hb3
  refine ⟨hi', _, ?_, hb3⟩
  have : (M1 * A + s) * A + s = M1 * A * A + s * A + s := by ring
  show (M1 * A + s) * A + s ≤ 40
  linarith

/-- The value of a product. -/
theorem eval_mul2 {A : IRArith F} {S : List Expr} {vs : List F} {a b : Expr} {v w : F}
    (h1 : evalTree (irMeaning A S vs) a = .ok v) (h2 : evalTree (irMeaning A S vs) b = .ok w) :
    evalTree (irMeaning A S vs) (mul a b) = .ok (A.fmul v w) := by
  rw [show (mul a b : Expr) = .node [mulH, a, b] from rfl, evalTree_node _ rfl]
  show [a, b].mapM (evalTree (irMeaning A S vs)) >>= _ = _
  rw [List.mapM_cons, h1, List.mapM_cons, h2]
  rfl

theorem fmul_zero64 {v w : ℕ} {a : ℝ} (hv : bitsVal v = some 0) (hw : bitsVal w = some a) :
    bitsVal (ieee64.fmul v w) = some 0 := by
  have h1 := finite2_nearest (f := (· * ·)) hv hw (by
    rw [zero_mul, abs_zero]
    exact le_trans (by norm_num) two_pow_le_largest)
  rw [zero_mul] at h1
  have := nearest_int (n := 0) (by norm_num) (by rw [Int.cast_zero]; exact h1)
  rw [Int.cast_zero] at this
  exact this

/-- **C74 needs its hypothesis about exponents**: with doubles, `((x*x)**-1*x)*x` at `x = 2^512` is
0, because `x*x` overflows and the reciprocal of the infinity is 0; the exact value is 1, and in a
larger range the error would be below 1/2. -/
theorem C74_negative_false : ∃ (va : ℕ) (a hi' M : ℝ) (D : ℕ), bitsVal va = some a ∧
    ErrBound [x] [a] (2⁻¹ ^ 52) (2⁻¹ ^ 1022) hi' Samples.cancelled M D ∧
    ((1 + 2⁻¹ ^ 52) ^ D - 1) * M < 1 / 2 ∧
    ∀ P, PlatformOK P ieee64 → ∃ f s w, Compiled P f [x] (.expr Samples.cancelled) s ∧
      call P f [.float va] s = (.float w, s) ∧ bitsVal w = some 0 ∧
      ExactValue [x] [a] Samples.cancelled 1 := by
  have hA1 : (1 : ℝ) ≤ 2 ^ 512 := one_le_pow₀ (by norm_num)
  have hva : bitsVal 0x5ff0000000000000 = some (2 ^ 512) := by
    rw [bitsVal, show doubleValue 0x5ff0000000000000 = some (2 ^ 512) from by decide +kernel]
    simp
  have hsA : (2⁻¹ : ℝ) ^ 1022 * 2 ^ 512 * 2 ^ 512 ≤ 4 := by
    rw [mul_assoc, ← pow_add, show (512 + 512 : ℕ) = 1022 + 2 from rfl, pow_add (2 : ℝ), ← mul_assoc,
      ← mul_pow]
    norm_num
  obtain ⟨hi', M, hM, hb⟩ := cancelled_errBound hA1 (pow_nonneg (by norm_num : (0 : ℝ) ≤ 2⁻¹) 1022) hsA rfl
  refine ⟨0x5ff0000000000000, 2 ^ 512, hi', M, 4, hva, hb, ?_, ?_⟩
  · nlinarith
  intro P hP
  obtain ⟨f, s, hf, _⟩ := compiled_exists hP goodParams_x (errBound_supported symbols_x hb) Proc.start
  obtain ⟨w, h1, h2⟩ := compiled_call hP goodParams_x (errBound_supported symbols_x hb) hf
    [.float 0x5ff0000000000000] [0x5ff0000000000000] (.cons (Or.inl rfl) .nil) rfl
  refine ⟨f, s, w, hf, h2, ?_, ?_⟩
  · have e1 : evalTree (irMeaning ieee64 [x] [0x5ff0000000000000]) x = .ok 0x5ff0000000000000 := rfl
    have e2 := eval_mul2 e1 e1
    have hinf : bitsVal (ieee64.fmul 0x5ff0000000000000 0x5ff0000000000000) = none := by
      cases h : bitsVal (ieee64.fmul 0x5ff0000000000000 0x5ff0000000000000) with
      | none => rfl
      | some z =>
        exfalso
        obtain ⟨x', y', g1, g2, g3, _⟩ := ieee64_overflow.mul _ _ (by rw [h]; rfl)
        rw [hva] at g1 g2
        obtain rfl := Option.some.inj g1
        obtain rfl := Option.some.inj g2
        rw [← pow_add, abs_of_nonneg (pow_nonneg (by norm_num) _), overflowAt] at g3
        have : (0 : ℝ) < 2 ^ 970 := pow_pos (by norm_num) _
        have h' : (2 : ℝ) ^ (512 + 512) = 2 ^ 1024 := by norm_num
        rw [h'] at g3
        linarith
    have hm1 : bitsVal 0xbff0000000000000 = some (-1) := by
      rw [bitsVal, show doubleValue 0xbff0000000000000 = some (-1) from by decide +kernel]
      simp
    have e3 : evalTree (irMeaning ieee64 [x] [0x5ff0000000000000]) (pow (mul x x) (integer (-1))) =
        .ok 0 := by
      rw [show (pow (mul x x) (integer (-1)) : Expr) = .node [powH, mul x x, integer (-1)] from rfl,
        evalTree_node _ rfl]
      show [mul x x, integer (-1)].mapM (evalTree (irMeaning ieee64 [x] [0x5ff0000000000000])) >>= _ = _
      rw [List.mapM_cons, e2, List.mapM_cons,
        show evalTree (irMeaning ieee64 [x] [0x5ff0000000000000]) (integer (-1)) =
          .ok 0xbff0000000000000 from rfl]
      show Except.ok (ieee64.pow _ _) = _
      congr 1
      simp only [ieee64] at hinf ⊢
      simp only [hinf, hm1]
      rw [if_neg (by norm_num), if_pos (by norm_num)]
    have e4 := eval_mul2 (eval_mul2 e3 e1) e1
    obtain rfl := Except.ok.inj (h1.symm.trans e4)
    have h0 : bitsVal 0 = some 0 := by
      rw [bitsVal, show doubleValue 0 = some 0 from by decide +kernel]
      simp
    exact fmul_zero64 (fmul_zero64 h0 hva) hva
  · generalize (2 : ℝ) ^ 512 = A at hA1
    have hx : ExactValue [x] [A] x A := .param (by simp)
    have hm : ∀ {a b : Expr} {v w : ℝ}, b ≠ a ∨ v = w → ExactValue [x] [A] a v → ExactValue [x] [A] b w →
        ExactValue [x] [A] (mul a b) (v * w) := by
      intro a b v w hab ha hb
      have := ExactValue.mul (S := [x]) (xs := [A]) (args := [a, b])
        (v := fun t => if t = a then v else w) (by
          intro t ht
          rcases List.mem_pair.1 ht with rfl | rfl
          · simpa using ha
          · by_cases h : t = a
            · rcases hab with hab | rfl
              · exact absurd h hab
              · simpa using hb
            · simpa [h] using hb)
      have e : ([a, b].map fun t => if t = a then v else w).prod = v * w := by
        by_cases h : b = a
        · rcases hab with hab | rfl
          · exact absurd h hab
          · simp
        · simp [h]
      rw [e] at this
      exact this
    have h1 := hm (.inr rfl) hx hx
    have hA0 : A ≠ 0 := by linarith
    have h2 := ExactValue.pow (-1) h1 (.int (-1)) (fun h => absurd h (mul_ne_zero hA0 hA0))
    have h3 := hm (.inl (by decide)) (hm (.inl (by decide)) h2 hx) hx
    have : (A * A) ^ (-1 : ℤ) * A * A = 1 := by
      rw [zpow_neg_one]; field_simp
    rw [this] at h3
    exact h3

/-- The hypotheses of `C74_matrix` hold of `Matrix([[x, 0], [2, x*y + 1]])` at all doubles. -/
example (va vb : ℕ) (a b : ℝ) (hva : bitsVal va = some a) (hvb : bitsVal vb = some b) :
    ∃ (P : Platform ℕ) (f : Callable) (s s' : Proc ℕ) (id : ℕ)
      (cells : List ℕ) (w : ℕ) (r hi' M : ℝ) (D : ℕ), PlatformOK P ieee64 ∧
      Compiled P f [x, y] (.matrix sampleMat) s ∧
      call P f [.float va, .float vb] s = (.array id, s') ∧ s'.arrays[id]? = some cells ∧
      cells[3]? = some w ∧ ExactValue [x, y] [a, b] (add (mul x y) (integer 1)) r ∧
      ErrBound [x, y] [a, b] (2⁻¹ ^ 52) (2⁻¹ ^ 1022) hi' (add (mul x y) (integer 1)) M D ∧
      ∀ z, bitsVal w = some z → |z - r| ≤ ((1 + 2⁻¹ ^ 52) ^ D - 1) * M := by
  obtain ⟨P, hP⟩ := platformOK_exists ieee64
  obtain ⟨hm, hs, hg, hz, hsize, _⟩ := sampleMat_compiles
  obtain ⟨f, s, hf, _⟩ := C59_matrix (P := P) hP [x, y] sampleMat hm hg hs hsize hz
    (Nat.le_trans (by decide) hP.maxArgs) Proc.start
  have hf : Compiled P f [x, y] (.matrix sampleMat) s := ⟨fun _ => False, _, _, hf, .refl _⟩
  have ht : Tower [x, y] (2 ^ 53) 0 (add (mul x y) (integer 1)) := by
    refine .add (by simp) ?_
    intro t ht
    rcases List.mem_pair.1 ht with rfl | rfl
    · refine .mul (by simp) ?_
      intro t ht
      exact .param (by simpa using ht)
    · exact .int (by norm_num)
  obtain ⟨D, B, H, hb⟩ := tower_bounded (xs := [a, b]) rfl ht
  obtain ⟨M, _, _, hb⟩ := hb (2⁻¹ ^ 52) (2⁻¹ ^ 1022) H (by positivity)
    (pow_le_one₀ (by norm_num) (by norm_num)) (pow_nonneg (by norm_num) _)
    (pow_le_one₀ (by norm_num) (by norm_num)) le_rfl
  obtain ⟨id, cells, s', h1, h2, h3⟩ := C74_matrix hP (C62_binary64 _ ieee64_ok)
    (C74_binary64 _ ieee64_overflow) (pow_nonneg (by norm_num) _)
    (pow_nonneg (by norm_num) _) [x, y] hg symbols_xy sampleMat hm hs hsize s f hf
    [.float va, .float vb] [va, vb] [a, b] (.cons (Or.inl rfl) (.cons (Or.inl rfl) .nil))
    (.cons hva (.cons hvb .nil)) rfl
  obtain ⟨w, r, h4, h5, h6⟩ := h3 1 1 _ _ _ _ (by decide) (by decide) rfl hb
    (tower_safe symbols_xy ht)
  exact ⟨P, f, s, s', id, cells, w, r, H, M, D, hP, hf, h1, h2, h4, h5, hb, h6⟩

/-- `C74_order` for the third derivative of `x**3*sin(x*y) + 5` with doubles: wherever the compiled
derivative is a number, the error is at most `K*2^-52`. -/
example (va vb : ℕ) (a b : ℝ) (hva : bitsVal va = some a) (hvb : bitsVal vb = some b) :
    ∃ (d : Expr) (G : ℝ → ℝ) (K : ℝ) (P : Platform ℕ) (f : Callable) (s : Proc ℕ) (w : ℕ),
    Expr.diff (add (mul (pow x (integer 3)) (sin (mul x y))) (integer 5)) x 3 = .ok d ∧
    (∀ t, ExactValue [x, y] [t, b] (add (mul (pow x (integer 3)) (sin (mul x y))) (integer 5)) (G t)) ∧
    PlatformOK P ieee64 ∧ Compiled P f [x, y] (.expr d) s ∧
    call P f [.float va, .float vb] s = (.float w, s) ∧
    (∀ z, bitsVal w = some z → |z - iteratedDeriv 3 G a| ≤ K * 2⁻¹ ^ 52) ∧
    (∀ w' z, d.evalF64 ieeePython (some ⟨[(x, va), (y, vb)]⟩) = .ok w' → bitsVal w' = some z →
      |z - iteratedDeriv 3 G a| ≤ K * 2⁻¹ ^ 52) := by
  obtain ⟨d, G, K, h1, h2, h3, h4⟩ := C74_order [x, y] goodParams_xy.1 symbols_xy _ x
    sample_elementary 0 rfl 3 sample_exponents sample_integers [a, b] rfl a rfl
  obtain ⟨P, hP⟩ := platformOK_exists ieee64
  obtain ⟨f, s, hf, _⟩ := compiled_exists hP goodParams_xy.1 h2 Proc.start
  obtain ⟨h5, h6⟩ := h4 ℕ bitsVal (2⁻¹ ^ 52) (2⁻¹ ^ 1022) largest (by positivity)
    (pow_le_one₀ (by norm_num) (by norm_num)) (pow_nonneg (by norm_num) _)
    (pow_le_one₀ (by norm_num) (by norm_num)) [va, vb] (.cons hva (.cons hvb .nil))
  obtain ⟨w, h7, h8⟩ := h5 P _ hP (C62_binary64 _ ieee64_ok) (C74_binary64 _ ieee64_overflow) s f hf
    [.float va, .float vb] (.cons (Or.inl rfl) (.cons (Or.inl rfl) .nil))
  exact ⟨d, G, K, P, f, s, w, h1, h3, hP, hf, h7, h8,
    h6 _ (C62_binary64_python _ ieeePython_ok) (C74_binary64_python _ ieeePython_overflow)
      (fun _ _ => rfl)⟩

end Verif.Props
