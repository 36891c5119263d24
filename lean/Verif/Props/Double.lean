import Verif.Lemmas.Double

/-!
# C45: the constants in the generated code
-/

set_option linter.unusedSectionVars false
set_option exponentiation.threshold 2000

namespace Verif.Props
open Spec

theorem magnitude_exact (n : Nat) (h : n ≤ 2 ^ 53) :
    ∃ b, magnitudeBits n = some b ∧ b < 2 ^ 63 ∧ doubleValue b = some (n : ℚ) := by
  by_cases h0 : n = 0
  · subst h0
    refine ⟨0, rfl, by norm_num, ?_⟩
    simp [doubleValue]
  by_cases he : n.log2 ≤ 52
  · obtain ⟨m, hm, h1, h2, h3⟩ := magnitudeBits_small n h0 he
    refine ⟨_, h3, by omega, ?_⟩
    rw [doubleValue_sig _ m h1 (by omega) (by omega), hm]
    congr 1
    push_cast
    have e1 : (2 : ℚ) ^ (52 - n.log2) * 2 ^ (n.log2 + 1022 + 1) = 2 ^ 1075 := by
      rw [← pow_add, show 52 - n.log2 + (n.log2 + 1022 + 1) = 1075 by omega]
    have hB : (0 : ℚ) < 2 ^ 1075 := by positivity
    rw [← mul_div_assoc, mul_assoc, e1, mul_div_assoc, div_self hB.ne', mul_one]
  · have hn : n = 2 ^ 53 := by
      have := (log2_bounds n h0).1
      have h2 : 2 ^ 53 ≤ 2 ^ n.log2 := Nat.pow_le_pow_right (by norm_num) (by omega)
      omega
    subst hn
    refine ⟨(53 + 1022) * 2 ^ 52 + 2 ^ 52, by decide +kernel, by norm_num, ?_⟩
    rw [doubleValue_sig 1075 (2 ^ 52) (by norm_num) (by norm_num) (by norm_num)]
    congr 1
    have hB : (0 : ℚ) < 2 ^ 1075 := by positivity
    rw [show (1075 + 1 : Nat) = 1 + 1075 from rfl, pow_add, mul_div_assoc, div_self hB.ne']
    norm_num

/-- `v` is a non-negative finite double. -/
theorem nonneg_form {m k : Nat} : (0 : ℚ) ≤ m * (2 ^ k / 2 ^ 1075) := by positivity

theorem magnitude_nearest (n b : Nat) (h : magnitudeBits n = some b) :
    b < 2 ^ 63 ∧ ∃ q : ℚ, 0 ≤ q ∧ doubleValue b = some q ∧
      ∀ m k : Nat, m < 2 ^ 53 →
        |q - n| ≤ |(m * (2 ^ k / 2 ^ 1075) : ℚ) - n| ∧
        (|q - n| = |(m * (2 ^ k / 2 ^ 1075) : ℚ) - n| →
          (m * (2 ^ k / 2 ^ 1075) : ℚ) = q ∨ b % 2 = 0) := by
  by_cases hs : n ≤ 2 ^ 53
  · obtain ⟨b', h1, h2, h3⟩ := magnitude_exact n hs
    rw [h] at h1
    obtain rfl := Option.some.inj h1
    refine ⟨h2, n, by positivity, h3, fun m k _ => ?_⟩
    rw [sub_self, abs_zero]
    refine ⟨abs_nonneg _, fun he => Or.inl ?_⟩
    have := abs_eq_zero.1 he.symm
    linarith
  · have h0 : n ≠ 0 := by omega
    obtain ⟨hlo, hhi⟩ := log2_bounds n h0
    have he : 52 < n.log2 := by
      by_contra hc
      have : 2 ^ (n.log2 + 1) ≤ 2 ^ 53 := Nat.pow_le_pow_right (by norm_num) (by omega)
      omega
    obtain ⟨q, r, P, hP, hn, hr, hq1, hq2, hb⟩ := magnitudeBits_large n he
    rw [hb] at h
    split at h
    · rename_i hlt
      obtain rfl := Option.some.inj h
      have hM1 : 2 ^ 52 ≤ roundSig q r P := by unfold roundSig; split <;> omega
      have hM2 : roundSig q r P ≤ 2 ^ 53 := by unfold roundSig; split <;> omega
      refine ⟨by omega, ((roundSig q r P * P : Nat) : ℚ), by positivity, ?_, ?_⟩
      · rw [doubleValue_sig _ _ hM1 hM2 hlt]
        congr 1
        have e1 : (2 : ℚ) ^ (n.log2 + 1022 + 1) = 2 ^ (n.log2 - 52) * 2 ^ 1075 := by
          rw [← pow_add]; congr 1; omega
        have hB : (0 : ℚ) < 2 ^ 1075 := by positivity
        rw [e1, mul_div_assoc, div_self hB.ne', hP]
        push_cast
        ring
      · intro m k hm
        have hPpos : 0 < P := by rw [hP]; positivity
        -- the distance of the result
        have hmod : ((n.log2 + 1022) * 2 ^ 52 + roundSig q r P) % 2 = roundSig q r P % 2 := by omega
        rw [hmod]
        generalize hv : (m * (2 ^ k / 2 ^ 1075) : ℚ) = v
        have hpow : (2 : ℚ) ^ n.log2 ≤ (q * P : Nat) := by
          have : 2 ^ n.log2 ≤ q * P := by
            calc 2 ^ n.log2 = 2 ^ 52 * P := by rw [hP, ← pow_add]; congr 1; omega
              _ ≤ q * P := Nat.mul_le_mul_right _ hq1
          exact_mod_cast this
        have hnq : (n : ℚ) = (q * P : Nat) + r := by rw [hn]; push_cast; ring
        have hrq : (r : ℚ) < P := by exact_mod_cast hr
        have hr0 : (0 : ℚ) ≤ r := by positivity
        -- distance to `v`
        have hdist : (v = (q * P : Nat)) ∨ (v = (q * P : Nat) + P) ∨
            ((r : ℚ) < |v - n| ∧ (P : ℚ) - r < |v - n|) ∨ (v < (q * P : Nat)) := by
          by_cases hc : v < (q * P : Nat)
          · exact Or.inr (Or.inr (Or.inr hc))
          · have hge : (2 : ℚ) ^ n.log2 ≤ v := le_trans hpow (not_lt.1 hc)
            rw [← hv] at hge
            obtain ⟨j, hj⟩ := double_multiple m k n.log2 hm (by omega) hge
            rw [hv, ← hP] at hj
            have hjq : q ≤ j := by
              by_contra hlt'
              have h1 : j * P + P ≤ q * P := by
                have : (j + 1) * P ≤ q * P := Nat.mul_le_mul_right _ (by omega)
                linarith
              apply hc
              rw [hj]
              exact_mod_cast (by omega : j * P < q * P)
            rcases Nat.lt_or_ge q j with h1 | h1
            · rcases Nat.lt_or_ge (q + 1) j with h2 | h2
              · right; right; left
                have h3 : q * P + 2 * P ≤ j * P := by
                  have : (q + 2) * P ≤ j * P := Nat.mul_le_mul_right _ (by omega)
                  linarith
                have h4 : ((q * P : Nat) : ℚ) + 2 * P ≤ v := by rw [hj]; exact_mod_cast h3
                have h5 : v - n ≤ |v - n| := le_abs_self _
                constructor <;> linarith
              · right; left
                have : j = q + 1 := by omega
                rw [hj, this]; push_cast; ring
            · left
              have : j = q := by omega
              rw [hj, this]
        have hlow : v < (q * P : Nat) → (r : ℚ) < |v - n| := by
          intro hc
          have h5 : -(v - n) ≤ |v - n| := neg_le_abs _
          linarith
        unfold roundSig
        split
        · rename_i hup
          -- rounded up: distance P - r
          have hup' : (P : ℚ) ≤ 2 * r := by
            have : P ≤ 2 * r := by omega
            exact_mod_cast this
          have hd : |(((q + 1) * P : Nat) : ℚ) - n| = P - r := by
            have : (((q + 1) * P : Nat) : ℚ) - n = P - r := by rw [hnq]; push_cast; ring
            rw [this, abs_of_pos (by linarith)]
          rw [hd]
          rcases hdist with h1 | h1 | h1 | h1
          · have : |v - n| = r := by rw [h1, hnq]; rw [show ((q * P : Nat) : ℚ) - ((q * P : Nat) + r) = -r by ring, abs_neg, abs_of_nonneg hr0]
            rw [this]
            refine ⟨by linarith, fun heq => Or.inr ?_⟩
            have h2r : 2 * r = P := by
              have : (2 * r : ℚ) = P := by linarith
              exact_mod_cast this
            have : q % 2 = 1 := by
              rcases hup with h | ⟨_, h⟩
              · omega
              · exact h
            omega
          · have hvq : v = (((q + 1) * P : Nat) : ℚ) := by rw [h1]; push_cast; ring
            rw [hvq, hd]
            exact ⟨le_refl _, fun _ => Or.inl rfl⟩
          · exact ⟨h1.2.le, fun h => absurd h h1.2.ne⟩
          · have := hlow h1
            exact ⟨by linarith, fun h => by linarith⟩
        · rename_i hdown
          have hdn : 2 * (r : ℚ) ≤ P := by
            have : 2 * r ≤ P := by omega
            exact_mod_cast this
          have hd : |((q * P : Nat) : ℚ) - n| = r := by
            have : ((q * P : Nat) : ℚ) - n = -r := by rw [hnq]; ring
            rw [this, abs_neg, abs_of_nonneg hr0]
          rw [hd]
          rcases hdist with h1 | h1 | h1 | h1
          · rw [h1, hd]
            exact ⟨le_refl _, fun _ => Or.inl rfl⟩
          · have : |v - n| = P - r := by
              rw [h1, hnq, show ((q * P : Nat) : ℚ) + P - ((q * P : Nat) + r) = P - r by ring,
                abs_of_pos (by linarith)]
            rw [this]
            refine ⟨by linarith, fun heq => Or.inr ?_⟩
            have h2r : 2 * r = P := by
              have : (2 * r : ℚ) = P := by linarith
              exact_mod_cast this
            omega
          · exact ⟨h1.1.le, fun h => absurd h h1.1.ne⟩
          · have := hlow h1
            exact ⟨this.le, fun h => absurd h this.ne⟩
    · cases h

/-- **C45.** For `|n| ≤ 2^53` the hexadecimal constant emitted for `Integer(n)` is read back as
exactly `n`. -/
theorem C45_exact (n : Int) (h : |n| ≤ 2 ^ 53) :
    ∃ s b, doubleToHex (.int n) = .ok s ∧ hexValue s = some b ∧ b < 2 ^ 64 ∧
      doubleValue b = some (n : ℚ) := by
  have hn : n.natAbs ≤ 2 ^ 53 := by rw [abs_le] at h; omega
  obtain ⟨b, h1, h2, h3⟩ := magnitude_exact n.natAbs hn
  by_cases hneg : n < 0
  · refine ⟨pyHex (2 ^ 63 + b), 2 ^ 63 + b, ?_, hexValue_pyHex _, by omega, ?_⟩
    · simp only [doubleToHex, doubleBits, if_pos hneg, h1, Option.map_some]
    · rw [doubleValue_neg b h2, h3]
      simp only [Option.map_some, Option.some.injEq]
      have : (n : ℤ) = -(n.natAbs : ℤ) := by omega
      rw [this]; push_cast
      simp
  · refine ⟨pyHex b, b, ?_, hexValue_pyHex _, by omega, ?_⟩
    · simp only [doubleToHex, doubleBits, if_neg hneg, h1]
    · rw [h3]
      simp only [Option.some.injEq]
      have : (n : ℤ) = (n.natAbs : ℤ) := by omega
      rw [this]; simp

example : doubleToHex (.int (-3)) = .ok "0xc008000000000000" ∧
    doubleToHex (.int (2 ^ 53)) = .ok "0x4340000000000000" := by decide +kernel

/-- **C45, every integer.** Whatever constant is emitted, no double is nearer to the integer,
and of two equally near doubles the one with even significand is taken. -/
theorem C45_nearest (n : Int) (s : String) (h : doubleToHex (.int n) = .ok s) :
    ∃ b q, hexValue s = some b ∧ b < 2 ^ 64 ∧ doubleValue b = some q ∧
      ∀ b' v, doubleValue b' = some v →
        |q - n| ≤ |v - n| ∧ (|q - n| = |v - n| → v = q ∨ b % 2 = 0) := by
  have hcase : ∃ c, magnitudeBits n.natAbs = some c ∧
      s = pyHex (if n < 0 then 2 ^ 63 + c else c) := by
    unfold doubleToHex doubleBits at h
    by_cases hneg : n < 0
    · simp only [if_pos hneg] at h ⊢
      cases hm : magnitudeBits n.natAbs with
      | none => rw [hm] at h; cases h
      | some c => rw [hm] at h; exact ⟨c, rfl, (Except.ok.inj h).symm⟩
    · simp only [if_neg hneg] at h ⊢
      cases hm : magnitudeBits n.natAbs with
      | none => rw [hm] at h; cases h
      | some c => rw [hm] at h; exact ⟨c, rfl, (Except.ok.inj h).symm⟩
  obtain ⟨c, hc, rfl⟩ := hcase
  obtain ⟨hlt, q, hq0, hq, hnear⟩ := magnitude_nearest n.natAbs c hc
  -- signed version
  have key : ∀ b' v, doubleValue b' = some v → ∀ sg : ℚ, (sg = 1 ∨ sg = -1) →
      |q - n.natAbs| ≤ |sg * v - n.natAbs| ∧
      (|q - n.natAbs| = |sg * v - n.natAbs| → sg * v = q ∨ c % 2 = 0) := by
    intro b' v hv sg hsg
    obtain ⟨sg', m, k, hsg', hm, rfl⟩ := doubleValue_form b' v hv
    obtain ⟨h1, h2⟩ := hnear m k hm
    have hw : (0 : ℚ) ≤ m * (2 ^ k / 2 ^ 1075) := nonneg_form
    generalize (m * (2 ^ k / 2 ^ 1075) : ℚ) = w at *
    have hN : (0 : ℚ) ≤ n.natAbs := by positivity
    generalize (n.natAbs : ℚ) = N at *
    have hmul : sg * (sg' * w) = w ∨ sg * (sg' * w) = -w := by
      rcases hsg with rfl | rfl <;> rcases hsg' with rfl | rfl
      · left; ring
      · right; ring
      · right; ring
      · left; ring
    rcases hmul with he | he <;> rw [he]
    · exact ⟨h1, h2⟩
    · have h3 : |-w - N| = w + N := by
        rw [show -w - N = -(w + N) by ring, abs_neg, abs_of_nonneg (by linarith)]
      have h4 : |w - N| ≤ w + N := by
        rw [abs_le]; constructor <;> linarith
      rw [h3]
      refine ⟨le_trans h1 h4, fun heq => ?_⟩
      have h5 : |q - N| = |w - N| := le_antisymm h1 (heq ▸ h4)
      have h6 : |w - N| = w + N := by rw [← h5]; exact heq
      rcases h2 h5 with h7 | h7
      · left
        rcases abs_cases (w - N) with ⟨h8, _⟩ | ⟨h8, _⟩
        · -- N = 0, so q = 0
          have hN0 : N = 0 := by linarith
          subst hN0
          obtain ⟨h9, _⟩ := hnear 0 0 (by norm_num)
          simp only [Nat.cast_zero, zero_mul, sub_zero, abs_zero] at h9
          have : q = 0 := abs_eq_zero.1 (le_antisymm h9 (abs_nonneg _))
          linarith
        · linarith
      · exact Or.inr h7
  by_cases hneg : n < 0
  · have hnn : (n : ℚ) = -(n.natAbs : ℚ) := by
      have : (n : ℤ) = -(n.natAbs : ℤ) := by omega
      rw [this]; push_cast; simp
    rw [if_pos hneg]
    refine ⟨2 ^ 63 + c, -q, hexValue_pyHex _, by omega, by rw [doubleValue_neg c hlt, hq]; rfl, ?_⟩
    intro b' v hv
    obtain ⟨h1, h2⟩ := key b' v hv (-1) (Or.inr rfl)
    have e1 : |-q - n| = |q - n.natAbs| := by
      rw [hnn, ← abs_neg]; congr 1; ring
    have e2 : |v - n| = |-1 * v - n.natAbs| := by
      rw [hnn, ← abs_neg]; congr 1; ring
    rw [e1, e2]
    refine ⟨h1, fun heq => ?_⟩
    rcases h2 heq with h3 | h3
    · left; linarith
    · right; omega
  · have hnn : (n : ℚ) = (n.natAbs : ℚ) := by
      have : (n : ℤ) = (n.natAbs : ℤ) := by omega
      rw [this]; push_cast; simp
    rw [if_neg hneg]
    refine ⟨c, q, hexValue_pyHex _, by omega, hq, ?_⟩
    intro b' v hv
    obtain ⟨h1, h2⟩ := key b' v hv 1 (Or.inl rfl)
    rw [one_mul] at h1 h2
    rw [hnn]
    exact ⟨h1, h2⟩

/-- `2^53 + 1` and `2^53 + 3` are halfway between doubles: both go to the even one. -/
example : doubleToHex (.int (2 ^ 53 + 1)) = .ok "0x4340000000000000" ∧
    doubleToHex (.int (2 ^ 53 + 3)) = .ok "0x4340000000000002" := by decide +kernel

theorem roundSig_carry (q r Q : Nat) (h0 : 0 < Q) (hr : r < 2 * Q) (hq : q < 2 ^ 53) :
    roundSig q r (2 * Q) < 2 ^ 53 ↔ q * (2 * Q) + r < 2 ^ 53 * (2 * Q) - Q := by
  unfold roundSig
  rcases Nat.lt_or_ge q (2 ^ 53 - 1) with h5 | h5
  · have h6 : q * (2 * Q) + 2 * Q ≤ (2 ^ 53 - 1) * (2 * Q) := by
      have : (q + 1) * (2 * Q) ≤ (2 ^ 53 - 1) * (2 * Q) := Nat.mul_le_mul_right _ (by omega)
      linarith
    constructor
    · intro _; omega
    · intro _; split <;> omega
  · have h6 : q = 2 ^ 53 - 1 := by omega
    subst h6
    split <;> omega

theorem magnitudeBits_none (n : Nat) : magnitudeBits n = none ↔ 2 ^ 1024 - 2 ^ 970 ≤ n := by
  by_cases hs : n ≤ 2 ^ 53
  · obtain ⟨b, h1, _⟩ := magnitude_exact n hs
    rw [h1]
    refine ⟨fun h => (by cases h), fun h => ?_⟩
    have : 2 ^ 53 < 2 ^ 1024 - 2 ^ 970 := by norm_num
    omega
  · have h0 : n ≠ 0 := by omega
    obtain ⟨hlo, hhi⟩ := log2_bounds n h0
    have he : 52 < n.log2 := by
      by_contra hc
      have : 2 ^ (n.log2 + 1) ≤ 2 ^ 53 := Nat.pow_le_pow_right (by norm_num) (by omega)
      omega
    obtain ⟨q, r, P, hP, hn, hr, hq1, hq2, hb⟩ := magnitudeBits_large n he
    rw [hb]
    have hM1 : 2 ^ 52 ≤ roundSig q r P := by unfold roundSig; split <;> omega
    have hM2 : roundSig q r P ≤ 2 ^ 53 := by unfold roundSig; split <;> omega
    have hbig : (2 : Nat) ^ 1024 - 2 ^ 970 < 2 ^ 1024 := by norm_num
    rcases Nat.lt_trichotomy n.log2 1023 with h1 | h1 | h1
    · rw [if_pos (by omega)]
      refine ⟨fun h => (by cases h), fun h => ?_⟩
      have h2 : 2 ^ (n.log2 + 1) ≤ 2 ^ 1023 := Nat.pow_le_pow_right (by norm_num) (by omega)
      have h3 : (2 : Nat) ^ 1023 < 2 ^ 1024 - 2 ^ 970 := by norm_num
      omega
    · have hP' : P = 2 ^ 971 := by rw [hP, h1]
      have hsplit : (n.log2 + 1022) * 2 ^ 52 + roundSig q r P < 2047 * 2 ^ 52 ↔
          roundSig q r P < 2 ^ 53 := by rw [h1]; omega
      have hiff : roundSig q r P < 2 ^ 53 ↔ n < 2 ^ 1024 - 2 ^ 970 := by
        have e1 : (2 : Nat) ^ 1024 = 2 ^ 53 * (2 * 2 ^ 970) := by rw [← pow_succ', ← pow_add]
        have e2 : P = 2 * 2 ^ 970 := by rw [hP', ← pow_succ']
        have e3 : 0 < (2 : Nat) ^ 970 := by positivity
        rw [hn, e1, e2]
        rw [e2] at hr
        exact roundSig_carry q r _ e3 hr hq2
      by_cases hlt : roundSig q r P < 2 ^ 53
      · rw [if_pos (hsplit.2 hlt)]
        refine ⟨fun h => (by cases h), fun h => ?_⟩
        have := hiff.1 hlt; omega
      · rw [if_neg (fun h => hlt (hsplit.1 h))]
        refine ⟨fun _ => ?_, fun _ => rfl⟩
        by_contra hc
        exact hlt (hiff.2 (by omega))
    · rw [if_neg (by omega)]
      refine ⟨fun _ => ?_, fun _ => rfl⟩
      have h2 : 2 ^ 1024 ≤ 2 ^ n.log2 := Nat.pow_le_pow_right (by norm_num) (by omega)
      omega

/-- **C45, too large.** The only integers without a constant are those that round to infinity,
`|n| ≥ 2^1024 - 2^970`; for them `struct.error` is raised. -/
theorem C45_too_large (n : Int) :
    (∀ err, doubleToHex (.int n) = .error err → err = .structError) ∧
    ((∃ err, doubleToHex (.int n) = .error err) ↔ 2 ^ 1024 - 2 ^ 970 ≤ |n|) := by
  have hnat : (2 ^ 1024 - 2 ^ 970 ≤ |n|) ↔ 2 ^ 1024 - 2 ^ 970 ≤ n.natAbs := by
    rw [Int.abs_eq_natAbs]
    have : (2 : ℤ) ^ 1024 - 2 ^ 970 = ((2 ^ 1024 - 2 ^ 970 : Nat) : ℤ) := by decide +kernel
    rw [this, Int.ofNat_le]
  rw [hnat, ← magnitudeBits_none]
  unfold doubleToHex doubleBits
  cases hm : magnitudeBits n.natAbs with
  | none =>
    by_cases hneg : n < 0 <;> simp [hneg, hm, eq_comm]
  | some c =>
    by_cases hneg : n < 0 <;> simp [hneg, hm, eq_comm]

example : doubleToHex (.int (2 ^ 1024)) = .error .structError ∧
    doubleToHex (.int (-(2 ^ 1024 - 2 ^ 970 - 1))) = .ok "0xffefffffffffffff" := by decide +kernel

end Verif.Props
