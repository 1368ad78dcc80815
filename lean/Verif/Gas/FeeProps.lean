import Verif.Gas.Model
import Mathlib.Tactic.Linarith
import Mathlib.Tactic.Ring
/-
C24: the EIP-1559 style per-epoch base fee.
-/
namespace Verif.Gas

/-- Specification: the mathematical adjustment, without machine arithmetic or clamps. -/
def idealNextFee (cur used target : Nat) : Nat :=
  if used = target then cur
  else if target < used then cur + max 1 (cur * (min used (2 * target) - target) / (target * 8))
  else cur - cur * (target - used) / (target * 8)

theorem delta_le (cur d T : Nat) (hd : d ≤ T) : cur * d / (T * 8) ≤ cur / 8 := by
  rcases Nat.eq_zero_or_pos T with h | h
  · subst h; simp
  · rw [Nat.div_le_iff_le_mul_add_pred (by omega)]
    have h1 : cur * d ≤ cur * T := Nat.mul_le_mul_left _ hd
    have h2 := Nat.div_add_mod cur 8
    have h3 : cur % 8 < 8 := Nat.mod_lt _ (by omega)
    have h4 : cur * T = T * 8 * (cur / 8) + T * (cur % 8) := by
      conv_lhs => rw [← h2]
      ring
    have h5 : T * (cur % 8) ≤ T * 7 := Nat.mul_le_mul_left _ (by omega)
    omega

theorem safeMax_val : safeMaxBaseFee = 7 * 2 ^ 61 := by decide

theorem calc_exact (cur used target : Nat) (h0 : 0 < target) (ht : target < 2 ^ 63)
    (hc : cur ≤ safeMaxBaseFee) :
    calcNextBlockBaseFee (min used (satMul64 target 2)) (satMul64 target 2) cur =
      idealNextFee cur used target := by
  have hs := safeMax_val
  have hlim : satMul64 target 2 = 2 * target := by unfold satMul64 u64; omega
  rw [hlim]
  unfold calcNextBlockBaseFee idealNextFee
  have ht2 : 2 * target / 2 = target := by omega
  have hm8 : mul128 target 8 = target * 8 := by
    unfold mul128 u128; apply Nat.mod_eq_of_lt; omega
  have hm : ∀ d, d ≤ target → mul128 cur d = cur * d := by
    intro d hd
    unfold mul128 u128; apply Nat.mod_eq_of_lt
    have : cur * d ≤ 2 ^ 64 * 2 ^ 63 := Nat.mul_le_mul (by omega) (by omega)
    omega
  simp only [ht2, hm8]
  by_cases h1 : used = target
  · have : min target (2 * target) = target := by omega
    simp only [h1, this, if_true]
  · have h1' : ¬ min used (2 * target) = target := by omega
    simp only [if_neg h1, if_neg h1']
    by_cases h2 : target < used
    · have h2' : target < min used (2 * target) := by omega
      simp only [if_pos h2, if_pos h2']
      rw [hm _ (by omega)]
      have hd := delta_le cur (min used (2 * target) - target) target (by omega)
      unfold add64 u64
      generalize cur * (min used (2 * target) - target) / (target * 8) = q at *
      rw [Nat.mod_eq_of_lt (a := max 1 _) (by omega), Nat.mod_eq_of_lt (by omega)]
    · have h2' : ¬ target < min used (2 * target) := by omega
      have hu : min used (2 * target) = used := by omega
      have h2'' : ¬ target < used := h2
      simp only [hu, if_neg h2'']
      rw [hm _ (by omega)]
      have hd := delta_le cur (target - used) target (by omega)
      unfold u64
      rw [Nat.mod_eq_of_lt (by omega)]

/-- C24 (a): for a target below 2^63 and a fee below the safe bound the machine computation equals the
mathematical formula (floored): no multiplication, cast or addition overflows. -/
theorem next_fee_exact (cur used target : Nat) (h0 : 0 < target) (ht : target < 2 ^ 63)
    (hc : cur ≤ safeMaxBaseFee) :
    nextBaseFee (.eip1559 target) cur used = max (idealNextFee cur used target) 7 := by
  unfold nextBaseFee computeNextBaseFeeEip1559
  have hmin : min cur safeMaxBaseFee = cur := by omega
  simp only [if_neg (show ¬ target = 0 by omega), hmin, minProtocolBaseFee]
  rw [calc_exact cur used target h0 ht hc]

theorem ideal_bounds (cur used target : Nat) :
    idealNextFee cur used target ≤ cur + max 1 (cur / 8) ∧
    cur ≤ idealNextFee cur used target + cur / 8 := by
  unfold idealNextFee
  have hd1 := delta_le cur (min used (2 * target) - target) target (by omega)
  have hd2 : cur * (target - used) / (target * 8) ≤ cur / 8 := delta_le _ _ _ (by omega)
  generalize cur * (min used (2 * target) - target) / (target * 8) = q at *
  generalize cur * (target - used) / (target * 8) = q' at *
  split
  · omega
  · split <;> omega

theorem delta_le' (cur T : Nat) (hT : T = 2 ^ 63 - 1) (hc : cur ≤ 7 * 2 ^ 61) (d : Nat)
    (hd : d ≤ T + 1) : cur * d / (T * 8) ≤ cur / 8 + 1 := by
  rw [Nat.div_le_iff_le_mul_add_pred (by omega)]
  have h1 : cur * d ≤ cur * (T + 1) := Nat.mul_le_mul_left _ hd
  have h2 := Nat.div_add_mod cur 8
  subst hT
  have : cur * (2 ^ 63 - 1 + 1) = cur * 2 ^ 63 := by norm_num
  omega

/-- The bounds on one raw adjustment, in every regime (also the saturating one). -/
theorem calc_bounds (cur used target : Nat) (h0 : 0 < target) (ht : target < 2 ^ 64)
    (hc : cur ≤ safeMaxBaseFee) :
    let r := calcNextBlockBaseFee (min used (satMul64 target 2)) (satMul64 target 2) cur
    r ≤ cur + max 1 (cur / 8 + 1) ∧ cur ≤ r + (cur / 8 + 1) ∧ r < 2 ^ 64 := by
  have hs := safeMax_val
  by_cases h63 : target < 2 ^ 63
  · intro r
    have hr : r = idealNextFee cur used target := calc_exact cur used target h0 h63 hc
    have := ideal_bounds cur used target
    rw [hr]; omega
  · have hlim : satMul64 target 2 = 2 ^ 64 - 1 := by unfold satMul64 u64; omega
    simp only [hlim]
    unfold calcNextBlockBaseFee
    have hm8 : mul128 (2 ^ 63 - 1) 8 = (2 ^ 63 - 1) * 8 := by decide
    have hT : (2 ^ 64 - 1) / 2 = 2 ^ 63 - 1 := by decide
    simp only [hT, hm8]
    have hm : ∀ d, d ≤ 2 ^ 63 → mul128 cur d = cur * d := by
      intro d hd
      unfold mul128 u128; apply Nat.mod_eq_of_lt
      have : cur * d ≤ 2 ^ 64 * 2 ^ 63 := Nat.mul_le_mul (by omega) hd
      omega
    split
    · omega
    · split
      · rw [hm _ (by omega)]
        have hd := delta_le' cur _ rfl (by omega) (min used (2 ^ 64 - 1) - (2 ^ 63 - 1)) (by omega)
        unfold add64 u64
        generalize cur * (min used (2 ^ 64 - 1) - (2 ^ 63 - 1)) / ((2 ^ 63 - 1) * 8) = q at *
        rw [Nat.mod_eq_of_lt (a := max 1 _) (by omega), Nat.mod_eq_of_lt (by omega)]
        omega
      · rw [hm _ (by omega)]
        have hd := delta_le' cur _ rfl (by omega) ((2 ^ 63 - 1) - min used (2 ^ 64 - 1)) (by omega)
        unfold u64
        rw [Nat.mod_eq_of_lt (by omega)]
        omega

/-- C24 (b): for all 64-bit inputs the next fee of an EIP-1559 worker stays between the protocol floor
and the 64-bit maximum. -/
theorem next_fee_range (cur used target : Nat) (hc : cur < 2 ^ 64) (ht : target < 2 ^ 64) :
    7 ≤ nextBaseFee (.eip1559 target) cur used ∧ nextBaseFee (.eip1559 target) cur used < 2 ^ 64 := by
  unfold nextBaseFee computeNextBaseFeeEip1559
  by_cases h0 : target = 0
  · simp only [if_pos h0, minProtocolBaseFee]; omega
  · have := calc_bounds (min cur safeMaxBaseFee) used target (by omega) ht (by omega)
    simp only [if_neg h0, minProtocolBaseFee]
    omega

/-- C24 (c): the move is at most one eighth (or one unit, when raising a tiny fee; or one unit more
than the eighth when the governance target exceeds 2^63 gas). -/
theorem next_fee_step (cur used target : Nat) (hc : cur ≤ safeMaxBaseFee) (h7 : 7 ≤ cur)
    (ht : target < 2 ^ 64) :
    nextBaseFee (.eip1559 target) cur used ≤ cur + (cur / 8 + 1) ∧
    cur ≤ nextBaseFee (.eip1559 target) cur used + (cur / 8 + 1) ∧
    (target < 2 ^ 63 →
      nextBaseFee (.eip1559 target) cur used ≤ cur + max 1 (cur / 8) ∧
      cur ≤ nextBaseFee (.eip1559 target) cur used + cur / 8) := by
  by_cases h0 : target = 0
  · have : nextBaseFee (.eip1559 target) cur used = cur := by
      simp only [nextBaseFee, computeNextBaseFeeEip1559, if_pos h0, minProtocolBaseFee]; omega
    rw [this]; omega
  · refine ⟨?_, ?_, ?_⟩
    · have := calc_bounds cur used target (by omega) ht hc
      unfold nextBaseFee computeNextBaseFeeEip1559
      have hmin : min cur safeMaxBaseFee = cur := by omega
      simp only [if_neg h0, minProtocolBaseFee, hmin]
      omega
    · have := calc_bounds cur used target (by omega) ht hc
      unfold nextBaseFee computeNextBaseFeeEip1559
      have hmin : min cur safeMaxBaseFee = cur := by omega
      simp only [if_neg h0, minProtocolBaseFee, hmin]
      omega
    · intro h63
      rw [next_fee_exact cur used target (by omega) h63 hc]
      have := ideal_bounds cur used target
      omega

/-- C24 (d): direction. Above the target the fee strictly rises, at the target it stays, below it never
rises. -/
theorem next_fee_direction (cur used target : Nat) (hc : cur ≤ safeMaxBaseFee) (h7 : 7 ≤ cur)
    (h0 : 0 < target) (ht : target < 2 ^ 63) :
    (target < used → cur < nextBaseFee (.eip1559 target) cur used) ∧
    (used = target → nextBaseFee (.eip1559 target) cur used = cur) ∧
    (used < target → nextBaseFee (.eip1559 target) cur used ≤ cur) := by
  rw [next_fee_exact cur used target h0 ht hc]
  unfold idealNextFee
  refine ⟨?_, ?_, ?_⟩
  · intro h
    rw [if_neg (by omega), if_pos h]; omega
  · intro h; rw [if_pos h]; omega
  · intro h
    rw [if_neg (by omega), if_neg (by omega)]
    generalize cur * (target - used) / (target * 8) = q
    omega

/-- C24 (e): more gas used never lowers the next fee. -/
theorem next_fee_mono_used (cur u v target : Nat) (hc : cur ≤ safeMaxBaseFee)
    (h0 : 0 < target) (ht : target < 2 ^ 63) (huv : u ≤ v) :
    nextBaseFee (.eip1559 target) cur u ≤ nextBaseFee (.eip1559 target) cur v := by
  rw [next_fee_exact cur u target h0 ht hc, next_fee_exact cur v target h0 ht hc]
  apply max_le_max_right
  unfold idealNextFee
  have hdec : ∀ d, cur - cur * d / (target * 8) ≤ cur := fun d => Nat.sub_le _ _
  by_cases h1 : u = target
  · rw [if_pos h1]
    by_cases h2 : v = target
    · rw [if_pos h2]
    · rw [if_neg h2, if_pos (by omega)]; omega
  · rw [if_neg h1]
    by_cases h2 : target < u
    · rw [if_pos h2, if_neg (by omega), if_pos (by omega)]
      have : cur * (min u (2 * target) - target) / (target * 8) ≤
          cur * (min v (2 * target) - target) / (target * 8) :=
        Nat.div_le_div_right (Nat.mul_le_mul_left _ (by omega))
      omega
    · rw [if_neg h2]
      by_cases h3 : v = target
      · rw [if_pos h3]; exact hdec _
      · rw [if_neg h3]
        by_cases h4 : target < v
        · rw [if_pos h4]; have := hdec (target - u); omega
        · rw [if_neg h4]
          have : cur * (target - v) / (target * 8) ≤ cur * (target - u) / (target * 8) :=
            Nat.div_le_div_right (Nat.mul_le_mul_left _ (by omega))
          omega

/-- C24 (f): a static worker's fee is the configured fee whatever was used. -/
theorem static_fee (fee cur used : Nat) : nextBaseFee (.static fee) cur used = fee := rfl

/-- Observation: the comment at gas_accumulator.rs:455-459 claims that the step never exceeds `fee / 8`
also when the doubled target saturates. There the recovered target is 2^63-1 and the clamp allows
2^63 above it, so the step can exceed the eighth by one unit (the sum still fits, see
`next_fee_range`). -/
theorem saturated_step_exceeds_eighth :
    ∃ cur used target : Nat, cur ≤ safeMaxBaseFee ∧ used < 2 ^ 64 ∧ target < 2 ^ 64 ∧
      cur + cur / 8 < nextBaseFee (.eip1559 target) cur used :=
  ⟨2 ^ 63 + 7, 2 ^ 64 - 1, 2 ^ 63, by decide⟩

-- non-vacuity: up, flat, down, floor
example : nextBaseFee (.eip1559 1000) 800 5000 = 900 ∧ nextBaseFee (.eip1559 1000) 800 1000 = 800 ∧
    nextBaseFee (.eip1559 1000) 800 0 = 700 ∧ nextBaseFee (.eip1559 1000) 7 0 = 7 ∧
    nextBaseFee (.eip1559 1000) 7 1001 = 8 ∧ nextBaseFee (.eip1559 0) 3 9 = 7 := by decide

end Verif.Gas
