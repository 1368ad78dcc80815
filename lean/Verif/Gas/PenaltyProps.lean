import Verif.Gas.Model
import Mathlib.Algebra.BigOperators.Group.Finset.Basic
import Mathlib.Algebra.Order.BigOperators.Group.Finset
import Mathlib.Tactic.Ring
import Mathlib.Tactic.Linarith
/-
C22 (gas penalty) and C23 (fee conservation).
-/
namespace Verif.Gas

/-- Specification: the mathematical penalty, without machine arithmetic. -/
def idealPenalty (limit used : Nat) : Nat :=
  if limit ≤ 210000 ∨ limit ≤ 10 * used then 0
  else (10 ^ 8 - 10 ^ 9 * used / limit) ^ 2 * (limit - used) / 10 ^ 16

theorem ratio_iff {limit used : Nat} (h : 0 < limit) :
    10 ^ 8 ≤ 10 ^ 9 * used / limit ↔ limit ≤ 10 * used := by
  rw [Nat.le_div_iff_mul_le h]; omega

theorem ideal_le_unused (limit used : Nat) : idealPenalty limit used ≤ limit - used := by
  unfold idealPenalty
  split
  · omega
  · apply Nat.div_le_of_le_mul
    apply Nat.mul_le_mul_right
    calc (10 ^ 8 - 10 ^ 9 * used / limit) ^ 2 ≤ (10 ^ 8) ^ 2 :=
          Nat.pow_le_pow_left (Nat.sub_le _ _) 2
      _ = 10 ^ 16 := by norm_num

/-- C22 (a): for all 64-bit inputs the machine computation equals the mathematical formula: no
intermediate product overflows and the final conversion never falls back. -/
theorem penalty_no_overflow (limit used : Nat) (hl : limit < 2 ^ 64) (hu : used < 2 ^ 64) :
    calculateGasPenalty limit used = idealPenalty limit used := by
  unfold calculateGasPenalty
  have hm1 : mul128 precision used = 10 ^ 9 * used := by
    unfold mul128 precision u128; apply Nat.mod_eq_of_lt; omega
  rw [hm1]
  by_cases h1 : limit ≤ minGasLimitThreshold
  · have h1' : limit ≤ 210000 := h1
    rw [if_pos h1]; simp [idealPenalty, h1']
  · rw [if_neg h1]
    have h1' : ¬ limit ≤ 210000 := h1
    have hpos : 0 < limit := by omega
    by_cases h2 : threshold ≤ 10 ^ 9 * used / limit
    · simp only [if_pos h2]
      have := (ratio_iff hpos).mp h2
      simp [idealPenalty, this]
    · simp only [if_neg h2]
      simp only [threshold] at h2
      have h3 : ¬ limit ≤ 10 * used := fun h => h2 ((ratio_iff hpos).mpr h)
      have hi : 10 ^ 8 - 10 ^ 9 * used / limit ≤ 10 ^ 8 := Nat.sub_le _ _
      have hle := ideal_le_unused limit used
      have hideal : idealPenalty limit used =
          (10 ^ 8 - 10 ^ 9 * used / limit) ^ 2 * (limit - used) / 10 ^ 16 := by
        unfold idealPenalty; rw [if_neg (by omega)]
      have key : ∀ i, i ≤ 10 ^ 8 → i ^ 2 * (limit - used) / 10 ^ 16 ≤ limit - used →
          (if mul128 (mul128 i i) (limit - used) / thresholdSquared < u64 then
            mul128 (mul128 i i) (limit - used) / thresholdSquared else limit - used) =
          i ^ 2 * (limit - used) / 10 ^ 16 := by
        intro i hi hle
        have hsq : i * i ≤ 10 ^ 8 * 10 ^ 8 := Nat.mul_le_mul hi hi
        have hm2 : mul128 i i = i * i := by
          unfold mul128 u128; apply Nat.mod_eq_of_lt; omega
        have hprod : i * i * (limit - used) ≤ 10 ^ 16 * 2 ^ 64 :=
          Nat.mul_le_mul (by omega) (by omega)
        have hm3 : mul128 (mul128 i i) (limit - used) / thresholdSquared =
            i ^ 2 * (limit - used) / 10 ^ 16 := by
          rw [hm2, pow_two]
          show (i * i * (limit - used)) % 2 ^ 128 / 10 ^ 16 = _
          rw [Nat.mod_eq_of_lt (by omega)]
        rw [if_pos, hm3]
        rw [hm3]; unfold u64; omega
      rw [hideal] at hle ⊢
      exact key _ hi hle

/-- C22 (b): limits up to 210000 and transactions using at least a tenth of their limit are never
charged. -/
theorem penalty_zero (limit used : Nat) (hl : limit < 2 ^ 64) (hu : used < 2 ^ 64)
    (h : limit ≤ 210000 ∨ limit ≤ 10 * used) : calculateGasPenalty limit used = 0 := by
  rw [penalty_no_overflow limit used hl hu]; simp [idealPenalty, h]

/-- C22 (c): the penalty never exceeds the unused gas. -/
theorem penalty_le_unused (limit used : Nat) (hl : limit < 2 ^ 64) (hu : used < 2 ^ 64) :
    calculateGasPenalty limit used ≤ limit - used := by
  rw [penalty_no_overflow limit used hl hu]; exact ideal_le_unused limit used

/-- C22 (d): for a fixed limit, using more gas never raises the penalty. -/
theorem penalty_antitone_used (limit u v : Nat) (hl : limit < 2 ^ 64) (hv : v < 2 ^ 64)
    (huv : u ≤ v) : calculateGasPenalty limit v ≤ calculateGasPenalty limit u := by
  rw [penalty_no_overflow limit u hl (by omega), penalty_no_overflow limit v hl hv]
  unfold idealPenalty
  by_cases h2 : limit ≤ 210000 ∨ limit ≤ 10 * v
  · rw [if_pos h2]; omega
  · rw [if_neg h2, if_neg (by omega)]
    apply Nat.div_le_div_right
    apply Nat.mul_le_mul
    · apply Nat.pow_le_pow_left
      have : 10 ^ 9 * u / limit ≤ 10 ^ 9 * v / limit :=
        Nat.div_le_div_right (Nat.mul_le_mul_left _ huv)
      omega
    · omega

/-- C22 (e): for fixed usage, raising the limit never lowers the penalty. -/
theorem penalty_mono_limit (l m used : Nat) (hm : m < 2 ^ 64) (hu : used < 2 ^ 64)
    (hlm : l ≤ m) : calculateGasPenalty l used ≤ calculateGasPenalty m used := by
  rw [penalty_no_overflow l used (by omega) hu, penalty_no_overflow m used hm hu]
  unfold idealPenalty
  by_cases h2 : l ≤ 210000 ∨ l ≤ 10 * used
  · rw [if_pos h2]; omega
  · rw [if_neg h2, if_neg (by omega)]
    apply Nat.div_le_div_right
    apply Nat.mul_le_mul
    · apply Nat.pow_le_pow_left
      have : 10 ^ 9 * used / m ≤ 10 ^ 9 * used / l := Nat.div_le_div_left hlm (by omega)
      omega
    · omega

/-- C22 (f): a transaction above the small-limit threshold that uses nothing loses the whole limit. -/
theorem penalty_all_unused (limit : Nat) (hl : limit < 2 ^ 64) (h : 210000 < limit) :
    calculateGasPenalty limit 0 = limit := by
  rw [penalty_no_overflow limit 0 hl (by omega)]
  unfold idealPenalty
  rw [if_neg (by omega)]
  simp only [Nat.mul_zero, Nat.zero_div, Nat.sub_zero]
  have : (10 ^ 8) ^ 2 * limit = limit * 10 ^ 16 := by ring
  rw [this]
  exact Nat.mul_div_cancel limit (by norm_num)

-- Tests on the table of the Rust doc comment (evm/utils.rs:42-50).
example : calculateGasPenalty 420000 21000 = 99750 ∧
    calculateGasPenalty 210000 21000 = 0 ∧ calculateGasPenalty 1000000 100000 = 0 ∧
    calculateGasPenalty 1000000 0 = 1000000 := by decide

/-- Observation (not promised by the code): the total gas charged, usage plus penalty, is not
monotone in the usage; burning 1000 extra gas makes this transaction cheaper. -/
theorem burning_gas_can_be_cheaper :
    ∃ limit u v : Nat, u < v ∧ v ≤ limit ∧ limit < 2 ^ 64 ∧
      v + calculateGasPenalty limit v < u + calculateGasPenalty limit u :=
  ⟨1000000, 21000, 22000, by decide⟩

/-! ## C23 – conservation of fees -/

/-- Specification: the sum of the balances of a set of accounts. -/
def total (S : Finset Nat) (b : Balances) : Nat := ∑ a ∈ S, b a

theorem total_update (S : Finset Nat) (b : Balances) (a v : Nat) (ha : a ∈ S) :
    total S (fun y => if y = a then v else b y) + b a = total S b + v := by
  unfold total
  rw [← Finset.add_sum_erase S b ha, ← Finset.add_sum_erase S _ ha]
  have : ∑ x ∈ S.erase a, (if x = a then v else b x) = ∑ x ∈ S.erase a, b x := by
    apply Finset.sum_congr rfl
    intro x hx
    rw [if_neg (Finset.ne_of_mem_erase hx)]
  rw [this]; simp; omega

theorem le_total (S : Finset Nat) (b : Balances) (a : Nat) (ha : a ∈ S) : b a ≤ total S b :=
  Finset.single_le_sum (f := b) (fun _ _ => Nat.zero_le _) ha

theorem incr_self (b : Balances) (a x : Nat) (h : b a + x < u256) :
    incrBalance b a x a = b a + x := by simp [incrBalance, h]

theorem incr_other (b : Balances) (a x c : Nat) (h : c ≠ a) : incrBalance b a x c = b c := by
  simp [incrBalance, h]

theorem total_incr (S : Finset Nat) (b : Balances) (a x : Nat) (ha : a ∈ S)
    (h : total S b + x < u256) : total S (incrBalance b a x) = total S b + x := by
  have h1 := le_total S b a ha
  have h2 := total_update S b a (b a + x) ha
  have : incrBalance b a x = fun y => if y = a then b a + x else b y := by
    funext y; unfold incrBalance
    have : b a + x < u256 := by omega
    simp [this]
  rw [this]; omega

theorem effectivePrice_ge (t : Tx) (hfee : t.basefee ≤ t.gasPrice) (hb : t.basefee < u128) :
    t.basefee ≤ t.effectivePrice := by
  unfold Tx.effectivePrice
  split
  · exact hfee
  · omega

/-- The side conditions every executed user transaction meets: 64-bit gas, usage within the limit, a
price at least the base fee (else the transaction is invalid before execution) and a worst-case
charge that fits in 128 bits. -/
structure Tx.Ok (t : Tx) : Prop where
  limit64 : t.gasLimit < 2 ^ 64
  spent : t.gasSpent ≤ t.gasLimit
  price : t.basefee ≤ t.gasPrice
  fits : t.gasPrice * t.gasLimit < u128
  basefee : t.basefee < u128
  user : t.caller ≠ t.systemAddr

theorem effectivePrice_le (t : Tx) : t.effectivePrice ≤ t.gasPrice := by
  unfold Tx.effectivePrice; split
  · exact Nat.le_refl _
  · exact Nat.min_le_left _ _

/-- C23 (a): what the sender is charged up front is exactly the sum of refund, penalty, tip and base
fee. -/
theorem fee_split (t : Tx) (h : t.Ok) :
    t.effectivePrice * t.gasLimit =
      t.effectivePrice * (t.gasLimit - t.gasUsed - calculateGasPenalty t.gasLimit t.gasSpent) +
      t.effectivePrice * calculateGasPenalty t.gasLimit t.gasSpent +
      (t.effectivePrice - t.basefee) * t.gasUsed + t.basefee * t.gasUsed := by
  have hp := penalty_le_unused t.gasLimit t.gasSpent h.limit64 (by have := h.spent; have := h.limit64; omega)
  have hs := h.spent
  have hge := effectivePrice_ge t h.price h.basefee
  have hu : t.gasUsed ≤ t.gasSpent := Nat.sub_le _ _
  generalize calculateGasPenalty t.gasLimit t.gasSpent = p at *
  generalize t.effectivePrice = e at *
  generalize t.gasUsed = u at *
  obtain ⟨k, hk⟩ := Nat.exists_eq_add_of_le hge
  obtain ⟨m, hm⟩ := Nat.exists_eq_add_of_le (show u + p ≤ t.gasLimit by omega)
  rw [hm, hk]
  have e1 : u + p + m - u - p = m := by omega
  have e2 : t.basefee + k - t.basefee = k := by omega
  rw [e1, e2]; ring

/-- C23 (b): conservation. Settling the fees of a transaction leaves the sum over any set of
accounts containing sender, beneficiary and base fee account unchanged, whether or not these
accounts coincide. -/
theorem settle_conserves (S : Finset Nat) (b b' : Balances) (t : Tx) (h : t.Ok)
    (hc : t.caller ∈ S) (hben : t.beneficiary ∈ S) (hbf : t.basefeeAddr ∈ S)
    (hsup : total S b < u256) (hok : settle b t = some b') :
    total S b' = total S b := by
  unfold settle at hok
  cases hch : chargeUpfront b t with
  | none => rw [hch] at hok; simp at hok
  | some b1 =>
    rw [hch] at hok
    simp only [Option.map_some, Option.some.injEq] at hok
    have hsplit := fee_split t h
    have hsys := h.user
    have hfit : t.effectivePrice * t.gasLimit < u128 :=
      Nat.lt_of_le_of_lt (Nat.mul_le_mul_right _ (effectivePrice_le t)) h.fits
    have hsat : ∀ x, x ≤ t.effectivePrice * t.gasLimit → min x (u128 - 1) = x := by
      intro x hx; omega
    -- upfront
    unfold chargeUpfront at hch
    have hcost : satMul128 t.effectivePrice t.gasLimit = t.effectivePrice * t.gasLimit :=
      hsat _ (Nat.le_refl _)
    by_cases hfunds : b t.caller < satMul128 t.effectivePrice t.gasLimit
    · simp [hfunds] at hch
    · simp only [if_neg hfunds, Option.some.injEq] at hch
      rw [hcost] at hfunds hch
      have htot1 : total S b1 + t.effectivePrice * t.gasLimit = total S b := by
        rw [← hch]
        have := total_update S b t.caller (b t.caller - t.effectivePrice * t.gasLimit) hc
        have := le_total S b t.caller hc
        omega
      -- reimburse and reward
      unfold rewardBeneficiary reimburseCaller at hok
      rw [if_neg hsys, if_neg hsys] at hok
      simp only [satMul128] at hok
      set p := calculateGasPenalty t.gasLimit t.gasSpent
      set r := t.gasLimit - t.gasUsed - p
      rw [hsat (t.effectivePrice * r) (by omega), hsat (t.effectivePrice * p) (by omega),
        hsat ((t.effectivePrice - t.basefee) * t.gasUsed) (by omega),
        hsat (t.basefee * t.gasUsed) (by omega)] at hok
      -- step 1
      obtain ⟨b2, hb2, ht2⟩ : ∃ b2, (if 0 < r then incrBalance b1 t.caller (t.effectivePrice * r)
          else b1) = b2 ∧ total S b2 = total S b1 + t.effectivePrice * r := by
        refine ⟨_, rfl, ?_⟩
        split
        · exact total_incr S b1 t.caller _ hc (by omega)
        · rename_i h0
          have : r = 0 := by omega
          rw [this]; simp
      rw [hb2] at hok
      obtain ⟨b3, hb3, ht3⟩ : ∃ b3, (if 0 < p then incrBalance b2 t.basefeeAddr
          (t.effectivePrice * p) else b2) = b3 ∧ total S b3 = total S b2 + t.effectivePrice * p := by
        refine ⟨_, rfl, ?_⟩
        split
        · exact total_incr S b2 t.basefeeAddr _ hbf (by omega)
        · rename_i h0
          have : p = 0 := by omega
          rw [this]; simp
      rw [hb3] at hok
      have ht4 := total_incr S b3 t.beneficiary ((t.effectivePrice - t.basefee) * t.gasUsed) hben
        (by omega)
      have ht5 := total_incr S _ t.basefeeAddr (t.basefee * t.gasUsed) hbf
        (show total S (incrBalance b3 t.beneficiary ((t.effectivePrice - t.basefee) * t.gasUsed)) +
          t.basefee * t.gasUsed < u256 by omega)
      rw [hok] at ht5
      omega

/-- C23 (c): what each party ends up with when the three accounts differ. -/
theorem settle_amounts (b b' : Balances) (t : Tx) (h : t.Ok)
    (h1 : t.caller ≠ t.beneficiary) (h2 : t.caller ≠ t.basefeeAddr)
    (h3 : t.beneficiary ≠ t.basefeeAddr)
    (hsup : b t.caller + b t.beneficiary + b t.basefeeAddr < u256)
    (hok : settle b t = some b') :
    b' t.caller + t.effectivePrice * (t.gasUsed + calculateGasPenalty t.gasLimit t.gasSpent)
      = b t.caller ∧
    b' t.beneficiary = b t.beneficiary + (t.effectivePrice - t.basefee) * t.gasUsed ∧
    b' t.basefeeAddr = b t.basefeeAddr + t.basefee * t.gasUsed +
      t.effectivePrice * calculateGasPenalty t.gasLimit t.gasSpent ∧
    ∀ a, a ≠ t.caller → a ≠ t.beneficiary → a ≠ t.basefeeAddr → b' a = b a := by
  unfold settle at hok
  cases hch : chargeUpfront b t with
  | none => rw [hch] at hok; simp at hok
  | some b1 =>
    rw [hch] at hok
    simp only [Option.map_some, Option.some.injEq] at hok
    have hsplit := fee_split t h
    have hsys := h.user
    have hp := penalty_le_unused t.gasLimit t.gasSpent h.limit64
      (by have := h.spent; have := h.limit64; omega)
    have hs := h.spent
    have hu : t.gasUsed ≤ t.gasSpent := Nat.sub_le _ _
    have hfit : t.effectivePrice * t.gasLimit < u128 :=
      Nat.lt_of_le_of_lt (Nat.mul_le_mul_right _ (effectivePrice_le t)) h.fits
    have hsat : ∀ x, x ≤ t.effectivePrice * t.gasLimit → min x (u128 - 1) = x := by
      intro x hx; omega
    unfold chargeUpfront at hch
    have hcost : satMul128 t.effectivePrice t.gasLimit = t.effectivePrice * t.gasLimit :=
      hsat _ (Nat.le_refl _)
    by_cases hfunds : b t.caller < satMul128 t.effectivePrice t.gasLimit
    · simp [hfunds] at hch
    · simp only [if_neg hfunds, Option.some.injEq] at hch
      rw [hcost] at hfunds hch
      unfold rewardBeneficiary reimburseCaller at hok
      rw [if_neg hsys, if_neg hsys] at hok
      simp only [satMul128] at hok
      set p := calculateGasPenalty t.gasLimit t.gasSpent
      set r := t.gasLimit - t.gasUsed - p with hr
      rw [hsat (t.effectivePrice * r) (by omega), hsat (t.effectivePrice * p) (by omega),
        hsat ((t.effectivePrice - t.basefee) * t.gasUsed) (by omega),
        hsat (t.basefee * t.gasUsed) (by omega)] at hok
      have hb1 : b1 t.caller + t.effectivePrice * t.gasLimit = b t.caller := by
        rw [← hch]; simp; omega
      have hb1' : ∀ a, a ≠ t.caller → b1 a = b a := by intro a ha; rw [← hch]; simp [ha]
      have e1 := hb1' _ (Ne.symm h1)
      have e2 := hb1' _ (Ne.symm h2)
      have hlim : t.effectivePrice * t.gasLimit =
          t.effectivePrice * r + t.effectivePrice * (t.gasUsed + p) := by
        rw [← Nat.mul_add]; congr 1; omega
      have hadd : t.effectivePrice * (t.gasUsed + p) =
          t.effectivePrice * t.gasUsed + t.effectivePrice * p := Nat.mul_add _ _ _
      have hr0 : ¬ 0 < r → t.effectivePrice * r = 0 := by
        intro h0; have : r = 0 := by omega
        rw [this]; simp
      have hp0 : ¬ 0 < p → t.effectivePrice * p = 0 := by
        intro h0; have : p = 0 := by omega
        rw [this]; simp
      obtain ⟨b2, hb2, c1, c2, c3⟩ : ∃ b2, (if 0 < r then incrBalance b1 t.caller
          (t.effectivePrice * r) else b1) = b2 ∧
          b2 t.caller = b1 t.caller + t.effectivePrice * r ∧ b2 t.basefeeAddr = b1 t.basefeeAddr ∧
          (∀ a, a ≠ t.caller → b2 a = b1 a) := by
        refine ⟨_, rfl, ?_⟩
        split
        · refine ⟨?_, ?_, ?_⟩
          · exact incr_self _ _ _ (by omega)
          · exact incr_other _ _ _ _ (Ne.symm h2)
          · intro a ha; exact incr_other _ _ _ _ ha
        · rename_i h0; exact ⟨by rw [hr0 h0]; rfl, rfl, fun _ _ => rfl⟩
      rw [hb2] at hok
      obtain ⟨b3, hb3, d1, d3⟩ : ∃ b3, (if 0 < p then incrBalance b2 t.basefeeAddr
          (t.effectivePrice * p) else b2) = b3 ∧
          b3 t.basefeeAddr = b2 t.basefeeAddr + t.effectivePrice * p ∧
          (∀ a, a ≠ t.basefeeAddr → b3 a = b2 a) := by
        refine ⟨_, rfl, ?_⟩
        split
        · refine ⟨?_, ?_⟩
          · exact incr_self _ _ _ (by omega)
          · intro a ha; exact incr_other _ _ _ _ ha
        · rename_i h0; exact ⟨by rw [hp0 h0]; rfl, fun _ _ => rfl⟩
      rw [hb3] at hok
      have f1 : b' t.caller = b3 t.caller := by
        rw [← hok, incr_other _ _ _ _ h2, incr_other _ _ _ _ h1]
      have g1 := d3 _ h2
      have g2 := d3 _ h3
      have g3 := c3 _ (Ne.symm h1)
      refine ⟨by omega, ?_, ?_, ?_⟩
      · rw [← hok, incr_other _ _ _ _ h3, incr_self _ _ _ (by omega)]; omega
      · have e3 := incr_other b3 t.beneficiary ((t.effectivePrice - t.basefee) * t.gasUsed)
          t.basefeeAddr (Ne.symm h3)
        rw [← hok, incr_self _ _ _ (by omega), e3]; omega
      · intro a ha1 ha2 ha3
        rw [← hok, incr_other _ _ _ _ ha3, incr_other _ _ _ _ ha2, d3 a ha3, c3 a ha1, hb1' a ha1]

/-- C23 (d): the two hooks change nothing for the system account. -/
theorem system_exempt (b : Balances) (t : Tx) (h : t.caller = t.systemAddr) :
    rewardBeneficiary (reimburseCaller b t) t = b := by
  simp [rewardBeneficiary, reimburseCaller, h]

/-- The hypotheses are satisfiable by a penalised EIP-1559 transaction. -/
def exampleTx : Tx :=
  { caller := 1, gasLimit := 420000, gasPrice := 100, priority := some 3, basefee := 7
    beneficiary := 2, basefeeAddr := 3, systemAddr := 0, gasSpent := 21000, refunded := 1000 }

example : exampleTx.Ok := by constructor <;> simp [exampleTx, u128]
example : exampleTx.effectivePrice = 10 ∧
    (settle (fun a => if a = 1 then 10000000 else 0) exampleTx).map (fun b => (b 1, b 2, b 3)) =
      some (8802500, 60000, 1137500) := by decide

end Verif.Gas
