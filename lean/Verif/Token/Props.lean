import Verif.Token.Model

/- C26: the native token precompile. -/
namespace Verif
namespace Token
open Codec (Byte Bytes beBytes beBytes_length beBytes_inj)

/-! ### Specification: what the logs say -/

/-- Coins issued according to the `Transfer` events (from the zero address). -/
def issued : List (Nat × Log) → Nat
  | [] => 0
  | (_, .transfer src _ a) :: l => (if src = 0 then a else 0) + issued l
  | _ :: l => issued l

/-- Coins destroyed according to the `Transfer` events (from the precompile). -/
def destroyed : List (Nat × Log) → Nat
  | [] => 0
  | (_, .transfer src _ a) :: l => (if src = pre then a else 0) + destroyed l
  | _ :: l => destroyed l

/-- The last proposed mint that was neither claimed nor replaced: amount and unlock time. -/
def pendingOf : List (Nat × Log) → Option (Nat × Nat) → Option (Nat × Nat)
  | [], p => p
  | (_, .mint _ a u) :: l, _ => pendingOf l (some (a, u))
  | (_, .claim _ _) :: l, _ => pendingOf l none
  | _ :: l, p => pendingOf l p

/-- The answer of `totalSupply()`. -/
def St.supply (s : St) : Nat := s.store supplySlot

theorem issued_append (a b : List (Nat × Log)) : issued (a ++ b) = issued a + issued b := by
  induction a with
  | nil => simp [issued]
  | cons x l ih =>
    obtain ⟨t, x⟩ := x
    cases x <;> simp only [List.cons_append, issued, ih] <;> omega

theorem destroyed_append (a b : List (Nat × Log)) : destroyed (a ++ b) = destroyed a + destroyed b := by
  induction a with
  | nil => simp [destroyed]
  | cons x l ih =>
    obtain ⟨t, x⟩ := x
    cases x <;> simp only [List.cons_append, destroyed, ih] <;> omega

theorem pendingOf_append (a b : List (Nat × Log)) (p : Option (Nat × Nat)) :
    pendingOf (a ++ b) p = pendingOf b (pendingOf a p) := by
  induction a generalizing p with
  | nil => rfl
  | cons x l ih =>
    obtain ⟨t, x⟩ := x
    cases x <;> simp only [List.cons_append, pendingOf, ih]

/-! ### Slots -/

theorem slotBuf_inj {i j a b : Nat} (hi : i < 256) (hj : j < 256) (ha : a < 2 ^ 160) (hb : b < 2 ^ 160)
    (h : slotBuf i a = slotBuf j b) : i = j ∧ a = b := by
  unfold slotBuf at h
  have h1 := (List.append_inj h rfl).2
  obtain ⟨h2, h3⟩ := List.append_inj h1 (by rw [beBytes_length, beBytes_length])
  refine ⟨beBytes_inj (k := 32) ?_ ?_ h3, beBytes_inj (k := 20) ?_ ?_ h2⟩
  · exact Nat.lt_of_lt_of_le hi (by decide)
  · exact Nat.lt_of_lt_of_le hj (by decide)
  · exact Nat.lt_of_lt_of_le ha (by decide)
  · exact Nat.lt_of_lt_of_le hb (by decide)

variable {B : Build}

theorem Build.SlotsOk.ne (h : B.SlotsOk) {i j a b : Nat} (hi : i ∈ [0, 1, 3]) (hj : j ∈ [0, 1, 3]) (ha : a < 2 ^ 160)
    (hb : b < 2 ^ 160) (hn : i ≠ j ∨ a ≠ b) : B.keccak (slotBuf i a) ≠ B.keccak (slotBuf j b) := by
  intro he
  have hl : ∀ {x}, x ∈ [0, 1, 3] → x < 256 := by
    intro x hx
    simp only [List.mem_cons, List.not_mem_nil, or_false] at hx
    omega
  obtain ⟨h1, h2⟩ := slotBuf_inj (hl hi) (hl hj) ha hb (h.inj i j a b hi hj ha hb he)
  rcases hn with hn | hn
  · exact hn h1
  · exact hn h2

theorem Build.SlotsOk.sup0 (h : B.SlotsOk) {a : Nat} (ha : a < 2 ^ 160) : B.amountSlot a ≠ supplySlot :=
  h.supply 0 a (by decide) ha
theorem Build.SlotsOk.sup1 (h : B.SlotsOk) {a : Nat} (ha : a < 2 ^ 160) : B.timestampSlot a ≠ supplySlot :=
  h.supply 1 a (by decide) ha
theorem Build.SlotsOk.sup3 (h : B.SlotsOk) {a : Nat} (ha : a < 2 ^ 160) : B.roleSlot a ≠ supplySlot :=
  h.supply 3 a (by decide) ha

theorem beNat_foldl_lt (b : Bytes) (n : Nat) : b.foldl (fun n x => n * 256 + x.val) n < (n + 1) * 256 ^ b.length := by
  induction b generalizing n with
  | nil => simp
  | cons x l ih =>
    simp only [List.foldl_cons, List.length_cons]
    have h1 := ih (n * 256 + x.val)
    have hx := x.isLt
    have h2 : (n * 256 + x.val + 1) * 256 ^ l.length ≤ (n + 1) * 256 * 256 ^ l.length :=
      Nat.mul_le_mul_right _ (by omega)
    rw [Nat.pow_succ, Nat.mul_comm (256 ^ l.length) 256, ← Nat.mul_assoc]
    omega

theorem argAddr_lt (args : Bytes) : argAddr args < 2 ^ 160 := by
  unfold argAddr beNat
  have h := beNat_foldl_lt ((args.drop 12).take 20) 0
  have h2 : ((args.drop 12).take 20).length ≤ 20 := by rw [List.length_take]; omega
  have h3 : 256 ^ ((args.drop 12).take 20).length ≤ 256 ^ 20 := Nat.pow_le_pow_right (by decide) h2
  have h4 : (256 : Nat) ^ 20 = 2 ^ 160 := by decide
  omega

/-! ### The effect of a successful call -/

/-- A value transfer into the precompile's account. -/
def St.fund (s : St) (caller v : Nat) : St :=
  let s1 := s.setBalance caller (s.bal caller - v)
  s1.setBalance pre (s1.bal pre + v)

theorem St.fund_zero (s : St) (c : Nat) : s.fund c 0 = s := by
  unfold St.fund St.setBalance
  cases s with
  | mk bal store logs =>
    simp only [St.mk.injEq, and_true]
    funext x
    simp only [Nat.sub_zero, Nat.add_zero]
    by_cases h1 : x = pre
    · rw [if_pos h1, h1]
      by_cases h2 : pre = c
      · rw [if_pos h2, h2]
      · rw [if_neg h2]
    · rw [if_neg h1]
      by_cases h2 : x = c
      · rw [if_pos h2, h2]
      · rw [if_neg h2]

/-- Specification: everything a successful call can do, by who may do it. -/
inductive Effect (B : Build) (f : Frame) (s : St) : St → Prop
  | view : f.value = 0 → Effect B f s s
  | mint (a : Nat) : B.faucet = false → f.static = false → f.caller = gov → f.value = 0 →
      Effect B f s (((s.sstore (B.amountSlot gov) a).sstore (B.timestampSlot gov) (f.now + timelock)).log f.now
        (.mint gov a (f.now + timelock)))
  | claim (r : Nat) : f.static = false → f.caller = gov → f.value = 0 → r < 2 ^ 160 →
      s.store (B.amountSlot r) ≠ 0 → s.store (B.timestampSlot r) ≤ f.now →
      s.supply + s.store (B.amountSlot r) < wordMod →
      Effect B f s (((((B.balanceIncr s r (s.store (B.amountSlot r))).sstore (B.amountSlot r) 0).sstore
        (B.timestampSlot r) 0).sstore supplySlot (s.supply + s.store (B.amountSlot r))).log f.now
          (.claim r (s.store (B.amountSlot r))) |>.log f.now (.transfer 0 r (s.store (B.amountSlot r))))
  | burn (a : Nat) : f.static = false → f.caller = gov → f.value ≤ s.bal gov ∨ f.value = 0 →
      a ≤ (s.fund gov f.value).bal pre → a ≤ s.supply →
      Effect B f s (((((s.fund gov f.value).setBalance pre ((s.fund gov f.value).bal pre - a)).sstore supplySlot
        (s.supply - a)).log f.now (.burn a)).log f.now (.transfer pre 0 a))
  | faucetMint (r a : Nat) : B.faucet = true → f.static = false → f.value = 0 → r < 2 ^ 160 → a ≠ 0 →
      (f.caller = gov ∨ s.store (B.roleSlot f.caller) ≠ 0) → s.supply + a < wordMod →
      Effect B f s ((((B.balanceIncr s r a).sstore supplySlot (s.supply + a)).log f.now (.mint r a 0)).log f.now
        (.transfer 0 r a))
  | setRole (r v : Nat) : B.faucet = true → f.static = false → f.caller = gov → f.value = 0 → r < 2 ^ 160 →
      Effect B f s (s.sstore (B.roleSlot r) v)

theorem hasGov {c : Nat} : ¬ hasGovernanceRole c = false ↔ c = gov := by
  unfold hasGovernanceRole
  simp

theorem setBalance_self (s : St) (a : Nat) : s.setBalance a (s.bal a) = s := by
  cases s with
  | mk bal store logs =>
    simp only [St.setBalance, St.mk.injEq, and_true]
    funext x
    split
    · rename_i h; rw [h]
    · rfl

theorem enter_eq {f : Frame} {s s1 : St} (hw : f.WF) (h : f.enter s = some s1) (hp : f.value = 0 ∨ f.target = pre) :
    s1 = s.fund f.caller f.value ∧ (f.value ≤ s.bal f.caller ∨ f.value = 0) := by
  unfold Frame.enter at h
  by_cases ht : f.transfer = true
  · rw [if_pos ht] at h
    by_cases hb : s.bal f.caller < f.value
    · rw [if_pos hb] at h; cases h
    · rw [if_neg hb] at h
      simp only [Option.some.injEq] at h
      exact ⟨h.symm, Or.inl (by omega)⟩
  · rw [if_neg ht] at h
    simp only [Option.some.injEq] at h
    have h0 : f.value = 0 := by
      rcases hp with hp | hp
      · exact hp
      · exact absurd (hw.target.mpr hp) ht
    rw [h0, St.fund_zero]
    exact ⟨h.symm, Or.inr rfl⟩

theorem sel_ne : selClaim ≠ selBurn ∧ selTotalSupply ≠ selBurn ∧ selMint ≠ selBurn ∧ selGrant ≠ selBurn ∧
    selRevoke ≠ selBurn ∧ selHasRole ≠ selBurn ∧ selMintFaucet ≠ selBurn := by decide

theorem argWord_lt (args : Bytes) : argWord args < wordMod := by
  unfold argWord beNat
  have h := beNat_foldl_lt (args.take 32) 0
  have h2 : (args.take 32).length ≤ 32 := by rw [List.length_take]; omega
  have h3 : 256 ^ (args.take 32).length ≤ 256 ^ 32 := Nat.pow_le_pow_right (by decide) h2
  have h4 : (256 : Nat) ^ 32 = 2 ^ 256 := by decide
  unfold wordMod
  omega

theorem handleMint_effect {f : Frame} {s s' : St} {args out : Bytes} (hw : f.WF) (hs : f.static = false)
    (hv : f.value = 0) (hf : B.faucet = false) (h : B.handleMint s f.now args f.caller f.gas = .ok (s', out)) :
    Effect B f s s' := by
  unfold Build.handleMint at h
  split at h
  · cases h
  split at h
  · cases h
  rename_i hr
  split at h
  · cases h
  simp only [Except.ok.injEq, Prod.mk.injEq] at h
  have hm : (f.now + timelock) % wordMod = f.now + timelock := by
    apply Nat.mod_eq_of_lt
    have := hw.now
    unfold timelock wordMod
    omega
  rw [hm] at h
  rw [← h.1]
  apply Effect.mint _ hf hs _ hv
  simp only [Build.hasMintRole, hf, Bool.false_and, Bool.or_false] at hr
  exact hasGov.mp hr

theorem addSupply_some {s s' : St} {a : Nat} (h : Build.addSupply s a = some s') :
    s.supply + a < wordMod ∧ s' = s.sstore supplySlot (s.supply + a) := by
  unfold Build.addSupply at h
  split at h
  · rename_i hl
    exact ⟨hl, (Option.some.inj h).symm⟩
  · cases h

theorem supply_sstore {s : St} {k v : Nat} (h : k ≠ supplySlot) : (s.sstore k v).supply = s.supply := by
  unfold St.supply St.sstore
  exact if_neg (fun he => h he.symm)

theorem handleClaim_effect (hB : B.SlotsOk) {f : Frame} {s s' : St} {args out : Bytes} (hs : f.static = false)
    (hv : f.value = 0) (h : B.handleClaim s f.now args f.caller f.gas = .ok (s', out)) : Effect B f s s' := by
  unfold Build.handleClaim at h
  split at h
  · cases h
  split at h
  · cases h
  rename_i hr
  split at h
  · cases h
  simp only at h
  split at h
  · cases h
  rename_i ha
  split at h
  · cases h
  rename_i hl
  split at h
  · cases h
  rename_i s2 h2
  obtain ⟨h3, h4⟩ := addSupply_some h2
  have hlt := argAddr_lt args
  rw [supply_sstore (hB.sup1 hlt), supply_sstore (hB.sup0 hlt)] at h3 h4
  simp only [Except.ok.injEq, Prod.mk.injEq] at h
  rw [← h.1, h4]
  exact Effect.claim _ hs (hasGov.mp hr) hv hlt ha (by omega) h3

theorem handleBurn_effect {f : Frame} {s s1 s' : St} {args out : Bytes} (hs : f.static = false)
    (h1 : s1 = s.fund f.caller f.value) (hv : f.value ≤ s.bal f.caller ∨ f.value = 0)
    (h : handleBurn s1 f.now args f.caller f.gas = .ok (s', out)) : Effect B f s s' := by
  unfold handleBurn at h
  split at h
  · cases h
  split at h
  · cases h
  rename_i hr
  have hc := hasGov.mp hr
  rw [hc] at h1 hv
  split at h
  · cases h
  split at h
  · cases h
  rename_i s2 h2
  have h3 : argWord args ≤ s1.bal pre ∧ s2 = s1.setBalance pre (s1.bal pre - argWord args) := by
    unfold balanceDecr at h2
    split at h2
    · rename_i h0
      rw [h0, Nat.sub_zero, setBalance_self]
      exact ⟨Nat.zero_le _, (Option.some.inj h2).symm⟩
    · split at h2
      · cases h2
      · exact ⟨by omega, (Option.some.inj h2).symm⟩
  obtain ⟨h3, h4⟩ := h3
  split at h
  · cases h
  rename_i hu
  simp only [Except.ok.injEq, Prod.mk.injEq] at h
  have h5 : s2.store supplySlot = s.supply := by rw [h4, h1]; rfl
  rw [h5] at hu h
  rw [← h.1, h4, h1]
  rw [h1] at h3
  exact Effect.burn _ hs hc hv h3 (by omega)

theorem handleFaucet_effect {f : Frame} {s s' : St} {args out : Bytes} (hs : f.static = false) (hv : f.value = 0)
    (hf : B.faucet = true) (h : B.handleMintFaucet s f.now args f.caller f.gas = .ok (s', out)) : Effect B f s s' := by
  unfold Build.handleMintFaucet at h
  split at h
  · cases h
  split at h
  · cases h
  rename_i hr
  split at h
  · cases h
  simp only at h
  split at h
  · cases h
  rename_i ha
  split at h
  · cases h
  rename_i s2 h2
  obtain ⟨h3, h4⟩ := addSupply_some h2
  simp only [Except.ok.injEq, Prod.mk.injEq] at h
  rw [← h.1, h4]
  refine Effect.faucetMint _ _ hf hs hv (argAddr_lt _) ha ?_ h3
  simp only [Build.hasMintRole, hf, Bool.true_and, Bool.not_eq_false, Bool.or_eq_true, bne_iff_ne] at hr
  rcases hr with hr | hr
  · exact Or.inl (hasGov.mp (by rw [hr]; decide))
  · exact Or.inr hr

theorem handleSetRole_effect {f : Frame} {v : Nat} {s s' : St} {args out : Bytes} (hs : f.static = false)
    (hv : f.value = 0) (hf : B.faucet = true) (h : B.handleSetRole v s args f.caller f.gas = .ok (s', out)) :
    Effect B f s s' := by
  unfold Build.handleSetRole at h
  split at h
  · cases h
  split at h
  · cases h
  rename_i hr
  split at h
  · cases h
  simp only [Except.ok.injEq, Prod.mk.injEq] at h
  rw [← h.1]
  exact Effect.setRole _ _ hf hs (hasGov.mp hr) hv (argAddr_lt _)

/-- **C26** (1) What a successful call does, and on whose behalf: nothing, or one of the listed effects by the
governance account (faucet builds: a mint also by a holder of the mint role), never in a static frame. -/
theorem run_effect (hB : B.SlotsOk) {f : Frame} {s s' : St} {out : Bytes} (hw : f.WF)
    (h : B.run f s = .ok (s', out)) : Effect B f s s' := by
  unfold Build.run at h
  split at h
  · cases h
  rename_i s1 he
  unfold Build.precompile at h
  split at h
  · cases h
  split at h
  · cases h
  rename_i hst
  split at h
  · cases h
  rename_i hpay
  simp only [Bool.not_eq_false, Bool.or_eq_true, Bool.not_eq_true', decide_eq_true_eq] at hst hpay
  have hpv : ∀ {x : Bytes}, f.data.take 4 = x → x ≠ selBurn → f.value = 0 := by
    intro x hx hn
    rcases hpay with hp | hp
    · simp only [payable, Bool.and_eq_true, decide_eq_true_eq] at hp
      exact absurd (hx.symm.trans hp.1) hn
    · exact hp
  have hzero : f.value = 0 → s1 = s := by
    intro h0
    have := (enter_eq hw he (Or.inl h0)).1
    rw [this, h0, St.fund_zero]
  have hro : ∀ {x : Bytes}, f.data.take 4 = x → x ≠ selTotalSupply → x ≠ selHasRole → f.static = false := by
    intro x hx h1 h2
    rcases hst with hst | hst
    · simp only [Build.readOnly, Bool.or_eq_true, Bool.and_eq_true, decide_eq_true_eq] at hst
      rcases hst with hst | ⟨_, hst⟩
      · exact absurd (hx.symm.trans hst) h1
      · exact absurd (hx.symm.trans hst) h2
    · exact hst
  unfold Build.handle at h
  split at h
  · rename_i hc
    have hv := hpv hc.2 (by decide)
    rw [hzero hv] at h
    exact handleMint_effect hw (hro hc.2 (by decide) (by decide)) hv hc.1 h
  split at h
  · rename_i hc
    have hv := hpv hc (by decide)
    rw [hzero hv] at h
    exact handleClaim_effect hB (hro hc (by decide) (by decide)) hv h
  split at h
  · rename_i hc
    have hp : f.value = 0 ∨ f.target = pre := by
      rcases hpay with hp | hp
      · simp only [payable, Bool.and_eq_true, decide_eq_true_eq] at hp
        exact Or.inr hp.2
      · exact Or.inl hp
    obtain ⟨h1, h2⟩ := enter_eq hw he hp
    exact handleBurn_effect (hro hc (by decide) (by decide)) h1 h2 h
  split at h
  · rename_i hc
    have hv := hpv hc (by decide)
    rw [hzero hv] at h
    unfold handleTotalSupply at h
    split at h
    · cases h
    · simp only [Except.ok.injEq, Prod.mk.injEq] at h
      rw [← h.1]
      exact .view hv
  split at h
  · rename_i hc
    have hv := hpv hc.2 (by decide)
    rw [hzero hv] at h
    exact handleSetRole_effect (hro hc.2 (by decide) (by decide)) hv hc.1 h
  split at h
  · rename_i hc
    have hv := hpv hc.2 (by decide)
    rw [hzero hv] at h
    exact handleSetRole_effect (hro hc.2 (by decide) (by decide)) hv hc.1 h
  split at h
  · rename_i hc
    have hv := hpv hc.2 (by decide)
    rw [hzero hv] at h
    unfold Build.handleHasRole at h
    split at h
    · cases h
    split at h
    · cases h
    simp only [Except.ok.injEq, Prod.mk.injEq] at h
    rw [← h.1]
    exact .view hv
  split at h
  · rename_i hc
    have hv := hpv hc.2 (by decide)
    rw [hzero hv] at h
    exact handleFaucet_effect (hro hc.2 (by decide) (by decide)) hv hc.1 h
  · cases h

/-- **C26** (2) Without the faucet feature a call that changes anything was made by the governance account, outside a
static frame. -/
theorem governance_only (hB : B.SlotsOk) (hf : B.faucet = false) {f : Frame} (hw : f.WF) {s : St}
    (h : B.exec f s ≠ s) : f.caller = gov ∧ f.static = false := by
  unfold Build.exec at h
  split at h
  · rename_i s' out hr
    cases run_effect hB hw hr with
    | view => exact absurd rfl h
    | mint a _ hs hc _ => exact ⟨hc, hs⟩
    | claim r hs hc => exact ⟨hc, hs⟩
    | burn a hs hc => exact ⟨hc, hs⟩
    | faucetMint r a hf' => rw [hf] at hf'; cases hf'
    | setRole r v hf' => rw [hf] at hf'; cases hf'
  · exact absurd rfl h

/-- With it: governance, or a mint by a holder of the role. -/
theorem governance_or_role (hB : B.SlotsOk) {f : Frame} (hw : f.WF) {s : St} (h : B.exec f s ≠ s) :
    f.static = false ∧ (f.caller = gov ∨ (B.faucet = true ∧ s.store (B.roleSlot f.caller) ≠ 0)) := by
  unfold Build.exec at h
  split at h
  · rename_i s' out hr
    cases run_effect hB hw hr with
    | view => exact absurd rfl h
    | mint a _ hs hc _ => exact ⟨hs, .inl hc⟩
    | claim r hs hc => exact ⟨hs, .inl hc⟩
    | burn a hs hc => exact ⟨hs, .inl hc⟩
    | faucetMint r a hf' hs _ _ _ hc => exact ⟨hs, hc.imp id (fun x => ⟨hf', x⟩)⟩
    | setRole r v _ hs hc => exact ⟨hs, .inl hc⟩
  · exact absurd rfl h

/-- **C26** (3) Value sticks only to a successful burn: any other call with value leaves the state as it was. -/
theorem value_only_burn (hB : B.SlotsOk) {f : Frame} (hw : f.WF) {s : St} (hv : f.value ≠ 0) :
    B.exec f s = s ∨ ∃ a, (B.exec f s).logs = s.logs ++ [(f.now, .burn a), (f.now, .transfer pre 0 a)] := by
  unfold Build.exec
  split
  · rename_i s' out hr
    cases run_effect hB hw hr with
    | view h => exact absurd h hv
    | mint a _ _ _ h => exact absurd h hv
    | claim r _ _ h => exact absurd h hv
    | burn a => exact .inr ⟨a, by simp [St.log, St.sstore, St.setBalance, St.fund]⟩
    | faucetMint r a _ _ h => exact absurd h hv
    | setRole r v _ _ _ h => exact absurd h hv
  · exact .inl rfl

/-! ### Histories -/

/-- The actions are frames revm can produce. -/
def ActsOk (acts : List Act) : Prop := ∀ f, Act.call f ∈ acts → f.WF

theorem runAll_snoc (s : St) (acts : List Act) (a : Act) : B.runAll s (acts ++ [a]) = B.act (B.runAll s acts) a := by
  unfold Build.runAll
  rw [List.foldl_append]
  rfl

/-- A property kept by every effect and by every change of balances is kept by every history. -/
theorem runAll_induct (hB : B.SlotsOk) {P : St → Prop} {s0 : St} (h0 : P s0)
    (heff : ∀ f s s', P s → f.WF → Effect B f s s' → P s') (hbal : ∀ (s : St) bal, P s → P { s with bal := bal }) :
    ∀ acts, ActsOk acts → P (B.runAll s0 acts) := by
  intro acts
  unfold Build.runAll
  induction acts generalizing s0 with
  | nil => intro _; exact h0
  | cons a l ih =>
    intro ha
    rw [List.foldl_cons]
    apply ih _ (fun f hf => ha f (List.mem_cons_of_mem _ hf))
    cases a with
    | call f =>
      show P (B.exec f s0)
      unfold Build.exec
      split
      · rename_i s' out hr
        exact heff f s0 s' h0 (ha f List.mem_cons_self) (run_effect hB (ha f List.mem_cons_self) hr)
      · exact h0
    | other bal => exact hbal s0 bal h0

theorem supply_log (s : St) (t : Nat) (l : Log) : (s.log t l).supply = s.supply := rfl
theorem supply_set (s : St) (v : Nat) : (s.sstore supplySlot v).supply = v := by
  show (if supplySlot = supplySlot then v else s.store supplySlot) = v
  exact if_pos rfl

/-- **C26** (4) Over every history the total supply is the initial one plus what was issued minus what was destroyed,
as seen in the events. -/
theorem supply_accounted (hB : B.SlotsOk) (s0 : St) (acts : List Act) (ha : ActsOk acts) :
    ∃ new, (B.runAll s0 acts).logs = s0.logs ++ new ∧
      (B.runAll s0 acts).supply + destroyed new = s0.supply + issued new := by
  refine runAll_induct (B := B) hB (P := fun s => ∃ new, s.logs = s0.logs ++ new ∧
    s.supply + destroyed new = s0.supply + issued new) ⟨[], by simp, rfl⟩ ?_ ?_ acts ha
  · rintro f s s' ⟨new, hl, hs⟩ _ he
    cases he with
    | view => exact ⟨new, hl, hs⟩
    | mint a =>
      refine ⟨new ++ [(f.now, Log.mint gov a (f.now + timelock))], by simp [St.log, St.sstore, hl], ?_⟩
      rw [supply_log, supply_sstore (hB.sup1 (a := gov) (by decide)),
        supply_sstore (hB.sup0 (a := gov) (by decide)), issued_append, destroyed_append]
      simp only [issued, destroyed]
      omega
    | claim r =>
      refine ⟨new ++ [(f.now, .claim r (s.store (B.amountSlot r))), (f.now, .transfer 0 r (s.store (B.amountSlot r)))],
        by simp [St.log, St.sstore, Build.balanceIncr, St.setBalance, hl], ?_⟩
      rw [supply_log, supply_log, supply_set, issued_append, destroyed_append]
      simp only [issued, destroyed, if_true, show ¬ (0 = pre) by decide, if_false]
      omega
    | burn a _ _ _ _ hle =>
      refine ⟨new ++ [(f.now, .burn a), (f.now, .transfer pre 0 a)],
        by simp [St.log, St.sstore, St.fund, St.setBalance, hl], ?_⟩
      rw [supply_log, supply_log, supply_set, issued_append, destroyed_append]
      simp only [issued, destroyed, if_true, show ¬ (pre = 0) by decide, if_false]
      omega
    | faucetMint r a =>
      refine ⟨new ++ [(f.now, .mint r a 0), (f.now, .transfer 0 r a)],
        by simp [St.log, St.sstore, Build.balanceIncr, St.setBalance, hl], ?_⟩
      rw [supply_log, supply_log, supply_set, issued_append, destroyed_append]
      simp only [issued, destroyed, if_true, show ¬ (0 = pre) by decide, if_false]
      omega
    | setRole r v _ _ _ _ hr =>
      refine ⟨new, hl, ?_⟩
      rw [supply_sstore (hB.sup3 hr)]
      exact hs
  · rintro s bal ⟨new, hl, hs⟩
    exact ⟨new, hl, hs⟩

/-! ### The timelock -/

/-- The precompile's pending slots say what the events say. -/
structure PendingOk (B : Build) (s0 s : St) (new : List (Nat × Log)) : Prop where
  logs : s.logs = s0.logs ++ new
  other : ∀ r, r < 2 ^ 160 → r ≠ gov → s.store (B.amountSlot r) = 0
  some : ∀ a u, pendingOf new none = .some (a, u) → s.store (B.amountSlot gov) = a ∧ s.store (B.timestampSlot gov) = u
  none : pendingOf new none = .none → s.store (B.amountSlot gov) = 0

/-- No mint is pending for anyone, as in genesis. -/
def NonePending (B : Build) (s : St) : Prop := ∀ r, r < 2 ^ 160 → s.store (B.amountSlot r) = 0

/-- Specification: every claim in the list pays exactly what was last proposed, at least seven days after it was
proposed, to the governance account; `p` is what is pending before the list: amount and time of the proposal. -/
def ClaimsOk : List (Nat × Log) → Option (Nat × Nat) → Prop
  | [], _ => True
  | (t, .mint _ a _) :: l, _ => ClaimsOk l (some (a, t))
  | (t, .claim r a) :: l, p => (r = gov ∧ a ≠ 0 ∧ ∃ t0, p = some (a, t0) ∧ t0 + 604800 ≤ t) ∧ ClaimsOk l none
  | _ :: l, p => ClaimsOk l p

/-- What is pending after a list: amount and time of the proposal. -/
def proposedOf : List (Nat × Log) → Option (Nat × Nat) → Option (Nat × Nat)
  | [], p => p
  | (t, .mint _ a _) :: l, _ => proposedOf l (some (a, t))
  | (_, .claim _ _) :: l, _ => proposedOf l none
  | _ :: l, p => proposedOf l p

theorem ClaimsOk_append {a b : List (Nat × Log)} {p : Option (Nat × Nat)} (ha : ClaimsOk a p)
    (hb : ClaimsOk b (proposedOf a p)) : ClaimsOk (a ++ b) p := by
  induction a generalizing p with
  | nil => exact hb
  | cons x l ih =>
    obtain ⟨t, x⟩ := x
    cases x with
    | mint _ am _ => exact ih ha hb
    | claim r am => exact ⟨ha.1, ih ha.2 hb⟩
    | burn _ => exact ih ha hb
    | transfer _ _ _ => exact ih ha hb

theorem proposedOf_append (a b : List (Nat × Log)) (p : Option (Nat × Nat)) :
    proposedOf (a ++ b) p = proposedOf b (proposedOf a p) := by
  induction a generalizing p with
  | nil => rfl
  | cons x l ih =>
    obtain ⟨t, x⟩ := x
    cases x <;> simp only [List.cons_append, proposedOf, ih]

/-- The unlock time of a pending mint is seven days after it was proposed. -/
def UnlocksOk (new : List (Nat × Log)) : Prop :=
  pendingOf new none = (proposedOf new none).map (fun x => (x.1, x.2 + timelock))

theorem store_sstore_ne (s : St) {k v x : Nat} (h : x ≠ k) : (s.sstore k v).store x = s.store x := if_neg h
theorem store_sstore_eq (s : St) (k v : Nat) : (s.sstore k v).store k = v := if_pos rfl

theorem gov_lt : gov < 2 ^ 160 := by decide

/-- The events and the pending slots, over every history of a build without the faucet. -/
theorem history (hB : B.SlotsOk) (hf : B.faucet = false) {s0 : St} (h0 : NonePending B s0) (acts : List Act)
    (ha : ActsOk acts) : ∃ new, PendingOk B s0 (B.runAll s0 acts) new ∧ ClaimsOk new none ∧ UnlocksOk new := by
  refine runAll_induct (B := B) hB
    (P := fun s => ∃ new, PendingOk B s0 s new ∧ ClaimsOk new .none ∧ UnlocksOk new)
    ⟨[], ⟨by simp, fun r hr _ => h0 r hr, (by intro a u h; cases h), fun _ => h0 gov gov_lt⟩, trivial, rfl⟩ ?_ ?_ acts ha
  · rintro f s s' ⟨new, hp, hc, hu⟩ _ he
    have ne01 : ∀ {x y}, x < 2 ^ 160 → y < 2 ^ 160 → B.amountSlot x ≠ B.timestampSlot y := fun hx hy =>
      hB.ne (by decide) (by decide) hx hy (.inl (by decide))
    have ne00 : ∀ {x y}, x < 2 ^ 160 → y < 2 ^ 160 → x ≠ y → B.amountSlot x ≠ B.amountSlot y := fun hx hy h =>
      hB.ne (by decide) (by decide) hx hy (.inr h)
    have neS0 : ∀ {x}, x < 2 ^ 160 → B.amountSlot x ≠ supplySlot := fun hx => hB.supply 0 _ (by decide) hx
    have neS1 : ∀ {x}, x < 2 ^ 160 → B.timestampSlot x ≠ supplySlot := fun hx => hB.supply 1 _ (by decide) hx
    cases he with
    | view => exact ⟨new, hp, hc, hu⟩
    | mint a =>
      refine ⟨new ++ [(f.now, Log.mint gov a (f.now + timelock))], ⟨by simp [St.log, St.sstore, hp.logs], ?_, ?_, ?_⟩,
        ClaimsOk_append hc trivial, ?_⟩
      · intro r hr hn
        show ((s.sstore _ _).sstore _ _).store _ = 0
        rw [store_sstore_ne _ (ne01 hr gov_lt), store_sstore_ne _ (ne00 hr gov_lt hn)]
        exact hp.other r hr hn
      · intro a' u' h
        rw [pendingOf_append] at h
        simp only [pendingOf, Option.some.injEq, Prod.mk.injEq] at h
        show ((s.sstore _ _).sstore _ _).store _ = a' ∧ ((s.sstore _ _).sstore _ _).store _ = u'
        rw [store_sstore_ne _ (ne01 gov_lt gov_lt), store_sstore_eq, store_sstore_eq]
        exact h
      · intro h
        rw [pendingOf_append] at h
        cases h
      · unfold UnlocksOk
        rw [pendingOf_append, proposedOf_append]
        rfl
    | claim r _ _ _ hr ham ht hsup =>
      have hrg : r = gov := by
        apply Classical.byContradiction
        intro hn
        exact ham (hp.other r hr hn)
      subst hrg
      have hpend : ∃ t0, proposedOf new none = .some (s.store (B.amountSlot gov), t0) ∧ t0 + timelock ≤ f.now := by
        cases hq : proposedOf new none with
        | none =>
          have : pendingOf new none = .none := by rw [show pendingOf new none = _ from hu, hq]; rfl
          exact absurd (hp.none this) ham
        | some x =>
          have : pendingOf new none = .some (x.1, x.2 + timelock) := by
            rw [show pendingOf new none = _ from hu, hq]; rfl
          obtain ⟨h1, h2⟩ := hp.some _ _ this
          refine ⟨x.2, by rw [h1], by omega⟩
      obtain ⟨t0, h1, h2⟩ := hpend
      refine ⟨new ++ [(f.now, Log.claim gov (s.store (B.amountSlot gov))),
        (f.now, Log.transfer 0 gov (s.store (B.amountSlot gov)))],
        ⟨by simp [St.log, St.sstore, Build.balanceIncr, St.setBalance, hp.logs], ?_, ?_, ?_⟩,
        ClaimsOk_append hc ⟨⟨rfl, ham, t0, h1, h2⟩, trivial⟩, ?_⟩
      · intro r hr hn
        show ((((B.balanceIncr s _ _).sstore _ _).sstore _ _).sstore _ _).store _ = 0
        rw [store_sstore_ne _ (neS0 hr), store_sstore_ne _ (ne01 hr gov_lt), store_sstore_ne _ (ne00 hr gov_lt hn)]
        exact hp.other r hr hn
      · intro a' u' h
        rw [pendingOf_append] at h
        cases h
      · intro _
        show ((((B.balanceIncr s _ _).sstore _ _).sstore _ _).sstore _ _).store _ = 0
        rw [store_sstore_ne _ (neS0 gov_lt), store_sstore_ne _ (ne01 gov_lt gov_lt), store_sstore_eq]
      · unfold UnlocksOk
        rw [pendingOf_append, proposedOf_append]
        rfl
    | burn a =>
      refine ⟨new ++ [(f.now, Log.burn a), (f.now, Log.transfer pre 0 a)],
        ⟨by simp [St.log, St.sstore, St.fund, St.setBalance, hp.logs], ?_, ?_, ?_⟩, ClaimsOk_append hc trivial, ?_⟩
      · intro r hr hn
        show ((St.setBalance _ _ _).sstore _ _).store _ = 0
        rw [store_sstore_ne _ (neS0 hr)]
        exact hp.other r hr hn
      · intro a' u' h
        rw [pendingOf_append] at h
        show ((St.setBalance _ _ _).sstore _ _).store _ = a' ∧ ((St.setBalance _ _ _).sstore _ _).store _ = u'
        rw [store_sstore_ne _ (neS0 gov_lt), store_sstore_ne _ (neS1 gov_lt)]
        exact hp.some _ _ h
      · intro h
        rw [pendingOf_append] at h
        show ((St.setBalance _ _ _).sstore _ _).store _ = 0
        rw [store_sstore_ne _ (neS0 gov_lt)]
        exact hp.none h
      · unfold UnlocksOk
        rw [pendingOf_append, proposedOf_append]
        exact hu
    | faucetMint r a hf' => rw [hf] at hf'; cases hf'
    | setRole r v hf' => rw [hf] at hf'; cases hf'
  · rintro s bal ⟨new, hp, hc, hu⟩
    exact ⟨new, ⟨hp.logs, hp.other, hp.some, hp.none⟩, hc, hu⟩

/-- **C26** (5) The timelock: from a state where nothing is pending, every claim pays the governance account exactly
the amount last proposed, at least seven days after the proposal, and each proposal at most once. -/
theorem claims_timelocked (hB : B.SlotsOk) (hf : B.faucet = false) {s0 : St} (h0 : NonePending B s0) (acts : List Act)
    (ha : ActsOk acts) : ∃ new, (B.runAll s0 acts).logs = s0.logs ++ new ∧ ClaimsOk new none := by
  obtain ⟨new, h1, h2, _⟩ := history hB hf h0 acts ha
  exact ⟨new, h1.logs, h2⟩

/-- The same for one claim in a list, spelled out. -/
theorem claimsOk_find {l1 l2 : List (Nat × Log)} {t r a : Nat} {p : Option (Nat × Nat)}
    (h : ClaimsOk (l1 ++ (t, .claim r a) :: l2) p) : r = gov ∧ a ≠ 0 ∧ ∃ t0, proposedOf l1 p = some (a, t0) ∧
      t0 + 604800 ≤ t := by
  induction l1 generalizing p with
  | nil => exact h.1
  | cons x l ih =>
    obtain ⟨t', x⟩ := x
    cases x with
    | mint _ am _ => exact ih h
    | claim r' am => exact ih h.2
    | burn _ => exact ih h
    | transfer _ _ _ => exact ih h

/-- What `proposedOf` means: some mint of that amount at that time, and neither a mint nor a claim after it. -/
theorem proposedOf_some {l : List (Nat × Log)} {a t : Nat} (h : proposedOf l none = some (a, t)) :
    ∃ l1 r u l2, l = l1 ++ (t, .mint r a u) :: l2 ∧
      ∀ x ∈ l2, (∀ r a u, x.2 ≠ .mint r a u) ∧ (∀ r a, x.2 ≠ .claim r a) := by
  suffices H : ∀ (l : List (Nat × Log)) p, proposedOf l p = some (a, t) →
      ((p = some (a, t) ∧ ∀ x ∈ l, (∀ r a u, x.2 ≠ .mint r a u) ∧ (∀ r a, x.2 ≠ .claim r a)) ∨
      ∃ l1 r u l2, l = l1 ++ (t, .mint r a u) :: l2 ∧
        ∀ x ∈ l2, (∀ r a u, x.2 ≠ .mint r a u) ∧ (∀ r a, x.2 ≠ .claim r a)) by
    rcases H l none h with h1 | h1
    · cases h1.1
    · exact h1
  intro l
  induction l with
  | nil => intro p hp; exact .inl ⟨hp, by intro x hx; cases hx⟩
  | cons x l ih =>
    intro p hp
    obtain ⟨t', x⟩ := x
    cases x with
    | mint r am u =>
      rcases ih _ hp with ⟨h1, h2⟩ | ⟨l1, r', u', l2, h1, h2⟩
      · simp only [Option.some.injEq, Prod.mk.injEq] at h1
        obtain ⟨rfl, rfl⟩ := h1
        exact .inr ⟨[], r, u, l, rfl, h2⟩
      · exact .inr ⟨_ :: l1, r', u', l2, by rw [h1]; rfl, h2⟩
    | claim r am =>
      rcases ih _ hp with ⟨h1, h2⟩ | ⟨l1, r', u', l2, h1, h2⟩
      · cases h1
      · exact .inr ⟨_ :: l1, r', u', l2, by rw [h1]; rfl, h2⟩
    | burn am =>
      rcases ih _ hp with ⟨h1, h2⟩ | ⟨l1, r', u', l2, h1, h2⟩
      · refine .inl ⟨h1, fun x hx => ?_⟩
        rcases List.mem_cons.mp hx with rfl | hx
        · exact ⟨(by intro _ _ _ h; cases h), (by intro _ _ h; cases h)⟩
        · exact h2 x hx
      · exact .inr ⟨_ :: l1, r', u', l2, by rw [h1]; rfl, h2⟩
    | transfer s d am =>
      rcases ih _ hp with ⟨h1, h2⟩ | ⟨l1, r', u', l2, h1, h2⟩
      · refine .inl ⟨h1, fun x hx => ?_⟩
        rcases List.mem_cons.mp hx with rfl | hx
        · exact ⟨(by intro _ _ _ h; cases h), (by intro _ _ h; cases h)⟩
        · exact h2 x hx
      · exact .inr ⟨_ :: l1, r', u', l2, by rw [h1]; rfl, h2⟩

/-- **C26** (5') One claim: a mint of exactly that amount was made at least seven days before, with no other mint and
no other claim in between. -/
theorem claim_was_proposed (hB : B.SlotsOk) (hf : B.faucet = false) {s0 : St} (h0 : NonePending B s0)
    (hl0 : s0.logs = []) (acts : List Act) (ha : ActsOk acts) {l1 l2 : List (Nat × Log)} {t r a : Nat}
    (h : (B.runAll s0 acts).logs = l1 ++ (t, .claim r a) :: l2) :
    r = gov ∧ a ≠ 0 ∧ ∃ k t0 r' u m, l1 = k ++ (t0, .mint r' a u) :: m ∧ t0 + 604800 ≤ t ∧
      ∀ x ∈ m, (∀ r a u, x.2 ≠ .mint r a u) ∧ (∀ r a, x.2 ≠ .claim r a) := by
  obtain ⟨new, h1, h2⟩ := claims_timelocked hB hf h0 acts ha
  rw [hl0, List.nil_append] at h1
  rw [← h1, h] at h2
  obtain ⟨h3, h4, t0, h5, h6⟩ := claimsOk_find h2
  obtain ⟨k, r', u, m, h7, h8⟩ := proposedOf_some h5
  exact ⟨h3, h4, k, t0, r', u, m, h7, h6, h8⟩

end Token
end Verif
