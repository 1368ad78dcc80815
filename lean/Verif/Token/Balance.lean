import Verif.Token.Props

/- C26: availability of a pending mint, and balances against the supply. -/
namespace Verif
namespace Token
open Codec (Byte Bytes beBytes)

variable {B : Build}

/-- **C26** (6) A proposed mint can be claimed once seven days have passed, if nothing was proposed or claimed since and
the supply does not overflow. -/
theorem claim_available (hB : B.SlotsOk) (hf : B.faucet = false) {s0 : St} (h0 : NonePending B s0) (hl0 : s0.logs = [])
    (acts : List Act) (ha : ActsOk acts) {l1 m : List (Nat × Log)} {t0 r u a : Nat}
    (h : (B.runAll s0 acts).logs = l1 ++ (t0, .mint r a u) :: m)
    (hm : ∀ x ∈ m, (∀ r a u, x.2 ≠ .mint r a u) ∧ (∀ r a, x.2 ≠ .claim r a)) (hpos : a ≠ 0)
    (hsup : (B.runAll s0 acts).supply + a < wordMod) {f : Frame} (hs : f.static = false)
    (hc : f.caller = gov) (hv : f.value = 0) (hg : 25000 ≤ f.gas) {args : Bytes} (hd : f.data = selClaim ++ args)
    (hlen : 32 ≤ args.length) (haddr : argAddr args = gov) (ht : t0 + 604800 ≤ f.now) :
    (B.exec f (B.runAll s0 acts)).supply = (B.runAll s0 acts).supply + a ∧
      (B.exec f (B.runAll s0 acts)).logs =
        (B.runAll s0 acts).logs ++ [(f.now, .claim gov a), (f.now, .transfer 0 gov a)] := by
  obtain ⟨new, hp, _, hu⟩ := history hB hf h0 acts ha
  generalize B.runAll s0 acts = s at *
  have hnew : new = l1 ++ (t0, .mint r a u) :: m := by
    have := hp.logs
    rw [hl0, List.nil_append] at this
    rw [← this, h]
  have hskip : ∀ (m : List (Nat × Log)) p, (∀ x ∈ m, (∀ r a u, x.2 ≠ .mint r a u) ∧ (∀ r a, x.2 ≠ .claim r a)) →
      proposedOf m p = p := by
    intro m
    induction m with
    | nil => intro p _; rfl
    | cons x l ih =>
      intro p hx
      obtain ⟨t, x⟩ := x
      cases x with
      | mint r a u => exact absurd rfl ((hx _ List.mem_cons_self).1 r a u)
      | claim r a => exact absurd rfl ((hx _ List.mem_cons_self).2 r a)
      | burn _ => exact ih p (fun y hy => hx y (List.mem_cons_of_mem _ hy))
      | transfer _ _ _ => exact ih p (fun y hy => hx y (List.mem_cons_of_mem _ hy))
  have hprop : proposedOf new none = some (a, t0) := by
    rw [hnew, proposedOf_append]
    exact hskip m _ hm
  have hpend : pendingOf new none = some (a, t0 + timelock) := by
    rw [show pendingOf new none = _ from hu, hprop]; rfl
  obtain ⟨h1, h2⟩ := hp.some _ _ hpend
  have henter : f.enter s = some s := by
    unfold Frame.enter
    split
    · rw [hv]
      rw [if_neg (Nat.not_lt_zero _)]
      exact congrArg some (s.fund_zero f.caller)
    · rfl
  have htake : f.data.take 4 = selClaim := by rw [hd]; exact List.take_left' rfl
  have hdrop : f.data.drop 4 = args := by rw [hd]; exact List.drop_left' rfl
  have hrun : B.run f s = B.handleClaim s f.now args f.caller f.gas := by
    unfold Build.run
    rw [henter]
    simp only [Build.precompile]
    have hn1 : ¬ f.data.length < 4 := by
      rw [hd, List.length_append]
      have : selClaim.length = 4 := rfl
      omega
    rw [if_neg hn1, htake, hdrop, hs, hv]
    simp only [Bool.not_false, Bool.or_true, Bool.true_eq_false, if_false, decide_true]
    unfold Build.handle
    rw [if_neg (fun hx => absurd hx.2 (by decide)), if_pos rfl]
  have hne : supplySlot ≠ B.amountSlot gov := fun he => hB.sup0 gov_lt he.symm
  have hne1 : supplySlot ≠ B.timestampSlot gov := fun he => hB.sup1 gov_lt he.symm
  have hadd : ∀ (s1 : St), s1.store supplySlot = s.supply →
      Build.addSupply s1 a = some (s1.sstore supplySlot (s.supply + a)) := by
    intro s1 hs1
    unfold Build.addSupply
    rw [hs1, if_pos hsup]
  have hres : ∃ s', B.run f s = .ok (s', []) ∧ s'.supply = s.supply + a ∧
      s'.logs = s.logs ++ [(f.now, .claim gov a), (f.now, .transfer 0 gov a)] := by
    rw [hrun]
    unfold Build.handleClaim
    rw [if_neg (by omega), hc, if_neg (by decide), if_neg (by omega)]
    simp only [haddr, h1, h2]
    have hl : ¬ f.now < t0 + timelock := by unfold timelock; omega
    have hs1 : ((((B.balanceIncr s gov a).sstore (B.amountSlot gov) 0).sstore (B.timestampSlot gov) 0)).store
        supplySlot = s.supply := by
      rw [store_sstore_ne _ hne1, store_sstore_ne _ hne]; rfl
    rw [if_neg hpos, if_neg hl, hadd _ hs1]
    refine ⟨_, rfl, ?_, by simp [St.log, St.sstore, Build.balanceIncr, St.setBalance]⟩
    rw [supply_log, supply_log, supply_set]
  obtain ⟨s', h3, h4, h5⟩ := hres
  unfold Build.exec
  rw [h3]
  exact ⟨h4, h5⟩

/-! ### Balances -/

/-- The coins held by the listed accounts. -/
def total (as : List Nat) (s : St) : Nat := (as.map s.bal).sum

theorem total_le {as : List Nat} {a : Nat} (h : a ∈ as) (s : St) : s.bal a ≤ total as s := by
  unfold total
  induction as with
  | nil => cases h
  | cons x l ih =>
    rw [List.map_cons, List.sum_cons]
    rcases List.mem_cons.mp h with rfl | h
    · omega
    · have := ih h; omega

theorem total_setBalance {as : List Nat} (hn : as.Nodup) {a : Nat} (h : a ∈ as) (s : St) (v : Nat) :
    total as (s.setBalance a v) + s.bal a = total as s + v := by
  unfold total
  induction as with
  | nil => cases h
  | cons x l ih =>
    rw [List.map_cons, List.sum_cons, List.map_cons, List.sum_cons]
    have hn' := List.nodup_cons.mp hn
    rcases List.mem_cons.mp h with rfl | h
    · have h1 : l.map (s.setBalance a v).bal = l.map s.bal := by
        apply List.map_congr_left
        intro y hy
        exact if_neg (fun (he : y = a) => hn'.1 (he ▸ hy))
      rw [h1]
      have h2 : (s.setBalance a v).bal a = v := if_pos rfl
      omega
    · have := ih hn'.2 h
      have h2 : (s.setBalance a v).bal x = s.bal x := if_neg (fun (he : x = a) => hn'.1 (he ▸ h))
      omega

theorem total_fund {as : List Nat} (hn : as.Nodup) {c : Nat} (hc : c ∈ as) (hp : pre ∈ as) (s : St) {v : Nat}
    (hv : v ≤ s.bal c) : total as (s.fund c v) = total as s := by
  unfold St.fund
  have h1 := total_setBalance hn hc s (s.bal c - v)
  have h2 := total_setBalance hn hp (s.setBalance c (s.bal c - v)) ((s.setBalance c (s.bal c - v)).bal pre + v)
  simp only at *
  omega

theorem total_sstore (as : List Nat) (s : St) (k v : Nat) : total as (s.sstore k v) = total as s := rfl
theorem total_log (as : List Nat) (s : St) (t : Nat) (l : Log) : total as (s.log t l) = total as s := rfl

/-- Actions over the listed accounts: other activity moves coins between them without creating or destroying any. -/
def ActsIn (as : List Nat) : St → Build → List Act → Prop
  | _, _, [] => True
  | s, B, .call f :: l => f.WF ∧ ActsIn as (B.exec f s) B l
  | s, B, .other bal :: l => total as { s with bal := bal } = total as s ∧ ActsIn as { s with bal := bal } B l

/-- **C26** (7) Coins are backed: if the supply covers the coins in circulation at the start, then over every history
coins in circulation and total supply change by the same amount (build without the faucet). -/
theorem coins_backed (hB : B.SlotsOk) (hf : B.faucet = false) {as : List Nat} (hn : as.Nodup) (hg : gov ∈ as)
    (hp : pre ∈ as) (acts : List Act) {s0 : St} (h0 : NonePending B s0) (hcov : total as s0 ≤ s0.supply)
    (ha : ActsIn as s0 B acts) :
    total as (B.runAll s0 acts) + s0.supply = total as s0 + (B.runAll s0 acts).supply := by
  have hclaim : ∀ s : St, (∀ r, r < 2 ^ 160 → r ≠ gov → s.store (B.amountSlot r) = 0) → total as s ≤ s.supply →
      ∀ f : Frame, ∀ s', Effect B f s s' → (∀ r, r < 2 ^ 160 → r ≠ gov → s'.store (B.amountSlot r) = 0) ∧
        total as s' + s.supply = total as s + s'.supply := by
    intro s hno hc f s' he
    have ne01 : ∀ {x y}, x < 2 ^ 160 → y < 2 ^ 160 → B.amountSlot x ≠ B.timestampSlot y := fun hx hy =>
      hB.ne (by decide) (by decide) hx hy (.inl (by decide))
    have ne00 : ∀ {x y}, x < 2 ^ 160 → y < 2 ^ 160 → x ≠ y → B.amountSlot x ≠ B.amountSlot y := fun hx hy h =>
      hB.ne (by decide) (by decide) hx hy (.inr h)
    have neS0 : ∀ {x}, x < 2 ^ 160 → B.amountSlot x ≠ supplySlot := fun hx => hB.sup0 hx
    cases he with
    | view => exact ⟨hno, rfl⟩
    | mint a =>
      refine ⟨?_, ?_⟩
      · intro r hr hn
        show ((s.sstore _ _).sstore _ _).store _ = 0
        rw [store_sstore_ne _ (ne01 hr gov_lt), store_sstore_ne _ (ne00 hr gov_lt hn)]
        exact hno r hr hn
      · rw [total_log, total_sstore, total_sstore, supply_log, supply_sstore (hB.sup1 gov_lt),
          supply_sstore (hB.sup0 gov_lt)]
    | claim r _ _ _ hr ham ht hsup =>
      have hrg : r = gov := by
        apply Classical.byContradiction
        intro hn
        exact ham (hno r hr hn)
      subst hrg
      refine ⟨?_, ?_⟩
      · intro r hr hn
        show ((((B.balanceIncr s _ _).sstore _ _).sstore _ _).sstore _ _).store _ = 0
        rw [store_sstore_ne _ (neS0 hr), store_sstore_ne _ (ne01 hr gov_lt), store_sstore_ne _ (ne00 hr gov_lt hn)]
        exact hno r hr hn
      · rw [total_log, total_log, total_sstore, total_sstore, total_sstore, supply_log, supply_log, supply_set]
        have hb := total_le hg s
        have hov : s.bal gov + s.store (B.amountSlot gov) < wordMod := by omega
        unfold Build.balanceIncr
        rw [if_pos hov]
        have := total_setBalance hn hg s (s.bal gov + s.store (B.amountSlot gov))
        omega
    | burn a _ hcl hv hle hsup =>
      refine ⟨?_, ?_⟩
      · intro r hr hn
        show ((St.setBalance _ _ _).sstore _ _).store _ = 0
        rw [store_sstore_ne _ (neS0 hr)]
        exact hno r hr hn
      · rw [total_log, total_log, total_sstore, supply_log, supply_log, supply_set]
        have h1 : total as (s.fund gov f.value) = total as s := by
          rcases hv with hv | hv
          · exact total_fund hn hg hp s hv
          · rw [hv, St.fund_zero]
        have h2 := total_setBalance hn hp (s.fund gov f.value) ((s.fund gov f.value).bal pre - a)
        omega
    | faucetMint r a hf' => rw [hf] at hf'; cases hf'
    | setRole r v hf' => rw [hf] at hf'; cases hf'
  suffices H : ∀ (acts : List Act) (s : St), (∀ r, r < 2 ^ 160 → r ≠ gov → s.store (B.amountSlot r) = 0) →
      total as s ≤ s.supply → ActsIn as s B acts →
      total as (B.runAll s acts) + s.supply = total as s + (B.runAll s acts).supply by
    exact H acts s0 (fun r hr _ => h0 r hr) hcov ha
  intro acts
  induction acts with
  | nil => intro s _ _ _; rfl
  | cons x l ih =>
    intro s hno hc ha
    cases x with
    | call f =>
      have he : B.exec f s = s ∨ Effect B f s (B.exec f s) := by
        unfold Build.exec
        split
        · rename_i s' out hr
          exact .inr (run_effect hB ha.1 hr)
        · exact .inl rfl
      have h1 : (∀ r, r < 2 ^ 160 → r ≠ gov → (B.exec f s).store (B.amountSlot r) = 0) ∧
          total as (B.exec f s) + s.supply = total as s + (B.exec f s).supply := by
        rcases he with he | he
        · rw [he]; exact ⟨hno, rfl⟩
        · exact hclaim s hno hc f _ he
      have h2 := ih (B.exec f s) h1.1 (by have := h1.2; omega) ha.2
      show total as (B.runAll (B.exec f s) l) + _ = _ + (B.runAll (B.exec f s) l).supply
      have := h1.2
      omega
    | other bal =>
      have h2 := ih { s with bal := bal } hno (by
        have := ha.1
        show _ ≤ s.supply
        omega) ha.2
      show total as (B.runAll { s with bal := bal } l) + _ = _ + (B.runAll { s with bal := bal } l).supply
      have h3 := ha.1
      have h4 : St.supply { s with bal := bal } = s.supply := rfl
      omega

/-! ### Observations -/

/-- Observation: no shipped genesis (chain-configs) seeds the supply's slot, so `totalSupply()` starts at zero although
coins exist, and no burn of a positive amount succeeds until a mint was claimed. -/
theorem burn_needs_seed (hB : B.SlotsOk) {s : St} (h : s.supply = 0) {f : Frame} (hw : f.WF) {a : Nat} (ha : a ≠ 0) :
    ∀ s' out, B.run f s = .ok (s', out) → s'.logs ≠ s.logs ++ [(f.now, .burn a), (f.now, .transfer pre 0 a)] := by
  intro s' out hr hl
  cases run_effect hB hw hr with
  | view => exact absurd (congrArg List.length hl) (by simp)
  | mint => exact absurd (congrArg List.length hl) (by simp [St.log, St.sstore])
  | claim r => simp [St.log, St.sstore, Build.balanceIncr, St.setBalance] at hl
  | burn b _ _ _ _ hle =>
    have : b = a := by
      simp [St.log, St.sstore, St.setBalance, St.fund] at hl
      exact hl
    omega
  | faucetMint r b => simp [St.log, St.sstore, Build.balanceIncr, St.setBalance] at hl
  | setRole => exact absurd (congrArg List.length hl) (by simp [St.sstore])

/-! ### A concrete history -/
namespace Example

/-- A stand-in for keccak without collisions on the slots. -/
def B0 : Build := { faucet := false, keccak := fun b => beNat b + 101, overflow := fun b _ => b }

theorem foldl_beNat (b : Bytes) (n : Nat) :
    b.foldl (fun n x => n * 256 + x.val) n = n * 256 ^ b.length + beNat b := by
  unfold beNat
  induction b generalizing n with
  | nil => simp
  | cons x l ih =>
    simp only [List.foldl_cons, List.length_cons]
    rw [ih (n * 256 + x.val), ih (0 * 256 + x.val), Nat.zero_mul, Nat.zero_add, Nat.add_mul, Nat.pow_succ]
    rw [Nat.mul_assoc, Nat.mul_comm 256, Nat.add_assoc]

theorem beNat_lt (b : Bytes) : beNat b < 256 ^ b.length := by
  have := beNat_foldl_lt b 0
  rwa [Nat.zero_add, Nat.one_mul] at this

theorem beNat_inj {a b : Bytes} (hl : a.length = b.length) (h : beNat a = beNat b) : a = b := by
  induction a generalizing b with
  | nil => exact (List.eq_nil_of_length_eq_zero hl.symm).symm
  | cons x l ih =>
    cases b with
    | nil => cases hl
    | cons y m =>
      simp only [List.length_cons, Nat.add_right_cancel_iff] at hl
      have h1 : beNat (x :: l) = x.val * 256 ^ l.length + beNat l := by
        show List.foldl (fun n x => n * 256 + x.val) (0 * 256 + x.val) l = _
        rw [foldl_beNat, Nat.zero_mul, Nat.zero_add]
      have h2 : beNat (y :: m) = y.val * 256 ^ m.length + beNat m := by
        show List.foldl (fun n x => n * 256 + x.val) (0 * 256 + y.val) m = _
        rw [foldl_beNat, Nat.zero_mul, Nat.zero_add]
      rw [h1, h2, hl] at h
      have h3 := beNat_lt l
      have h4 := beNat_lt m
      rw [hl] at h3
      have hp : 0 < 256 ^ m.length := Nat.pow_pos (by decide)
      have h5 : x.val = y.val := by
        have e1 : (x.val * 256 ^ m.length + beNat l) / 256 ^ m.length = x.val := by
          rw [Nat.mul_comm, Nat.mul_add_div hp, Nat.div_eq_of_lt h3, Nat.add_zero]
        have e2 : (y.val * 256 ^ m.length + beNat m) / 256 ^ m.length = y.val := by
          rw [Nat.mul_comm, Nat.mul_add_div hp, Nat.div_eq_of_lt h4, Nat.add_zero]
        rw [← e1, ← e2, h]
      rw [h5] at h
      rw [Fin.ext h5, ih hl (by omega)]

theorem slots : B0.SlotsOk where
  inj := by
    intro i j a b _ _ _ _ h
    exact beNat_inj (by simp [slotBuf, Codec.beBytes_length]) (by simp only [B0] at h; omega)
  supply := by
    intro i a _ _ h
    simp only [B0, supplySlot] at h
    omega

/-- Genesis with a seeded supply: governance has 1000 coins. -/
def s0 : St := { bal := fun a => if a = gov then 1000 else 0, store := fun k => if k = 100 then 1000 else 0, logs := [] }

theorem none_pending : NonePending B0 s0 := by
  intro r hr
  have h : ¬ B0.amountSlot r = 100 := slots.sup0 hr
  show (if B0.amountSlot r = 100 then 1000 else 0) = 0
  exact if_neg h

def frame (now value : Nat) (data : Bytes) : Frame :=
  { static := false, transfer := true, caller := gov, target := pre, value := value, gas := 100000, now := now,
    data := data }

/-- Mint 500, wait seven days, claim, claim again (fails), burn 200 with value 300. -/
def acts : List Act :=
  [.call (frame 10 0 (selMint ++ beBytes 32 500)), .call (frame 604809 0 (selClaim ++ beBytes 32 gov)),
   .call (frame 604810 0 (selClaim ++ beBytes 32 gov)), .call (frame 604811 0 (selClaim ++ beBytes 32 gov)),
   .call (frame 604812 300 (selBurn ++ beBytes 32 200))]

theorem acts_ok : ActsOk acts := by
  intro f hf
  simp only [acts, List.mem_cons, Act.call.injEq, List.not_mem_nil, or_false] at hf
  rcases hf with rfl | rfl | rfl | rfl | rfl <;>
    exact ⟨by decide, by decide, by decide, by decide, by decide⟩

/-- The run: one claim, at the first moment it is allowed; then a burn with more value than needed. -/
theorem run_logs : (B0.runAll s0 acts).logs =
    [(10, .mint gov 500 604810), (604810, .claim gov 500), (604810, .transfer 0 gov 500), (604812, .burn 200),
     (604812, .transfer pre 0 200)] ∧ (B0.runAll s0 acts).supply = 1300 ∧ (B0.runAll s0 acts).bal gov = 1200 ∧
    (B0.runAll s0 acts).bal pre = 100 := by
  decide +kernel

/-- The theorems apply to it. -/
theorem run_example : ∃ new, (B0.runAll s0 acts).logs = s0.logs ++ new ∧ ClaimsOk new none :=
  claims_timelocked slots rfl none_pending acts acts_ok

theorem run_backed : total [gov, pre] (B0.runAll s0 acts) + s0.supply = total [gov, pre] s0 + (B0.runAll s0 acts).supply := by
  refine coins_backed slots rfl (by decide) (by decide) (by decide) acts
    none_pending (by decide) ?_
  refine ⟨acts_ok _ (by simp [acts]), acts_ok _ (by simp [acts]), acts_ok _ (by simp [acts]), acts_ok _ (by simp [acts]),
    acts_ok _ (by simp [acts]), trivial⟩

/-- Observation: when the coins in circulation exceed the recorded supply (in the shipped genesis files the slot is
not seeded) a claim can be accepted although the recipient's balance overflows: the supply grows by more than the
coins do. Here governance holds almost 2^256 coins, as some accounts of the testnet genesis do. -/
theorem overflow_unbacked : ∃ s acts, NonePending B0 s ∧ s.supply = 0 ∧ ActsOk acts ∧
    (B0.runAll s acts).supply = 500 ∧ (B0.runAll s acts).bal gov < s.bal gov + 500 := by
  refine ⟨{ bal := fun a => if a = gov then 2 ^ 256 - 1 else 0, store := fun _ => 0, logs := [] },
    acts.take 3, fun _ _ => rfl, rfl, fun f hf => acts_ok f (List.mem_of_mem_take hf), ?_, ?_⟩
  · decide +kernel
  · decide +kernel

end Example
end Token
end Verif
