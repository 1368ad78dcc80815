import Verif.Codec.Signed

/-
The native token precompile (crates/tn-reth/src/evm/tel_precompile). A call frame is modelled from the point where
revm enters it: the value is moved (plain CALL), the precompile runs, and an error reverts the frame. revm's journal
is a dependency: its operations are modelled from their documentation. Database errors are not modelled.
-/
namespace Verif
namespace Token
open Codec (Byte Bytes beBytes)

/-- `GOVERNANCE_SAFE_ADDRESS` (config/src/genesis.rs:37). -/
def gov : Nat := 0x7a0
/-- `TELCOIN_PRECOMPILE_ADDRESS` (mod.rs:96-97). -/
def pre : Nat := 0x7e1
/-- `TOTAL_SUPPLY_SLOT` (mod.rs:118). -/
def supplySlot : Nat := 100
/-- `TIMELOCK_DURATION` (burnable.rs:78). -/
def timelock : Nat := 7 * 24 * 60 * 60

/-- Modulus of `U256`. -/
abbrev wordMod : Nat := 2 ^ 256

/-- `U256::from_be_slice`. -/
def beNat (b : Bytes) : Nat := b.foldl (fun n x => n * 256 + x.val) 0

/-- The buffer that is hashed to find a slot (helpers.rs:22-38, faucet.rs:46-51): twelve zeros, the address, the base
slot in 32 bytes. -/
def slotBuf (base addr : Nat) : Bytes := beBytes 12 0 ++ (beBytes 20 addr ++ beBytes 32 base)

/-- What the build and the environment fix: the `faucet` feature, `keccak256` as a number, and what
`EvmInternals::balance_incr` (revm) makes of a balance that would overflow. -/
structure Build where
  faucet : Bool
  keccak : Bytes → Nat
  overflow : Nat → Nat → Nat

/-- `amount_slot` (helpers.rs:22-27). -/
def Build.amountSlot (B : Build) (a : Nat) : Nat := B.keccak (slotBuf 0 a)
/-- `timestamp_slot` (helpers.rs:34-39). -/
def Build.timestampSlot (B : Build) (a : Nat) : Nat := B.keccak (slotBuf 1 a)
/-- `mint_role_slot` (faucet.rs:46-51). -/
def Build.roleSlot (B : Build) (a : Nat) : Nat := B.keccak (slotBuf 3 a)

/-- Events (burnable.rs:52-58) that can be seen in a block: the time is the block's. -/
inductive Log where
  | mint (recipient amount unlock : Nat)
  | claim (recipient amount : Nat)
  | burn (amount : Nat)
  | transfer (src dst amount : Nat)
deriving DecidableEq, Repr

/-- The state a call can see: native balances, the precompile account's storage, the logs so far (oldest first). -/
structure St where
  bal : Nat → Nat
  store : Nat → Nat
  logs : List (Nat × Log)

/-- `sstore` at the precompile's account. -/
def St.sstore (s : St) (k v : Nat) : St := { s with store := fun x => if x = k then v else s.store x }
/-- `set_balance`. -/
def St.setBalance (s : St) (a v : Nat) : St := { s with bal := fun x => if x = a then v else s.bal x }
/-- `internals.log` in a block with time `now`. -/
def St.log (s : St) (now : Nat) (l : Log) : St := { s with logs := s.logs ++ [(now, l)] }

/-- `PrecompileInput` (alloy-evm) together with how the frame was entered. `transfer`: a plain CALL, which moves the
value from `caller` to the precompile; otherwise (DELEGATECALL, CALLCODE) `value` is only apparent. `now` is the
block's timestamp. -/
structure Frame where
  static : Bool
  transfer : Bool
  caller : Nat
  target : Nat
  value : Nat
  gas : Nat
  now : Nat
  data : Bytes

/-- Reasons a frame fails. -/
inductive Err where
  | tooShort | staticMutation | notPayable | unknownSelector | outOfGas | unauthorized | badArgs | nothingPending
  | locked | supplyOverflow | supplyUnderflow | insufficient | zeroAmount
deriving DecidableEq, Repr

abbrev Res := Except Err (St × Bytes)

/-- Function selectors: the first four bytes of the keccak hash of the signatures in burnable.rs:40-50,62-66 and
faucet.rs:37-40. -/
def selTotalSupply : Bytes := [24, 22, 13, 221]
def selClaim : Bytes := [30, 131, 64, 154]
def selBurn : Bytes := [66, 150, 108, 104]
def selMint : Bytes := [160, 113, 45, 104]
def selMintFaucet : Bytes := [64, 193, 15, 25]
def selGrant : Bytes := [194, 227, 39, 61]
def selRevoke : Bytes := [248, 16, 148, 243]
def selHasRole : Bytes := [196, 229, 142, 84]

/-- `balance_incr` (helpers.rs:44-52). -/
def Build.balanceIncr (B : Build) (s : St) (a amount : Nat) : St :=
  s.setBalance a (if s.bal a + amount < wordMod then s.bal a + amount else B.overflow (s.bal a) amount)

/-- `balance_decr` (helpers.rs:57-76). -/
def balanceDecr (s : St) (a amount : Nat) : Option St :=
  if amount = 0 then some s
  else if s.bal a < amount then none
  else some (s.setBalance a (s.bal a - amount))

/-- `has_governance_role` (burnable.rs:141-143). -/
def hasGovernanceRole (caller : Nat) : Bool := caller = gov

/-- `has_mint_role` (burnable.rs:110-136). -/
def Build.hasMintRole (B : Build) (s : St) (caller : Nat) : Bool :=
  hasGovernanceRole caller || (B.faucet && s.store (B.roleSlot caller) != 0)

/-- `calldata[0..32]` as a number. -/
def argWord (args : Bytes) : Nat := beNat (args.take 32)
/-- `Address::from_slice(&calldata[12..32])`: the upper twelve bytes are ignored. -/
def argAddr (args : Bytes) : Nat := beNat ((args.drop 12).take 20)

/-- `handle_total_supply` (burnable.rs:82-103). -/
def handleTotalSupply (s : St) (gas : Nat) : Res :=
  if gas < 2100 then .error .outOfGas
  else .ok (s, beBytes 32 (s.store supplySlot))

/-- `handle_mint` (burnable.rs:157-217). -/
def Build.handleMint (B : Build) (s : St) (now : Nat) (args : Bytes) (caller gas : Nat) : Res :=
  if gas < 41000 then .error .outOfGas
  else if B.hasMintRole s caller = false then .error .unauthorized
  else if args.length < 32 then .error .badArgs
  else
    let unlock := (now + timelock) % wordMod
    .ok ((((s.sstore (B.amountSlot gov) (argWord args)).sstore (B.timestampSlot gov) unlock).log now
      (.mint gov (argWord args) unlock)), [])

/-- The supply after adding (`checked_add`). -/
def Build.addSupply (s : St) (amount : Nat) : Option St :=
  if s.store supplySlot + amount < wordMod then some (s.sstore supplySlot (s.store supplySlot + amount)) else none

/-- `handle_claim` (burnable.rs:231-333). -/
def Build.handleClaim (B : Build) (s : St) (now : Nat) (args : Bytes) (caller gas : Nat) : Res :=
  if gas < 25000 then .error .outOfGas
  else if hasGovernanceRole caller = false then .error .unauthorized
  else if args.length < 32 then .error .badArgs
  else
    let r := argAddr args
    let amount := s.store (B.amountSlot r)
    if amount = 0 then .error .nothingPending
    else if now < s.store (B.timestampSlot r) then .error .locked
    else
      let s1 := ((B.balanceIncr s r amount).sstore (B.amountSlot r) 0).sstore (B.timestampSlot r) 0
      match Build.addSupply s1 amount with
      | none => .error .supplyOverflow
      | some s2 => .ok ((s2.log now (.claim r amount)).log now (.transfer 0 r amount), [])

/-- `handle_burn` (burnable.rs:341-415). -/
def handleBurn (s : St) (now : Nat) (args : Bytes) (caller gas : Nat) : Res :=
  if gas < 8000 then .error .outOfGas
  else if hasGovernanceRole caller = false then .error .unauthorized
  else if args.length < 32 then .error .badArgs
  else match balanceDecr s pre (argWord args) with
    | none => .error .insufficient
    | some s1 =>
      if s1.store supplySlot < argWord args then .error .supplyUnderflow
      else .ok (((s1.sstore supplySlot (s1.store supplySlot - argWord args)).log now (.burn (argWord args))).log now
        (.transfer pre 0 (argWord args)), [])

/-- `handle_mint_faucet` (faucet.rs:62-136). -/
def Build.handleMintFaucet (B : Build) (s : St) (now : Nat) (args : Bytes) (caller gas : Nat) : Res :=
  if gas < 30000 then .error .outOfGas
  else if B.hasMintRole s caller = false then .error .unauthorized
  else if args.length < 64 then .error .badArgs
  else
    let amount := argWord (args.drop 32)
    let r := argAddr args
    if amount = 0 then .error .zeroAmount
    else match Build.addSupply (B.balanceIncr s r amount) amount with
      | none => .error .supplyOverflow
      | some s2 => .ok ((s2.log now (.mint r amount 0)).log now (.transfer 0 r amount), [])

/-- `handle_grant_mint_role` / `handle_revoke_mint_role` (faucet.rs:140-217): `v` is 1 or 0. -/
def Build.handleSetRole (B : Build) (v : Nat) (s : St) (args : Bytes) (caller gas : Nat) : Res :=
  if gas < 22000 then .error .outOfGas
  else if hasGovernanceRole caller = false then .error .unauthorized
  else if args.length < 32 then .error .badArgs
  else .ok (s.sstore (B.roleSlot (argAddr args)) v, [])

/-- `handle_has_mint_role` (faucet.rs:221-245). -/
def Build.handleHasRole (B : Build) (s : St) (args : Bytes) (gas : Nat) : Res :=
  if gas < 2100 then .error .outOfGas
  else if args.length < 32 then .error .badArgs
  else .ok (s, beBytes 32 (if B.hasMintRole s (argAddr args) then 1 else 0))

/-- Selectors that touch no state (mod.rs:197-201). -/
def Build.readOnly (B : Build) (sel : Bytes) : Bool := sel = selTotalSupply || (B.faucet && sel = selHasRole)

/-- Selectors that take value (mod.rs:206-208). -/
def payable (sel : Bytes) (target : Nat) : Bool := sel = selBurn && target = pre

/-- The `match` of `telcoin_precompile` (mod.rs:213-253). -/
def Build.handle (B : Build) (f : Frame) (s : St) (sel args : Bytes) : Res :=
  if B.faucet = false ∧ sel = selMint then B.handleMint s f.now args f.caller f.gas
  else if sel = selClaim then B.handleClaim s f.now args f.caller f.gas
  else if sel = selBurn then handleBurn s f.now args f.caller f.gas
  else if sel = selTotalSupply then handleTotalSupply s f.gas
  else if B.faucet = true ∧ sel = selGrant then B.handleSetRole 1 s args f.caller f.gas
  else if B.faucet = true ∧ sel = selRevoke then B.handleSetRole 0 s args f.caller f.gas
  else if B.faucet = true ∧ sel = selHasRole then B.handleHasRole s args f.gas
  else if B.faucet = true ∧ sel = selMintFaucet then B.handleMintFaucet s f.now args f.caller f.gas
  else .error .unknownSelector

/-- `telcoin_precompile` (mod.rs:185-254). -/
def Build.precompile (B : Build) (f : Frame) (s : St) : Res :=
  if f.data.length < 4 then .error .tooShort
  else if (B.readOnly (f.data.take 4) || !f.static) = false then .error .staticMutation
  else if (payable (f.data.take 4) f.target || f.value = 0) = false then .error .notPayable
  else B.handle f s (f.data.take 4) (f.data.drop 4)

/-- Entering the frame (revm's `make_call_frame`): a plain call moves the value, and fails if the caller does not
have it. Crediting the precompile cannot overflow as the sum is bounded by the supply in circulation; it wraps nowhere
here. -/
def Frame.enter (f : Frame) (s : St) : Option St :=
  if f.transfer then
    if s.bal f.caller < f.value then none
    else
      let s1 := s.setBalance f.caller (s.bal f.caller - f.value)
      some (s1.setBalance pre (s1.bal pre + f.value))
  else some s

/-- A frame that succeeds: the state after it and the bytes returned. -/
def Build.run (B : Build) (f : Frame) (s : St) : Res :=
  match f.enter s with
  | none => .error .insufficient
  | some s1 => B.precompile f s1

/-- The state after the frame; an error reverts it (revm's checkpoint). -/
def Build.exec (B : Build) (f : Frame) (s : St) : St :=
  match B.run f s with
  | .ok (s', _) => s'
  | .error _ => s

/-- Frames revm can produce: a plain call targets the precompile, other kinds run on behalf of another account
(nothing executes at the precompile's own address, its code is the invalid opcode); a static frame moves no value;
addresses and words are in range; timestamps are `u64`. -/
structure Frame.WF (f : Frame) : Prop where
  target : f.transfer = true ↔ f.target = pre
  static : f.static = true → f.value = 0
  caller : f.caller < 2 ^ 160
  value : f.value < wordMod
  now : f.now < 2 ^ 64

/-- No two of the slots in use coincide: no collision of the hash on them, and none hits the supply's slot. -/
structure Build.SlotsOk (B : Build) : Prop where
  inj : ∀ i j a b, i ∈ [0, 1, 3] → j ∈ [0, 1, 3] → a < 2 ^ 160 → b < 2 ^ 160 →
    B.keccak (slotBuf i a) = B.keccak (slotBuf j b) → slotBuf i a = slotBuf j b
  supply : ∀ i a, i ∈ [0, 1, 3] → a < 2 ^ 160 → B.keccak (slotBuf i a) ≠ supplySlot

/-- Everything else that happens on the chain between calls to the precompile: balances move. Nothing else writes
the precompile's storage, as no code runs at its address. -/
inductive Act where
  | call (f : Frame)
  | other (bal : Nat → Nat)

/-- One action. -/
def Build.act (B : Build) (s : St) : Act → St
  | .call f => B.exec f s
  | .other bal => { s with bal := bal }

/-- A history. -/
def Build.runAll (B : Build) (s : St) (acts : List Act) : St := acts.foldl B.act s

end Token
end Verif
