import Verif.Types
/-
Model of the gas penalty and fee distribution (`crates/tn-reth/src/evm/utils.rs`,
`crates/tn-reth/src/evm/handler.rs`) and of the per-epoch base fee
(`crates/types/src/gas_accumulator.rs`).

Machine arithmetic is modelled with explicit wrap-around or saturation, as in a release build.
-/
namespace Verif.Gas

/-- u64 range. -/
def u64 : Nat := 2 ^ 64
/-- u128 range. -/
def u128 : Nat := 2 ^ 128
/-- U256 range. -/
def u256 : Nat := 2 ^ 256

/-- Wrapping u128 multiplication (`*` on u128 in a release build). -/
def mul128 (a b : Nat) : Nat := (a * b) % u128
/-- Wrapping u64 addition. -/
def add64 (a b : Nat) : Nat := (a + b) % u64
/-- `u128::saturating_mul`. -/
def satMul128 (a b : Nat) : Nat := min (a * b) (u128 - 1)
/-- `u64::saturating_mul`. -/
def satMul64 (a b : Nat) : Nat := min (a * b) (u64 - 1)

/-- `MIN_GAS_LIMIT_THRESHOLD`, evm/utils.rs:14. -/
def minGasLimitThreshold : Nat := 210000
/-- `PRECISION`, evm/utils.rs:17. -/
def precision : Nat := 10 ^ 9
/-- `THRESHOLD`, evm/utils.rs:20. -/
def threshold : Nat := 10 ^ 8
/-- `THRESHOLD_SQUARED`, evm/utils.rs:23. -/
def thresholdSquared : Nat := 10 ^ 16

/-- `calculate_gas_penalty`, evm/utils.rs:52-94. u64 inputs, u128 intermediate values with
wrap-around; natural subtraction models `saturating_sub` (and the guarded `-`). The final
`try_into` falls back to the unused gas. -/
def calculateGasPenalty (gasLimit gasUsed : Nat) : Nat :=
  if gasLimit ≤ minGasLimitThreshold then 0
  else
    let ratio := mul128 precision gasUsed / gasLimit
    if threshold ≤ ratio then 0
    else
      let unused := gasLimit - gasUsed
      let ineff := threshold - ratio
      let sq := mul128 ineff ineff
      let penalty := mul128 sq unused / thresholdSquared
      if penalty < u64 then penalty else unused

/-- The parts of a transaction's environment and result that the two fee hooks read. `gasPrice` is the
legacy price or maximum fee; `priority` is `max_priority_fee_per_gas` (`none` for legacy). -/
structure Tx where
  caller : Nat
  gasLimit : Nat
  gasPrice : Nat
  priority : Option Nat
  basefee : Nat
  beneficiary : Nat
  basefeeAddr : Nat
  systemAddr : Nat
  /-- `gas.spent()` -/
  gasSpent : Nat
  /-- `gas.refunded()` -/
  refunded : Nat
deriving DecidableEq, Repr

/-- revm's `Transaction::effective_gas_price(base_fee)`: the legacy price, or
`min(max_fee, base_fee + priority)` (saturating). External dependency, modelled from its
documented behaviour. -/
def Tx.effectivePrice (t : Tx) : Nat :=
  match t.priority with
  | none => t.gasPrice
  | some p => min t.gasPrice (min (t.basefee + p) (u128 - 1))

/-- `gas.spent_sub_refunded()`: saturating. -/
def Tx.gasUsed (t : Tx) : Nat := t.gasSpent - t.refunded

/-- Account balances. -/
abbrev Balances := Nat → Nat

/-- revm's `incr_balance`: checked addition on U256, leaving the balance alone on overflow. -/
def incrBalance (b : Balances) (a : Nat) (x : Nat) : Balances :=
  fun y => if y = a then (if b a + x < u256 then b a + x else b a) else b y

/-- revm's upfront charge of `gas_limit * effective_gas_price` before execution (default
handler, not overridden). `none`: the transaction is rejected for lack of funds. -/
def chargeUpfront (b : Balances) (t : Tx) : Option Balances :=
  let cost := satMul128 t.effectivePrice t.gasLimit
  if b t.caller < cost then none
  else some (fun y => if y = t.caller then b t.caller - cost else b y)

/-- `TNEvmHandler::reimburse_caller`, evm/handler.rs:95-152. -/
def reimburseCaller (b : Balances) (t : Tx) : Balances :=
  if t.caller = t.systemAddr then b
  else
    let penaltyGas := calculateGasPenalty t.gasLimit t.gasSpent
    let unused := t.gasLimit - t.gasUsed
    let refundAmount := unused - penaltyGas
    let b := if 0 < refundAmount then
      incrBalance b t.caller (satMul128 t.effectivePrice refundAmount) else b
    if 0 < penaltyGas then
      incrBalance b t.basefeeAddr (satMul128 t.effectivePrice penaltyGas) else b

/-- `TNEvmHandler::reward_beneficiary`, evm/handler.rs:155-188. -/
def rewardBeneficiary (b : Balances) (t : Tx) : Balances :=
  if t.caller = t.systemAddr then b
  else
    let coinbasePrice := t.effectivePrice - t.basefee
    let b := incrBalance b t.beneficiary (satMul128 coinbasePrice t.gasUsed)
    incrBalance b t.basefeeAddr (satMul128 t.basefee t.gasUsed)

/-- The fee side of one transaction whose execution itself moves no tokens: upfront charge,
reimbursement, reward, in revm's order. -/
def settle (b : Balances) (t : Tx) : Option Balances :=
  (chargeUpfront b t).map (fun b => rewardBeneficiary (reimburseCaller b t) t)

/-! ### Base fee -/

/-- `MIN_PROTOCOL_BASE_FEE` (alloy): 7. -/
def minProtocolBaseFee : Nat := 7
/-- `SAFE_MAX_BASE_FEE`, gas_accumulator.rs:446. -/
def safeMaxBaseFee : Nat := (u64 - 1) - (u64 - 1) / 8

/-- alloy's `calc_next_block_base_fee` with `BaseFeeParams::ethereum()` (elasticity 2, denominator 8):
the addition in the increase arm is an unchecked u64 addition, the decrease saturates. External
dependency, modelled from its source as described in gas_accumulator.rs:430-470. -/
def calcNextBlockBaseFee (gasUsed gasLimit baseFee : Nat) : Nat :=
  let target := gasLimit / 2
  if gasUsed = target then baseFee
  else if target < gasUsed then
    add64 baseFee (max 1 (mul128 baseFee (gasUsed - target) / mul128 target 8) % u64)
  else baseFee - (mul128 baseFee (target - gasUsed) / mul128 target 8) % u64

/-- `compute_next_base_fee_eip1559`, gas_accumulator.rs:470-481. -/
def computeNextBaseFeeEip1559 (current gasUsed target : Nat) : Nat :=
  if target = 0 then max current minProtocolBaseFee
  else
    let gasLimit := satMul64 target 2
    let gasUsed := min gasUsed gasLimit
    let current := min current safeMaxBaseFee
    max (calcNextBlockBaseFee gasUsed gasLimit current) minProtocolBaseFee

/-- `WorkerFeeConfig`, gas_accumulator.rs:78-84. -/
inductive FeeConfig where
  | eip1559 (target : Nat)
  | static (fee : Nat)
deriving DecidableEq, Repr

/-- `next_base_fee_for_config`, gas_accumulator.rs:497-508. -/
def nextBaseFee (cfg : FeeConfig) (current gasUsed : Nat) : Nat :=
  match cfg with
  | .eip1559 target => computeNextBaseFeeEip1559 current gasUsed target
  | .static fee => fee

/-- `entry_fee_for_worker`, gas_accumulator.rs:562-577; `data` is the uint184 word. `none` is the
error that halts the node. -/
def entryFee (cfg : FeeConfig) (data : Nat) : Option Nat :=
  match cfg with
  | .static fee => some fee
  | .eip1559 _ => if data < u64 then some (max data minProtocolBaseFee) else none

/-! ### Gas accumulator -/

/-- One worker slot: `GasTotals` and the base fee, gas_accumulator.rs:249-280. -/
structure Slot where
  blocks : Nat := 0
  gasUsed : Nat := 0
  gasLimit : Nat := 0
  fee : Nat := minProtocolBaseFee
deriving DecidableEq, Repr

/-- `GasAccumulator`'s slot vector, gas_accumulator.rs:301-311. -/
abbrev Slots := List Slot

/-- `GasAccumulator::inc_block`, gas_accumulator.rs:345-364. `none` is the panic on an out-of-range
worker. u64 additions as in a release build. -/
def incBlock (s : Slots) (w gasUsed gasLimit : Nat) : Option Slots :=
  if gasUsed = 0 then some s
  else match s[w]? with
    | none => none
    | some sl => some (s.set w { sl with blocks := add64 sl.blocks 1
                                         gasUsed := add64 sl.gasUsed gasUsed
                                         gasLimit := add64 sl.gasLimit gasLimit })

/-- `GasAccumulator::clear` (slot part), gas_accumulator.rs:367-375. -/
def clearSlots (s : Slots) : Slots :=
  s.map (fun sl => { sl with blocks := 0, gasUsed := 0, gasLimit := 0 })

/-- `GasAccumulator::set_num_workers`, gas_accumulator.rs:428-440: grow with defaults or truncate. -/
def setNumWorkers (s : Slots) (n : Nat) : Slots :=
  let n := max n 1
  (s.take n) ++ List.replicate (n - s.length) ({} : Slot)

/-- `batch_index << 16 | worker_id`, the `difficulty` the engine stamps on a block
(`crates/engine/src/payload_builder.rs`); the worker id is a u16 so `|` is `+`. -/
def blockDifficulty (batchIndex worker : Nat) : Nat := batchIndex * 2 ^ 16 + worker

/-- `worker_id_from_header`, gas_accumulator.rs:109-111: lowest 64-bit limb, masked with 0xffff. -/
def workerIdFromDifficulty (d : Nat) : Nat := (d % u64) % 2 ^ 16

/-- A row of `WorkerConfigs`: strategy and data word, gas_accumulator.rs:130-136. -/
structure Row where
  cfg : FeeConfig
  data : Nat
deriving DecidableEq, Repr

/-- The current fee and gas of a worker, or a fresh slot's values when governance added the worker
mid-epoch; `crates/tn-reth/src/evm/block.rs:507-515`. -/
def feeAndGas (s : Slots) (w : Nat) : Nat × Nat :=
  match s[w]? with
  | some sl => (sl.fee, sl.gasUsed)
  | none => (minProtocolBaseFee, 0)

/-- `record_next_epoch_base_fees`, `crates/tn-reth/src/evm/block.rs:483-550`: for every EIP-1559 row
the next fee from the accumulator's slot (or a fresh slot's values when the worker is new), with
this block's own gas added (saturating) for the block's own worker, is written to the row's data
word; static rows are left alone. The system call that stores the words is modelled as the
update itself. -/
def recordFees (rows : List Row) (s : Slots) (ownWorker ownGas : Nat) : List Row :=
  rows.mapIdx (fun w row =>
    match row.cfg with
    | .static _ => row
    | .eip1559 _ =>
      let cur := feeAndGas s w
      let gas := if w = ownWorker then min (cur.2 + ownGas) (u64 - 1) else cur.2
      { row with data := nextBaseFee row.cfg cur.1 gas })

/-- `apply_close_time_fee_updates` (success arm), `crates/node/src/manager/node/run_epoch.rs:832-862`:
resize to the number of rows, then set each worker's fee from its row's strategy and its own
slot. -/
def closeTimeUpdate (rows : List Row) (s : Slots) : Slots :=
  (setNumWorkers s rows.length).mapIdx (fun w sl =>
    match rows[w]? with
    | none => sl
    | some row => { sl with fee := nextBaseFee row.cfg sl.fee sl.gasUsed })

/-- `read_base_fees_for_entered_epoch` (row interpretation) and `EpochBaseFees`,
`crates/node/src/manager/node.rs:433-528`: one fee per row, `none` if a row is unreadable or there
is no row at all. -/
def readEntryFees (rows : List Row) : Option (List Nat) :=
  if rows.length = 0 then none else rows.mapM (fun r => entryFee r.cfg r.data)

/-- `EpochBaseFees::apply`, `crates/node/src/manager/node.rs:384-389`. -/
def applyEntryFees (fees : List Nat) (s : Slots) : Slots :=
  (setNumWorkers s fees.length).mapIdx (fun w sl =>
    match fees[w]? with
    | none => sl
    | some f => { sl with fee := f })

/-- The block facts `catchup_accumulator` reads from a stored header. -/
structure ExecBlock where
  difficulty : Nat
  gasUsed : Nat
  gasLimit : Nat
deriving DecidableEq, Repr

/-- The scan of `catchup_accumulator`, `crates/node/src/manager/node.rs:253-292`: reject if a worker id
is out of range, then fold `inc_block`. -/
def catchup (s : Slots) (blocks : List ExecBlock) : Option Slots :=
  if blocks.any (fun b => decide (s.length ≤ workerIdFromDifficulty b.difficulty)) then none
  else blocks.foldlM (fun s b => incBlock s (workerIdFromDifficulty b.difficulty) b.gasUsed b.gasLimit) s

end Verif.Gas
