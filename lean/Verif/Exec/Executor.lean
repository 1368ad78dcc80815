import Verif.Exec.Build
import Verif.Epoch.Shuffle
/-
Model of the block executor `TNBlockExecutor`, `crates/tn-reth/src/evm/block.rs` 234-1440: the two pre-block calls, the
transactions with their gas accounting and receipts, the epoch closing calls, and the in-protocol contract forks of the
`adiri` build. It fills in the abstract execution layer `Exec.Evm` of `Exec/Build.lean`, so that what is proved there
about blocks and outputs holds for this executor.

The interpreter itself (revm, the contracts' code) stays a parameter, `Vm`: what a call or a transaction returns and
which accounts it changes, as a function of the world state and the block environment.
-/
namespace Verif
namespace Blk
open Exec

/-- An account. `storage` maps slots to words; an absent account is the default one. -/
structure Acct where
  balance : Nat := 0
  nonce : Nat := 0
  codeHash : Nat := 0
  storage : Nat → Nat := fun _ => 0

/-- The world state (`State<DB>`). -/
abbrev World := Nat → Acct

/-- `EvmState`: the touched accounts with their values afterwards. -/
abbrev Changes := List (Nat × Acct)

/-- The value a change set gives to an account. -/
def Changes.find (cs : Changes) (a : Nat) : Option Acct :=
  match cs with
  | [] => none
  | c :: rest => if c.1 = a then some c.2 else Changes.find rest a

/-- `db_mut().commit(state)`. -/
def commit (w : World) (cs : Changes) : World := fun a => (cs.find a).getD (w a)

/-- `SYSTEM_ADDRESS`, `crates/tn-reth/src/system_calls.rs`; `BEACON_ROOTS_ADDRESS`, `HISTORY_STORAGE_ADDRESS` (alloy);
`CONSENSUS_REGISTRY_ADDRESS`, `WORKER_CONFIGS_ADDRESS`. Only that they differ matters. -/
def systemAddr : Nat := 0xfffffffffffffffffffffffffffffffffffffffe
def beaconRootsAddr : Nat := 0x000F3df6D732807Ef1319fB7B8bB8522d0Beac02
def historyAddr : Nat := 0x0000F90827F1C53a10cb7A02335B175320002935
def registryAddr : Nat := 0x07E17e17E17e17E17e17E17E17E17e17e17E17e1
def workerConfigsAddr : Nat := 0xFee0FEe0fee0fEE0FEe0fee0FEE0fEe0feE0FEe0

/-- The calls the executor makes, by selector and arguments. -/
inductive Call where
  | beaconRoot (root : Nat)
  | parentHash (hash : Nat)
  | incentives (rewards : List (Nat × Nat))
  | slashes (slashes : List (Nat × Nat))
  | conclude (committee : List Nat)
  | setFees (fees : List (Nat × Nat))
  | migrate
  | nextSize
  | validatorsInfo (s : Shuffle.Status)
  | validatorsLegacy
  | allConfigs
  | eligibleCount
deriving DecidableEq

/-- What a read returns, decoded; `other` does not decode as what the caller expects. -/
inductive Ret where
  | size (n : Nat)
  | vals (l : List Shuffle.Val)
  | configs (rows : List Gas.Row)
  | other
deriving DecidableEq

/-- `ExecutionResult`. -/
inductive Out where
  | success (r : Ret)
  | revert
  | halt
deriving DecidableEq

/-- Result of one transaction of the interpreter: refused by validation (`InvalidTx`), another error, or executed
(successfully or reverted) with the gas used. -/
inductive TxOut where
  | invalid
  | error
  | done (gas : Nat) (success : Bool) (cs : Changes)

/-- The interpreter and the primitives. `sys`: `transact_system_call(SYSTEM_ADDRESS, contract, data)`; `none` is an
error of the call itself. `draws`: the stream of `StdRng::from_seed`. -/
structure Vm where
  sys : World → BEnv → Nat → Call → Option (Out × Changes)
  tx : World → BEnv → Nat → TxOut
  gasLimit : Nat → Nat
  recover : List Nat → Option Nat
  draws : Nat → List Nat
  hash : XHeader → Nat
  root : World → List (Nat × Bool) → Nat

/-- The fork constants of the `adiri` build, `crates/types/src/forks.rs`. -/
structure Fork where
  epoch : Nat
  registryPre : Nat
  registryPost : Nat
  configsPre : Nat
  configsPost : Nat
deriving DecidableEq

/-- The constants at the pinned commit, forks.rs:22-66 and `CONSENSUS_REGISTRY_FORK_EPOCH`. -/
def adiri : Fork :=
  { epoch := 407
    registryPre := 0x5318ebc5cd8123cfb0808fac0f3c0b95ed6f45f67c0853fea0766b52035fea53
    registryPost := 0xbd1ade0e07b6827794e1e0cb181e756ff3b6916535c81941b634cd783a9cd8ce
    configsPre := 0x5e8a93f4eb1b5d645f32e5b8615463a996aaf4d8af2a90a444378a2d4b4b3bf2
    configsPost := 0x58304c00bbfaa7e348220efb95843614756207311245abc4949f91bb3ddb2ff7 }

/-- The build and chain: when Cancun and Prague are active; the forks, in an `adiri` build; the committee the rewards
counter maps leaders to addresses with. -/
structure Chain where
  cancun : Nat → Bool
  prague : Nat → Bool
  fork : Option Fork
  committee : Option Committee

/-- A receipt, as far as the executor decides it: gas used up to and including the transaction, and its success. -/
structure Receipt where
  cumulative : Nat
  success : Bool
deriving DecidableEq

/-- The executor's state: the world, `gas_used`, `receipts` and (as the list of calls instead of their gas)
`epoch_close_gas`, block.rs:234-256. -/
structure St where
  world : World
  gasUsed : Nat := 0
  receipts : List Receipt := []
  closeCalls : List Call := []

/-- `State` at the start of a block: `TNBlockExecutor::new`, block.rs:272-282. -/
def St.start (s : St) : St := { world := s.world }

/-- `res.state.retain(|addr, _| *addr == a)`. -/
def Changes.retain (cs : Changes) (a : Nat) : Changes := cs.filter (fun c => c.1 == a)

/-- `res.state.remove(&a)`. -/
def Changes.remove (cs : Changes) (a : Nat) : Changes := cs.filter (fun c => !(c.1 == a))

/-- `apply_consensus_root_contract_call`, block.rs:1136-1190. The outcome of the call is not looked at. -/
def beaconCall (vm : Vm) (ch : Chain) (s : St) (env : BEnv) (c : Ctx) : Option St :=
  if ch.cancun env.timestamp = false then some s
  else match c.beaconRoot with
    | none => none
    | some r =>
      if env.number = 0 then (if r = 0 then some s else none)
      else match vm.sys s.world env beaconRootsAddr (.beaconRoot r) with
        | none => none
        | some (_, cs) => some { s with world := commit s.world (cs.retain beaconRootsAddr) }

/-- `apply_blockhashes_contract_call`, block.rs:1193-1235. -/
def blockhashCall (vm : Vm) (ch : Chain) (s : St) (env : BEnv) (c : Ctx) : Option St :=
  if ch.prague env.timestamp = false then some s
  else if env.number = 0 then some s
  else match vm.sys s.world env historyAddr (.parentHash c.parentHash) with
    | none => none
    | some (_, cs) => some { s with world := commit s.world (cs.retain historyAddr) }

/-- `execute_transaction_without_commit` and `commit_transaction`, block.rs:1380-1435. A transaction whose gas limit is
above what the block has left fails with `TransactionGasLimitMoreThanAvailableBlockGas`, which
`build_block_from_batch_payload` (execution.rs:160-180) does not skip: it is fatal. -/
def execTx (vm : Vm) (s : St) (env : BEnv) (t : Nat) : TxRes St :=
  if env.gasLimit - s.gasUsed < vm.gasLimit t then .fatal
  else match vm.tx s.world env t with
    | .invalid => .invalid
    | .error => .fatal
    | .done gas ok cs =>
      .ok { s with world := commit s.world cs
                   gasUsed := s.gasUsed + gas
                   receipts := s.receipts ++ [⟨s.gasUsed + gas, ok⟩] }

/-- `transact_and_commit_system_call`, block.rs:304-361. -/
def sysCall (vm : Vm) (s : St) (env : BEnv) (contract : Nat) (c : Call) : Option St :=
  match vm.sys s.world env contract c with
  | some (.success _, cs) =>
    some { s with world := commit s.world (cs.remove systemAddr), closeCalls := s.closeCalls ++ [c] }
  | _ => none

/-- `try_read_state_on_chain`, block.rs:1097-1118: nothing is committed. -/
def read (vm : Vm) (s : St) (env : BEnv) (contract : Nat) (c : Call) : Option Ret :=
  match vm.sys s.world env contract c with
  | some (.success r, _) => some r
  | _ => none

/-- `next_committee_size`, block.rs:1123-1133. -/
def nextSize (vm : Vm) (s : St) (env : BEnv) : Option Nat :=
  match read vm s env registryAddr .nextSize with
  | some (.size n) => some n
  | _ => none

/-- One `getValidatorsInfo` query, block.rs:1011-1021. -/
def infoOf (vm : Vm) (s : St) (env : BEnv) (st : Shuffle.Status) : Option (List Shuffle.Val) :=
  match read vm s env registryAddr (.validatorsInfo st) with
  | some (.vals l) => some l
  | _ => none

/-- `registry_code_is_pre_fork`, block.rs:1038-1053. Without the `adiri` feature there is no such gate. -/
def preFork (ch : Chain) (s : St) : Bool :=
  match ch.fork with
  | none => false
  | some f => (s.world registryAddr).codeHash == f.registryPre

/-- `read_committee_eligible_pool` and its legacy version, block.rs:992-1086. -/
def eligiblePool (vm : Vm) (ch : Chain) (s : St) (env : BEnv) : Option (List Shuffle.Val) :=
  if preFork ch s then
    match read vm s env registryAddr .validatorsLegacy with
    | some (.vals l) => some l
    | _ => none
  else
    match infoOf vm s env .active, infoOf vm s env .pendingActivation, infoOf vm s env .pendingExit with
    | some a, some b, some c => some (a ++ b ++ c)
    | _, _, _ => none

/-- `shuffle_new_committee` and the sort of its result, block.rs:936-982 and 575-577. -/
def newCommittee (vm : Vm) (ch : Chain) (s : St) (env : BEnv) (seed : Nat) : Option (List Nat) :=
  match nextSize vm s env, eligiblePool vm ch s env with
  | some n, some p =>
    match Shuffle.assemble n p (vm.draws seed) with
    | .ok c => some (c.insertionSort (· ≤ ·))
    | .error _ => none
  | _, _ => none

/-- The EIP-1559 rows of `record_next_epoch_base_fees`, block.rs:497-521, with the worker id of the first row. -/
def feesFrom (acc : Gas.Slots) (own ownGas : Nat) : Nat → List Gas.Row → List (Nat × Nat)
  | _, [] => []
  | w, r :: rs =>
    match r.cfg with
    | .static _ => feesFrom acc own ownGas (w + 1) rs
    | .eip1559 _ =>
      let cur := Gas.feeAndGas acc w
      let gas := if w = own then min (cur.2 + ownGas) (Gas.u64 - 1) else cur.2
      (w, Gas.nextBaseFee r.cfg cur.1 gas) :: feesFrom acc own ownGas (w + 1) rs

/-- `record_next_epoch_base_fees`, block.rs:483-550. -/
def recordFees (vm : Vm) (s : St) (env : BEnv) (c : Ctx) (acc : Gas.Accounting) : Option St :=
  match read vm s env workerConfigsAddr .allConfigs with
  | some (.configs rows) =>
    let fees := feesFrom acc.slots (Gas.workerIdFromDifficulty c.difficulty) s.gasUsed 0 rows
    if fees = [] then some s else sysCall vm s env workerConfigsAddr (.setFees fees)
  | _ => none

/-- `epoch_boundary_slashes` of a production build, block.rs:571-574. -/
def boundarySlashes : List (Nat × Nat) := []

/-- `apply_closing_epoch_contract_call` with its legacy version, block.rs:377-438 and 588-635. -/
def closingCalls (vm : Vm) (ch : Chain) (s : St) (env : BEnv) (c : Ctx) (seed : Nat) (acc : Gas.Accounting) :
    Option St :=
  let rewards := Gas.addressCounts ch.committee acc.leaders
  if preFork ch s then
    (sysCall vm s env registryAddr (.incentives rewards)).bind fun s1 =>
    (newCommittee vm ch s1 env seed).bind fun cm =>
    sysCall vm s1 env registryAddr (.conclude cm)
  else
    (sysCall vm s env registryAddr (.incentives rewards)).bind fun s1 =>
    (sysCall vm s1 env registryAddr (.slashes boundarySlashes)).bind fun s2 =>
    (newCommittee vm ch s2 env seed).bind fun cm =>
    (sysCall vm s2 env registryAddr (.conclude cm)).bind fun s3 =>
    recordFees vm s3 env c acc

/-- The commit of a code-only override: balance, nonce and storage are kept, block.rs:780-800 and 905-925. -/
def setCode (s : St) (a h : Nat) : St :=
  { s with world := commit s.world [(a, { s.world a with codeHash := h })] }

/-- `apply_consensus_registry_fork`, block.rs:724-846. The read of the eligible count at the end decides nothing. -/
def registryFork (vm : Vm) (f : Fork) (s : St) (env : BEnv) : Option St :=
  if (s.world registryAddr).codeHash ≠ f.registryPre then none
  else sysCall vm (setCode s registryAddr f.registryPost) env registryAddr .migrate

/-- `apply_worker_configs_fork`, block.rs:861-930. -/
def configsFork (f : Fork) (s : St) : Option St :=
  if (s.world workerConfigsAddr).codeHash ≠ f.configsPre then none
  else some (setCode s workerConfigsAddr f.configsPost)

/-- Whether this block concludes the epoch before the fork epoch, block.rs:1317-1319 (`checked_add` on u32). -/
def atFork (ch : Chain) (c : Ctx) : Option Fork :=
  match ch.fork with
  | none => none
  | some f =>
    let e := (unpackNonce c.nonce).1
    if e + 1 < 2 ^ 32 ∧ e + 1 = f.epoch then some f else none

/-- The closing part of `finish`, block.rs:1286-1355. -/
def close (vm : Vm) (ch : Chain) (s : St) (env : BEnv) (c : Ctx) (seed : Nat) (acc : Gas.Accounting) : Option St :=
  match atFork ch c with
  | none => closingCalls vm ch s env c seed acc
  | some f =>
    (registryFork vm f s env).bind fun s1 =>
    (configsFork f s1).bind fun s2 =>
    closingCalls vm ch s2 env c seed acc

/-- The executor as the execution layer of `Exec`. -/
def evm (vm : Vm) (ch : Chain) : Evm St :=
  { hash := vm.hash
    recover := vm.recover
    start := St.start
    beaconCall := beaconCall vm ch
    blockhashCall := blockhashCall vm ch
    tx := execTx vm
    close := close vm ch
    gasUsed := St.gasUsed
    roots := fun s => vm.root s.world (s.receipts.map (fun r => (r.cumulative, r.success))) }

end Blk
end Verif
