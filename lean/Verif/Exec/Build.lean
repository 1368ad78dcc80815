import Verif.Exec.Output
import Verif.Gas.RewardsModel
import Verif.Codec.Signed
/-
Model of the execution of one consensus output:
`crates/engine/src/payload_builder.rs` (`execute_consensus_output`, `execute_payload`,
`persist_output_with_retry`, `rollback_in_memory_output`), `crates/tn-reth/src/payload.rs`
(`TNPayload::new`), `crates/tn-reth/src/evm/config.rs` (`next_evm_env`, `context_for_block`,
`context_for_next_block`), `crates/tn-reth/src/evm/block.rs` (`assemble_block`,
`apply_pre_execution_changes`, `finish`) and `crates/tn-reth/src/env/execution.rs`
(`build_block_from_batch_payload`, `persist_executed_output`, `announce_executed_output`).

The EVM itself is a parameter (`Evm`): what a transaction or a system call does to the state is not
modelled, only which of them run, in which order, in which environment, and what happens when they fail.
-/
namespace Verif
namespace Exec
open Bull Codec

/-- `ExecHeader`. The state, transaction, receipt and withdrawal roots and the bloom are one opaque
number (`roots`); blob and request fields are constants. -/
structure XHeader where
  number : Nat
  parentHash : Nat
  ommersHash : Nat
  beneficiary : Nat
  timestamp : Nat
  mixHash : Nat
  nonce : Nat
  baseFee : Nat
  gasLimit : Nat
  difficulty : Nat
  gasUsed : Nat
  beaconRoot : Option Nat
  extraData : Bytes
  roots : Nat
deriving DecidableEq

/-- `TNPayload`, payload.rs:29-83. `closeEpoch` carries the committee shuffle seed. -/
structure Payload where
  parent : XHeader
  beneficiary : Nat
  nonce : Nat
  batchIndex : Nat
  timestamp : Nat
  batchDigest : Nat
  consensusDigest : Nat
  baseFee : Nat
  gasLimit : Nat
  mixHash : Nat
  closeEpoch : Option Nat
  workerId : Nat
deriving DecidableEq

/-- `Header::nonce`, crates/types/src/primary/header.rs:213-215. Epoch and round are u32, so the bitwise
or is a sum. -/
def packNonce (epoch round : Nat) : Nat := epoch * 2 ^ 32 + round

/-- `deconstruct_nonce`, crates/types/src/helpers.rs:284-288. -/
def unpackNonce (n : Nat) : Nat × Nat := (n / 2 ^ 32 % 2 ^ 32, n % 2 ^ 32)

/-- `ConsensusOutput::nonce`, output.rs:179-181. -/
def Output.nonce (o : Output) : Nat :=
  match o.subDag.leader? with
  | some h => packNonce h.epoch h.round
  | none => 0

/-- `TNPayload::new`, payload.rs:88-124. -/
def mkPayload (parent : XHeader) (beneficiary index digest : Nat) (o : Output) (baseFee gasLimit mix worker : Nat) :
    Payload :=
  { parent := parent, beneficiary := beneficiary, nonce := o.nonce, batchIndex := index
    timestamp := o.subDag.commitTimestamp, batchDigest := digest, consensusDigest := o.hash
    baseFee := baseFee, gasLimit := gasLimit, mixHash := mix
    closeEpoch := if o.closesAt index then some o.subDag.randomness else none
    workerId := worker }

/-- `BlockEnv` of `next_evm_env`, config.rs:186-198 (the fields that vary). -/
structure BEnv where
  number : Nat
  beneficiary : Nat
  timestamp : Nat
  prevrandao : Nat
  gasLimit : Nat
  basefee : Nat
deriving DecidableEq

/-- `TNBlockExecutionCtx`, block.rs:150-190. -/
structure Ctx where
  parentHash : Nat
  beaconRoot : Option Nat
  nonce : Nat
  ommersHash : Nat
  closeEpoch : Option Nat
  difficulty : Nat
deriving DecidableEq

/-- Result of one transaction: executed, invalid (nonce, balance, ... : skipped) or a fatal error. -/
inductive TxRes (S : Type)
  | ok (s : S) | invalid | fatal

/-- The execution layer under the engine. `recover`: decoding and signer recovery of a transaction;
`start`: the state at the beginning of a block; `beaconCall` (EIP-4788), `blockhashCall` (EIP-2935),
`tx` and `close` (the epoch closing calls, which read the gas accumulator) act on the state; `gasUsed`
and `roots` read the finished state; `hash` is the header hash. -/
structure Evm (S : Type) where
  hash : XHeader → Nat
  recover : List Nat → Option Nat
  start : S → S
  beaconCall : S → BEnv → Ctx → Option S
  blockhashCall : S → BEnv → Ctx → Option S
  tx : S → BEnv → Nat → TxRes S
  close : S → BEnv → Ctx → Nat → Gas.Accounting → Option S
  gasUsed : S → Nat
  roots : S → Nat

/-- A built block with the state after it. -/
structure Block (S : Type) where
  header : XHeader
  state : S

/-- `next_evm_env`, config.rs:164-203. -/
def envOf (p : Payload) : BEnv :=
  { number := p.parent.number + 1, beneficiary := p.beneficiary, timestamp := p.timestamp
    prevrandao := p.mixHash, gasLimit := p.gasLimit, basefee := p.baseFee }

/-- `context_for_next_block`, config.rs:240-256. -/
def ctxOf {S : Type} (E : Evm S) (p : Payload) : Ctx :=
  { parentHash := E.hash p.parent, beaconRoot := some p.consensusDigest, nonce := p.nonce
    ommersHash := p.batchDigest, closeEpoch := p.closeEpoch
    difficulty := Gas.blockDifficulty p.batchIndex p.workerId }

/-- `first_batch`, block.rs:220-222. -/
def Ctx.firstBatch (c : Ctx) : Bool := decide (c.difficulty < 65536)

/-- `apply_pre_execution_changes`, block.rs:1268-1284. -/
def preExec {S : Type} (E : Evm S) (s : S) (env : BEnv) (c : Ctx) : Option S :=
  match (if c.firstBatch then E.beaconCall s env c else some s) with
  | none => none
  | some s => E.blockhashCall s env c

/-- Phase 2 of `build_block_from_batch_payload`, execution.rs:160-180. -/
def runTxs {S : Type} (E : Evm S) (env : BEnv) : S → List Nat → Option S
  | s, [] => some s
  | s, t :: ts =>
    match E.tx s env t with
    | .ok s' => runTxs E env s' ts
    | .invalid => runTxs E env s ts
    | .fatal => none

/-- The closing part of `finish`, block.rs:1286-1345. -/
def finish {S : Type} (E : Evm S) (acc : Gas.Accounting) (s : S) (env : BEnv) (c : Ctx) : Option S :=
  match c.closeEpoch with
  | none => some s
  | some seed => E.close s env c seed acc

/-- `extra_data` of `assemble_block`, block.rs:1497. -/
def extraOf : Option Nat → Bytes
  | none => []
  | some seed => beBytes 32 seed

/-- `assemble_block`, block.rs:1468-1535. -/
def assembleHeader {S : Type} (E : Evm S) (env : BEnv) (c : Ctx) (s : S) : XHeader :=
  { number := env.number, parentHash := c.parentHash, ommersHash := c.ommersHash
    beneficiary := env.beneficiary, timestamp := env.timestamp, mixHash := env.prevrandao
    nonce := c.nonce, baseFee := env.basefee, gasLimit := env.gasLimit, difficulty := c.difficulty
    gasUsed := E.gasUsed s, beaconRoot := c.beaconRoot, extraData := extraOf c.closeEpoch
    roots := E.roots s }

/-- `build_block_from_batch_payload`, execution.rs:84-201, on the parent's state. Transactions whose
signer cannot be recovered are dropped first. -/
def buildBlock {S : Type} (E : Evm S) (acc : Gas.Accounting) (parentState : S) (p : Payload)
    (txs : List (List Nat)) : Option (Block S) :=
  match preExec E (E.start parentState) (envOf p) (ctxOf E p) with
  | none => none
  | some s =>
    match runTxs E (envOf p) s (txs.filterMap E.recover) with
    | none => none
    | some s =>
      match finish E acc s (envOf p) (ctxOf E p) with
      | none => none
      | some s => some ⟨assembleHeader E (envOf p) (ctxOf E p) s, s⟩

/-- Errors of `execute_consensus_output`. `panicked` is the panic in `inc_block` on an unknown worker. -/
inductive EngErr
  | uneven | digestMissing | unknownAuthority | build | persist | announce | channelClosed | panicked
deriving DecidableEq, Repr

/-- Outcome of one `persist_executed_output`. -/
inductive PersistRes
  | ok | retryable | terminal
deriving DecidableEq, Repr

/-- Faults of the node's environment during one output: a provider error while building the block with
this index; the outcome of each persist attempt; a closed update channel. -/
structure Faults where
  build : Nat → Bool := fun _ => false
  persist : Nat → PersistRes := fun _ => .ok
  announce : Bool := false

/-- The part of the node's state that execution reads and writes. `durable`: the chain in the database,
oldest first; `mem`: blocks of the in-memory chain not yet in the database; `head`: canonical head
served to RPC; `updates`: the engine updates sent to consensus. -/
structure Eng (S : Type) where
  durable : List (Block S)
  mem : List (Block S) := []
  head : XHeader
  acc : Gas.Accounting
  updates : List (Nat × Nat × Nat × Option XHeader) := []

/-- `state_by_block_hash(parent.hash())`, execution.rs:93-95: newest block first. -/
def Eng.stateAt {S : Type} (E : Evm S) (s : Eng S) (h : XHeader) : Option S :=
  ((s.durable ++ s.mem).reverse.find? (fun b => E.hash b.header == E.hash h)).map (·.state)

/-- `rollback_in_memory_output`, payload_builder.rs:424-432: the last `n` in-memory blocks (those this
output advanced) are removed and the head is reset to the anchor. -/
def Eng.rollback {S : Type} (s : Eng S) (anchor : XHeader) (n : Nat) : Eng S :=
  { s with mem := s.mem.take (s.mem.length - n), head := anchor }

/-- `execute_payload`, payload_builder.rs:289-323. -/
def executePayload {S : Type} (E : Evm S) (F : Faults) (s : Eng S) (i : Nat) (p : Payload)
    (txs : List (List Nat)) : Option (Block S) :=
  if F.build i then none
  else match s.stateAt E p.parent with
    | none => none
    | some st => buildBlock E s.acc st p txs

/-- The in-memory advance of `execute_payload`, payload_builder.rs:313-320. -/
def Eng.push {S : Type} (s : Eng S) (b : Block S) : Eng S :=
  { s with mem := s.mem ++ [b], head := b.header }

/-- `max_batch_gas`, sealed_batch.rs:197-199. -/
def maxBatchGas (_epoch : Nat) : Nat := 30000000

/-- The payload of batch `i`, payload_builder.rs:186-212. -/
def batchPayload (o : Output) (parent : XHeader) (i digest : Nat) (addr : Nat) (b : Batch) : Payload :=
  mkPayload parent addr i digest o b.baseFee (maxBatchGas 0) (o.hash ^^^ digest) b.workerId

/-- The loop over the batches, payload_builder.rs:181-248. `i` blocks of the output have been built so
far, `h` is the header of the last one. -/
def runBatches {S : Type} (E : Evm S) (F : Faults) (o : Output) (anchor : XHeader) :
    List (Nat × Batch) → Nat → Eng S → XHeader → Eng S × Except EngErr XHeader
  | [], _, s, h => (s, .ok h)
  | (addr, b) :: rest, i, s, h =>
    match o.digests[i]? with
    | none => (s, .error .digestMissing)
    | some d =>
      match executePayload E F s i (batchPayload o h i d addr b) b.txs with
      | none => (s.rollback anchor i, .error .build)
      | some blk =>
        match Gas.incBlock s.acc.slots b.workerId blk.header.gasUsed blk.header.gasLimit with
        | none => (s.push blk, .error .panicked)
        | some sl =>
          runBatches E F o anchor rest (i + 1)
            { s.push blk with acc := { s.acc with slots := sl } } blk.header

/-- `persist_output_with_retry`, payload_builder.rs:356-376: attempts 1 and 2 are repeated on a
retryable fault, attempt 3 is final. -/
def persistWithRetry (F : Faults) : Bool :=
  match F.persist 1 with
  | .ok => true
  | .terminal => false
  | .retryable =>
    match F.persist 2 with
    | .ok => true
    | .terminal => false
    | .retryable => F.persist 3 == .ok

/-- The durable commit, announcement and finalisation, payload_builder.rs:260-283, of the `n` blocks
the output advanced in memory. -/
def commitOutput {S : Type} (F : Faults) (o : Output) (anchor : XHeader) (n : Nat) (s : Eng S)
    (h : XHeader) : Eng S × Except EngErr XHeader :=
  if persistWithRetry F then
    let s1 := { s with durable := s.durable ++ s.mem.drop (s.mem.length - n) }
    if F.announce then (s1, .error .announce)
    else ({ s1 with mem := [], updates := s1.updates ++
        [(o.subDag.leaderRound, o.number, o.hash, some h)] }, .ok h)
  else (s.rollback anchor n, .error .persist)

/-- `execute_consensus_output`, payload_builder.rs:24-285. `addrOf` is
`gas_accumulator.get_authority_address`; `tolerant`: the `adiri` exemption for early epochs. `author`
0 stands for the unreachable sub-dag without leader. -/
def executeOutput {S : Type} (E : Evm S) (addrOf : Nat → Option Nat) (tolerant : Bool) (F : Faults)
    (s0 : Eng S) (parent : XHeader) (o : Output) : Eng S × Except EngErr XHeader :=
  let leader := (o.subDag.leader?.map (·.author)).getD 0
  let s := { s0 with acc := { s0.acc with leaders := Gas.incLeader s0.acc.leaders leader } }
  if o.flat.length ≠ o.digests.length ∧ tolerant = false then (s, .error .uneven)
  else if o.flat = [] then
    if o.closeEpoch = false then
      if F.announce then (s, .error .channelClosed)
      else ({ s with updates := s.updates ++ [(o.subDag.leaderRound, o.number, o.hash, none)] },
        .ok parent)
    else
      match addrOf leader with
      | none => (s, .error .unknownAuthority)
      | some a =>
        match executePayload E F s 0
            (mkPayload parent a 0 0 o parent.baseFee parent.gasLimit o.hash 0) [] with
        | none => (s.rollback parent 0, .error .build)
        | some blk => commitOutput F o parent 1 (s.push blk) blk.header
  else
    match runBatches E F o parent o.flat 0 s parent with
    | (s', .error e) => (s', .error e)
    | (s', .ok h) => commitOutput F o parent o.flat.length s' h

/-- `context_for_block`, config.rs:205-238: the context with which a stored block is executed again.
`none`: malformed `extra_data`. -/
def ctxOfBlock (h : XHeader) : Option Ctx :=
  let mk := fun ce => some ({ parentHash := h.parentHash, beaconRoot := h.beaconRoot, nonce := h.nonce
                              ommersHash := h.ommersHash, closeEpoch := ce, difficulty := h.difficulty } : Ctx)
  if h.extraData.length = 0 then mk none
  else if h.extraData.length = 32 then
    mk (some (leNat h.extraData.reverse))
  else none

end Exec
end Verif
