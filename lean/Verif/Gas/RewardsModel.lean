import Verif.Gas.Model
import Verif.Util.SMap
import Verif.Committee.Model
/-
Model of `RewardsCounter` (`crates/types/src/gas_accumulator.rs:138-218`), of the accounting side of
`execute_consensus_output` (`crates/engine/src/payload_builder.rs:24-285`) and of the restart
(`catchup_accumulator`, `count_leaders`, `replay_missed_consensus`).
-/
namespace Verif.Gas

/-- u32 range. -/
def u32 : Nat := 2 ^ 32

/-- `leader_counts: HashMap<AuthorityIdentifier, u32>` kept as a sorted association list. Functions that
iterate over the hash map are given the iteration order separately. -/
abbrev LeaderCounts := List (Nat × Nat)

/-- `RewardsCounter::inc_leader_count`, gas_accumulator.rs:148-155 (wrapping u32 addition). -/
def incLeader (m : LeaderCounts) (leader : Nat) : LeaderCounts :=
  match SMap.get? leader m with
  | some v => SMap.insert leader ((v + 1) % u32) m
  | none => SMap.insert leader 1 m

/-- `RewardsCounter::clear`, gas_accumulator.rs:158-161. -/
def clearLeaders (_ : LeaderCounts) : LeaderCounts := []

/-- One step of the loop of `get_address_counts`. -/
def addAddress (c : Committee) (r : List (Nat × Nat)) (kv : Nat × Nat) : List (Nat × Nat) :=
  match c.authority kv.1 with
  | none => r
  | some a =>
    match SMap.get? a.addr r with
    | some v => SMap.insert a.addr ((v + kv.2) % u32) r
    | none => SMap.insert a.addr kv.2 r

/-- `RewardsCounter::get_address_counts`, gas_accumulator.rs:171-190, for the iteration order `iter`
of the hash map. Without a committee the result is empty. -/
def addressCounts (c : Option Committee) (iter : LeaderCounts) : List (Nat × Nat) :=
  match c with
  | none => []
  | some c => iter.foldl (addAddress c) []

/-- A consensus output as the engine sees it: number, leader round, leader, and for each batch the
worker and the gas facts of the block it executes to. -/
structure EngineOutput where
  number : Nat
  round : Nat
  leader : Nat
  batches : List (Nat × Nat × Nat)
deriving DecidableEq, Repr

/-- A persisted block: consensus number (through `parent_beacon_block_root`), leader round (through the
nonce) and the scanned facts. -/
structure StoredBlock where
  number : Nat
  round : Nat
  block : ExecBlock
deriving DecidableEq, Repr

/-- The engine's accounting state. -/
structure Accounting where
  slots : Slots
  leaders : LeaderCounts
deriving DecidableEq, Repr

/-- The accounting part of `execute_consensus_output`, payload_builder.rs:24-248: count the leader, then
per batch `inc_block` with the built block's gas. `none`: the panic on an unknown worker. -/
def executeAccounting (a : Accounting) (o : EngineOutput) : Option Accounting :=
  (o.batches.foldlM (fun s b => incBlock s b.1 b.2.1 b.2.2) a.slots).map
    (fun s => { slots := s, leaders := incLeader a.leaders o.leader })

/-- Executing a list of outputs without interruption. -/
def executeAll (a : Accounting) (os : List EngineOutput) : Option Accounting :=
  os.foldlM executeAccounting a

/-- The blocks an output leaves on disk (payload_builder.rs:183-248): one per batch, the difficulty
packing batch index and worker id. An output without batches (and not closing the epoch) leaves
none. -/
def blocksOf (o : EngineOutput) : List StoredBlock :=
  o.batches.mapIdx (fun i b =>
    { number := o.number, round := o.round
      block := { difficulty := blockDifficulty i b.1, gasUsed := b.2.1, gasLimit := b.2.2 } })

/-- `ConsensusPack::count_leaders`, `crates/storage/src/consensus_pack.rs:1322-1349`: newest first, skipping
round 0 and rounds above the last executed one. -/
def countLeaders (stored : List EngineOutput) (lastRound : Nat) (m : LeaderCounts) : LeaderCounts :=
  stored.reverse.foldl (fun m o =>
    if o.round = 0 then m else if lastRound < o.round then m else incLeader m o.leader) m

/-- Restart of a node that has stored the epoch's outputs `stored` and persisted the blocks `chain`:
`catchup_accumulator` (`crates/node/src/manager/node.rs:203-286`) on the epoch's entry slots, then
`replay_missed_consensus` (`crates/node/src/manager/node/start_epoch.rs:80-122`) of the outputs with a
number above the last executed block's (`get_missing_consensus`,
`crates/state-sync/src/lib.rs:174-207`). The epoch's first output has a positive number, so "no block
yet in this epoch" replays everything. -/
def restart (entry : Slots) (chain : List StoredBlock) (stored : List EngineOutput) :
    Option Accounting := do
  let slots ← catchup entry (chain.map (·.block))
  let leaders := match chain.getLast? with
    | none => []
    | some b => if 0 < b.round then countLeaders stored b.round [] else []
  let lastNumber := (chain.getLast?.map (·.number)).getD 0
  executeAll { slots := slots, leaders := leaders }
    (stored.filter (fun o => decide (lastNumber < o.number)))

end Verif.Gas
