import Verif.Gas.Model
import Mathlib.Data.List.Basic

/-!
# Entering an epoch

The reads a node makes when it enters (or re-enters) an epoch: the epoch state pinned to the closing
block of the previous epoch, the committee, the epoch boundary, the base fees, the neighbouring
committees, and the start-up scan that rebuilds the gas statistics.

A *block* carries the registry state after its execution.  What the contracts do in between blocks is
described by `Normal` and `Close` (the contract source is not in the repository; its documented
behaviour is the assumption).
-/
namespace Verif.Entry
open Verif

/-- The scalars of `ConsensusRegistry::EpochInfo` that epoch entry uses
(`blockHeight`, `epochDuration`), `crates/tn-reth/src/system_calls.rs`. -/
structure Info where
  height : Nat
  duration : Nat
deriving DecidableEq, Repr

/-- The registry (and `WorkerConfigs`) storage after a block, as far as epoch entry reads it.
`vals e`/`keys e` are `getCommitteeValidators(e)` (addresses) and `getCommitteeBlsPubkeys(e)` (raw
bytes, abstracted to a number). -/
structure Reg where
  epoch : Nat
  info : Nat → Info
  vals : Nat → List Nat
  keys : Nat → List Nat
  rows : List Gas.Row

/-- A canonical block: its header fields used here and the registry after its execution. -/
structure Blk where
  number : Nat
  time : Nat
  nonceEpoch : Nat := 0
  nonceRound : Nat := 0
  exec : Gas.ExecBlock := ⟨0, 0, 0⟩
  reg : Reg

/-- `StateReadError`, `crates/tn-reth/src/error.rs`: a node-local fault, or a deterministic product of
the chain. -/
inductive Err where
  | provider
  | chainGlobal
deriving DecidableEq, Repr

/-- `CLOSE_READ_ATTEMPTS`, `crates/node/src/manager/node/run_epoch.rs:887`. -/
def closeReadAttempts : Nat := 3

/-- The loop of `retry_provider_faults`, run_epoch.rs:914-942, from attempt `i` with `left` further
attempts allowed: only a provider fault is retried.  The back-off sleep is not modelled. -/
def retryFrom {α : Type} (read : Nat → Except Err α) : Nat → Nat → Except Err α
  | i, 0 => read i
  | i, left + 1 =>
    match read i with
    | .error .provider => retryFrom read (i + 1) left
    | r => r

/-- `retry_provider_faults`. -/
def retry {α : Type} (read : Nat → Except Err α) : Except Err α :=
  retryFrom read 0 (closeReadAttempts - 1)

/-- `EpochState`, `crates/tn-reth/src/env/epoch.rs` / `types.rs`. -/
structure EpochState where
  epoch : Nat
  info : Info
  vals : List Nat
  keys : List Nat
  start : Nat
deriving DecidableEq, Repr

/-- `get_current_epoch_info_at_header`, epoch.rs:849-866.  `fault`: the state provider or the EVM's
database failed. -/
def infoAt (fault : Bool) (h : Blk) : Except Err (Nat × Info) :=
  if fault then .error .provider else .ok (h.reg.epoch, h.reg.info h.reg.epoch)

/-- `sealed_header_by_number(n)` / `header_by_number(n)`: an error and a missing header are both
provider faults for these callers (epoch.rs:262-274, 345-372). -/
def lookup (c : List Blk) (fault : Bool) (n : Nat) : Except Err Blk :=
  if fault then .error .provider
  else match c[n]? with
    | none => .error .provider
    | some b => .ok b

/-- The time stamp of the closing block of the previous epoch, epoch.rs:255-275: the held header is
reused when it is that block. -/
def startTime (c : List Blk) (lf : Bool) (h : Blk) (closing : Nat) : Except Err Nat :=
  if closing = h.number then .ok h.time
  else match lookup c lf closing with
    | .error e => .error e
    | .ok b => .ok b.time

/-- `epoch_state_at_header`, epoch.rs:231-296.  `rf`: fault of the pinned state; `lf`: fault of the
look-up of the closing header. -/
def epochStateAt (c : List Blk) (rf lf : Bool) (h : Blk) : Except Err EpochState :=
  match infoAt rf h with
  | .error e => .error e
  | .ok (epoch, info) =>
    match startTime c lf h (info.height - 1) with
    | .error e => .error e
    | .ok start => .ok ⟨epoch, info, h.reg.vals epoch, h.reg.keys epoch, start⟩

/-- The faults of one attempt of the epoch-start read. -/
structure Faults where
  tip : Bool := false
  pinLookup : Bool := false
  pinRead : Bool := false
  closing : Bool := false
deriving DecidableEq, Repr

/-- The pin of `epoch_state_at_epoch_start_from_tip`, epoch.rs:343-373. -/
def pinHeader (c : List Blk) (fault : Bool) (epoch : Nat) (info : Info) : Except Err Blk :=
  if epoch = 0 then lookup c fault 0
  else if info.height = 0 then .error .chainGlobal
  else lookup c fault (info.height - 1)

/-- `epoch_state_at_epoch_start_from_tip`, epoch.rs:339-405. -/
def epochStateAtStart (c : List Blk) (f : Faults) (tip : Blk) : Except Err (EpochState × Blk) :=
  match infoAt f.tip tip with
  | .error e => .error e
  | .ok (epoch, info) =>
    match pinHeader c f.pinLookup epoch info with
    | .error e => .error e
    | .ok pin =>
      match epochStateAt c f.pinRead f.closing pin with
      | .error e => .error e
      | .ok st => if st.epoch ≠ epoch then .error .chainGlobal else .ok (st, pin)

/-- Why the node halts instead of entering the epoch. -/
inductive Halt where
  | read (e : Err)
  | badKey
  | notPin
  | noWorkers
  | badRow
  | noEpochZeroRecord
deriving DecidableEq, Repr

/-- A committee: BLS key to execution address (`HashMap` then `CommitteeBuilder`). -/
abbrev Members := Nat → Option Nat

/-- The zip, decode and collect of `get_committee_with_epoch_start_info`, start_epoch.rs:168-176: the
longer list is cut, an undecodable key is an error, equal keys are merged (the last one stays). -/
def members (decode : Nat → Option Nat) (vals keys : List Nat) : Option Members :=
  ((vals.zip keys).mapM (fun p => (decode p.2).map (fun k => (k, p.1)))).map
    (fun l => l.foldl (fun m p => fun k => if k = p.1 then some p.2 else m k) (fun _ => none))

/-- `get_committee_with_epoch_start_info`, start_epoch.rs:150-190, together with
`create_committee_from_state` (338-369): the tip is sampled once; epoch 0's committee comes from the
node's committee file.  `CommitteeBuilder::build` and the bootstrap servers are not modelled here
(see `Verif.Committee`). -/
def committeeWithStart (decode : Nat → Option Nat) (file : Members) (c : List Blk)
    (fs : Nat → Faults) (tip : Blk) : Except Halt (Nat × Members × Info × Nat × Blk) :=
  match retry (fun i => epochStateAtStart c (fs i) tip) with
  | .error e => .error (.read e)
  | .ok (st, pin) =>
    match members decode st.vals st.keys with
    | none => .error .badKey
    | some m => .ok (st.epoch, (if st.epoch = 0 then file else m), st.info, st.start, pin)

/-- `read_base_fees_for_entered_epoch`, `crates/node/src/manager/node.rs:433-528`. -/
def readFees (gf ff : Nat → Bool) (entered : Nat) (closing : Blk) : Except Halt (List Nat) :=
  if entered = 0 then .error .notPin
  else match retry (fun i => infoAt (gf i) closing) with
    | .error e => .error (.read e)
    | .ok (epoch, info) =>
      if epoch ≠ entered ∨ info.height ≠ closing.number + 1 then .error .notPin
      else match retry (fun i => if ff i then .error Err.provider else .ok closing.reg.rows) with
        | .error e => .error (.read e)
        | .ok rows =>
          if rows.length = 0 then .error .noWorkers
          else match Gas.readEntryFees rows with
            | none => .error .badRow
            | some fees => .ok fees

/-- `sync_num_workers_from_chain`, node.rs:306-338.  The header look-up is not retried. -/
def syncNumWorkers (c : List Blk) (lf : Bool) (ff : Nat → Bool) (first : Nat) (s : Gas.Slots) :
    Except Halt Gas.Slots :=
  match lookup c lf (first - 1) with
  | .error e => .error (.read e)
  | .ok h =>
    match retry (fun i => if ff i then .error Err.provider else .ok h.reg.rows) with
    | .error e => .error (.read e)
    | .ok rows => .ok (Gas.setNumWorkers s rows.length)

/-- The faults the reads of one entry meet. -/
structure Sched where
  state : Nat → Faults
  guard : Nat → Bool
  fees : Nat → Bool
  count : Bool
  neigh : Nat → Bool

/-- What an entry leaves the node with. -/
structure Entered where
  epoch : Nat
  committee : Members
  boundary : Nat
  pin : Nat
  slots : Gas.Slots
  previous : List Nat
  next : List Nat

/-- The fee part of the entry, run_epoch.rs:222-241. -/
def entryFees (c : List Blk) (sc : Sched) (epoch : Nat) (info : Info) (pin : Blk) (s : Gas.Slots) :
    Except Halt Gas.Slots :=
  if epoch = 0 then syncNumWorkers c sc.count sc.fees info.height s
  else match readFees sc.guard sc.fees epoch pin with
    | .error e => .error e
    | .ok fees => .ok (Gas.applyEntryFees fees s)

/-- The entry reads of `run_epoch`, run_epoch.rs:148-330: committee and boundary, fees, the epoch-0
record check, the neighbouring committees at the same pin (raw keys; their decoding is not
repeated here).  `has0`: a record of epoch 0 is in the consensus database (otherwise it is created
when entering epoch 0).  The pack, replay and record recovery in between are modelled elsewhere. -/
def enter (decode : Nat → Option Nat) (file : Members) (has0 : Bool) (c : List Blk) (tip : Blk)
    (sc : Sched) (s : Gas.Slots) : Except Halt Entered :=
  match committeeWithStart decode file c sc.state tip with
  | .error e => .error e
  | .ok (epoch, m, info, start, pin) =>
    match entryFees c sc epoch info pin s with
    | .error e => .error e
    | .ok s' =>
      if has0 = false ∧ epoch ≠ 0 then .error .noEpochZeroRecord
      else match retry (fun i => if sc.neigh i then .error Err.provider
                                 else .ok (if epoch = 0 then [] else pin.reg.keys (epoch - 1),
                                           pin.reg.keys (epoch + 1))) with
        | .error e => .error (.read e)
        | .ok (prev, next) =>
          .ok ⟨epoch, m, start + info.duration, pin.number, s', prev, next⟩

/-- What `catchup_accumulator` can end with. -/
inductive CatchErr where
  | read (h : Halt)
  | epochMismatch
  | workerOutOfRange
deriving DecidableEq, Repr

/-- The headers of `blocks_for_range(first..=last)`: empty when `first > last`. -/
def range (c : List Blk) (first last : Nat) : List Blk :=
  c.filter (fun b => decide (first ≤ b.number ∧ b.number ≤ last))

/-- `catchup_accumulator`, node.rs:204-292, without faults of the reads: no finalized header: nothing;
the epoch is read at the finalized header and must be the canonical epoch; the worker count comes
from the epoch's start; then the blocks of the epoch are scanned.  The second component tells up to
which round the leaders are counted (`none`: not counted). -/
def catchup (c : List Blk) (finalized : Option Blk) (canonicalEpoch : Nat) (s : Gas.Slots) :
    Except CatchErr (Gas.Slots × Option Nat) :=
  match finalized with
  | none => .ok (s, none)
  | some b =>
    match epochStateAt c false false b with
    | .error e => .error (.read (.read e))
    | .ok st =>
      if st.epoch ≠ canonicalEpoch then .error .epochMismatch
      else match syncNumWorkers c false (fun _ => false) st.info.height s with
        | .error e => .error (.read e)
        | .ok s1 =>
          match Gas.catchup s1 ((range c st.info.height b.number).map (·.exec)) with
          | none => .error .workerOutOfRange
          | some s2 =>
            .ok (s2, if 0 < b.nonceRound ∧ b.nonceEpoch = st.epoch then some b.nonceRound else none)

/-- The finalized marker: on disk and in the in-memory watch. -/
structure Marker where
  disk : Option Nat
  watch : Option Nat
deriving DecidableEq, Repr

/-- `heal_finalized_to_persisted_tip`, epoch.rs:147-184: `none` is the refusal (marker ahead of the
tip).  Read errors are not modelled. -/
def heal (tip : Nat) (m : Marker) : Option Marker :=
  let fin := m.disk.getD 0
  if tip < fin then none
  else if fin = tip then some m
  else some ⟨some tip, some tip⟩

end Verif.Entry
