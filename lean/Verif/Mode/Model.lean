/-!
# The role of a node over its life (C106)

A node has one shared mode - active validator, inactive validator, observer - which a dozen places
read and four places write, from different tasks. The model keeps the mode, the stages of the start
of an epoch (each of which reads the mode on its own, so that a write can fall between any two of
them), the tasks of the epoch and the tasks of the request handler that have passed their first
check and not yet written. Every effect that matters outside is appended to a log.

Sources:
* `crates/consensus/primary/src/consensus_bus.rs` 178-216 (the modes and their predicates)
* `crates/node/src/manager/node.rs` 583-590 (the mode of a new process)
* `crates/node/src/manager/node/start_epoch.rs` 186-215, 636-660, 820-845, 856-903, 1020-1040
* `crates/node/src/manager/node/run_epoch.rs` 333-400, 422-520
* `crates/node/src/primary.rs` 37-103, `crates/consensus/primary/src/primary.rs` 52-120
* `crates/consensus/primary/src/proposer.rs` 792-804
* `crates/consensus/primary/src/consensus/state.rs` 420-440, 466-575
* `crates/consensus/primary/src/network/handler.rs` 154-247, 312-345, 567-592, 1006-1010
* `crates/consensus/executor/src/subscriber.rs` 58-130, 140-222
* `crates/state-sync/src/lib.rs` 63-100
* `crates/consensus/worker/src/worker.rs` 74-117, 294-300
-/

namespace Verif.Mode

/-- `consensus_bus.rs` 178-195 `NodeMode`. -/
inductive Mode where
  | active
  | inactive
  | observer
  deriving DecidableEq, Repr

/-- `consensus_bus.rs` 197-205 `is_cvv`. -/
def Mode.isCvv : Mode → Bool
  | .active => true
  | .inactive => true
  | .observer => false

/-- What is fixed for a node: the observer flag of its configuration (`tn_config.observer`) and, for
each epoch, whether its key is in the committee of the epoch (`ConsensusConfig::authority_id` is
`Some`, `crates/config/src/consensus.rs` 195 and 283). -/
structure Cfg where
  observer : Bool
  member : Nat → Bool

/-- The three bodies of `spawn_subscriber` (`subscriber.rs` 85-130): run with consensus, catch up
and rejoin, follow. -/
inductive Sub where
  | cvv
  | rejoin
  | follow
  deriving DecidableEq, Repr

/-- The stages of an epoch. `idle` is between two epochs (and before the first); then the mode is
identified, the networks are up, the primary is being started (three stages, for the three reads
inside), the subscriber is next, and the epoch runs. -/
inductive Stage where
  | idle
  | entered
  | net
  | started
  | sequencing
  | proposing
  | subscribing
  | running
  deriving DecidableEq, Repr

/-- The effects. Each carries the number of the start of an epoch it belongs to (`r`) and the epoch
(`e`). -/
inductive Act where
  /-- a header of ours is proposed -/
  | propose (r e : Nat)
  /-- a certificate is processed by our consensus task (a commit may be sequenced) -/
  | sequence (r e : Nat)
  /-- an output is saved and sent to execution by the subscriber that runs with consensus -/
  | cvvSave (r e : Nat)
  /-- an output is saved and sent to execution by a subscriber that follows state sync -/
  | syncSave (r e : Nat)
  /-- a vote is signed for the header of a peer, while the mode is `m` -/
  | vote (r e : Nat) (m : Mode)
  /-- a batch of ours is sealed and sent to the committee, while the mode is `m` -/
  | sealBatch (r e : Nat) (m : Mode)
  /-- the transactions of a batch are handed to the validators instead -/
  | disburse (r e : Nat)
  /-- the mode is set to inactive -/
  | demote (r e : Nat)
  /-- the mode is set to active by the catch-up, on output `n` with `last` the newest header known
  and `age` its age in seconds -/
  | rejoin (r e n last age : Nat)
  /-- the topic of the batch digests is subscribed (`true`) or unsubscribed -/
  | topic (r e : Nat) (on : Bool)
  /-- the process panics on the identity of a validator that it does not have -/
  | panic (r e : Nat)
  deriving DecidableEq, Repr

/-- The state of a node. `entry` (the mode the epoch was entered with), `src` (the subscriber of
this start), `rejoined` and `acts` are history, they are not read by any transition. -/
structure Sys where
  mode : Mode
  epoch : Nat
  /-- the number of the current start of an epoch -/
  run : Nat
  stage : Stage
  /-- the shutdown signal of this epoch has been sent -/
  shut : Bool
  /-- the tasks -/
  consensus : Bool
  proposer : Bool
  sub : Option Sub
  /-- the tasks of state sync have been spawned by the subscriber -/
  sync : Bool
  /-- tasks of the request handler that have seen an active mode and have not finished their check -/
  pending : Nat
  entry : Mode
  src : Option Sub
  rejoined : Bool
  acts : List Act
  deriving Repr, DecidableEq

/-- `node.rs` 583-590: the mode of a new process is the default, active, or observer when the node
is configured so. -/
def Cfg.initial (c : Cfg) : Mode := if c.observer then .observer else .active

/-- A process that has just been started, in epoch `e` (the epoch comes from the state of the
chain). `r` only numbers the starts. -/
def Cfg.boot (c : Cfg) (e r : Nat) (acts : List Act) : Sys :=
  { mode := c.initial, epoch := e, run := r, stage := .idle, shut := false, consensus := false,
    proposer := false, sub := none, sync := false, pending := 0, entry := c.initial, src := none,
    rejoined := false, acts := acts }

/-- Events. -/
inductive Ev where
  /-- the next epoch is entered (or the same again): the mode is identified -/
  | start
  /-- an epoch is closed by the replay at its start, before anything of it is spawned -/
  | replayed
  /-- the next stage of the start -/
  | next
  /-- a request or a gossip message makes the handler check whether it is behind -/
  | check
  /-- such a check ends: behind, or not -/
  | verdict (behind : Bool)
  /-- the consensus task finds a sub dag it cannot follow, or its accounting wrong -/
  | bogus
  /-- the consensus task handles a certificate; the proposer proposes; the subscriber of an active
  node saves an output -/
  | sequence
  | propose
  | save
  /-- the following subscriber starts state sync -/
  | spawnSync
  /-- the following subscriber receives output `n`, with `last` the number of the newest header
  (none if there is none) and `age` its age -/
  | output (n : Nat) (last : Option Nat) (age : Nat)
  /-- a vote request that passes every other check; a batch from the builder -/
  | voteReq
  | batch
  /-- the epoch ends: at its boundary (`true`), or for a change of mode -/
  | finish (boundary : Bool)
  /-- the process ends and is started again -/
  | crash
  deriving DecidableEq, Repr

/-- `start_epoch.rs` 865-903 `identify_node_mode`. Reads of the consensus store that fail abort the
start (event `crash`). -/
def Cfg.identify (c : Cfg) (s : Sys) : Mode :=
  if s.mode = .inactive then .inactive
  else if !c.member s.epoch || c.observer then .observer
  else .active

/-- The handler lives from the networks' start to the end of the epoch. -/
def Stage.live : Stage → Bool
  | .idle => false
  | .entered => false
  | _ => true

def Sys.log (s : Sys) (a : Act) : Sys := { s with acts := s.acts ++ [a] }

/-- `start_epoch.rs` 186-192: the epoch is entered. Every task of the epoch before has ended
(`run_epoch.rs` 489-503). -/
def Cfg.enter (c : Cfg) (s : Sys) : Sys :=
  { s with mode := c.identify s, entry := c.identify s, run := s.run + 1, stage := .entered,
           shut := false, consensus := false, proposer := false, sub := none, sync := false,
           pending := 0, src := none, rejoined := false }

/-- `handler.rs` 241-242, `state.rs` 505-513 and 565-571: the node goes inactive and the epoch is
told to shut down. -/
def Sys.demote (s : Sys) : Sys :=
  { s with mode := .inactive, shut := true }.log (.demote s.run s.epoch)

/-- The subscriber that matches the mode (`subscriber.rs` 85-130). -/
def Mode.sub : Mode → Sub
  | .active => .cvv
  | .inactive => .rejoin
  | .observer => .follow

/-- One stage of the start of an epoch; each reads the mode at its own time. -/
def Cfg.advance (c : Cfg) (s : Sys) : Sys :=
  match s.stage with
  | .idle => s
  -- `start_epoch.rs` 820-845: the topic of the batch digests; then the networks are up
  | .entered => { s with stage := .net }.log (.topic s.run s.epoch s.mode.isCvv)
  -- `run_epoch.rs` 385-390: the primary is started if the mode is active
  | .net => if s.mode = .active then { s with stage := .started }
            else { s with stage := .subscribing }
  -- `state.rs` 422-431: the consensus task is spawned if the mode is active
  | .started => if s.mode = .active then { s with stage := .sequencing, consensus := true }
                else { s with stage := .sequencing }
  -- `primary.rs` 101-113: the proposer is made if the mode is one of a validator; it needs an id
  | .sequencing =>
      if s.mode.isCvv then
        if c.member s.epoch then { s with stage := .proposing }
        else c.boot s.epoch (s.run + 1) (s.acts ++ [.panic s.run s.epoch])
      else { s with stage := .subscribing }
  -- `proposer.rs` 792-804: the proposer is spawned if the mode is active
  | .proposing => if s.mode = .active then { s with stage := .subscribing, proposer := true }
                  else { s with stage := .subscribing }
  -- `subscriber.rs` 70-130: the subscriber of the mode
  | .subscribing => { s with stage := .running, sub := some s.mode.sub, src := some s.mode.sub }
  | .running => s

/-- `subscriber.rs` 140-190 and 193-222: an output arrives at the following subscriber; a catch-up
that is at the newest header, and that header not five seconds old, goes active and shuts the epoch
down. (An output of a later epoch is dropped, `subscriber.rs` 149-153, but the comparison that
follows is made all the same.) -/
def Sys.output (s : Sys) (n : Nat) (last : Option Nat) (age : Nat) : Sys :=
  match s.sub with
  | some .follow => s.log (.syncSave s.run s.epoch)
  | some .rejoin =>
      match last with
      | none => s.log (.syncSave s.run s.epoch)
      | some l =>
          if n = l ∧ age < 5 then
            ({ s with mode := .active, shut := true, sub := none, rejoined := true }.log
              (.syncSave s.run s.epoch)).log (.rejoin s.run s.epoch n l age)
          else s.log (.syncSave s.run s.epoch)
  | _ => s

/-- `run_epoch.rs` 489-530: the tasks of the epoch are ended, and the next start of `run_epoch` is
of the next epoch or of the same. -/
def Sys.finish (s : Sys) (boundary : Bool) : Sys :=
  { s with stage := .idle, epoch := if boundary then s.epoch + 1 else s.epoch, consensus := false,
           proposer := false, sub := none, sync := false, pending := 0 }

/-- One event. An event that cannot happen in the state changes nothing. -/
def Cfg.step (c : Cfg) (s : Sys) : Ev → Sys
  | .start => if s.stage = .idle then c.enter s else s
  -- `run_epoch.rs`: the early return of a restart that replays and closes an epoch
  | .replayed => if s.stage = .idle then { s with epoch := s.epoch + 1 } else s
  | .next => c.advance s
  -- `handler.rs` 161-163
  | .check => if s.stage.live ∧ s.mode = .active then { s with pending := s.pending + 1 } else s
  -- `handler.rs` 218-247
  | .verdict behind =>
      if s.pending = 0 then s
      else if behind then { s with pending := s.pending - 1 }.demote
      else { s with pending := s.pending - 1 }
  | .bogus => if s.consensus then s.demote else s
  | .sequence => if s.consensus then s.log (.sequence s.run s.epoch) else s
  | .propose => if s.proposer then s.log (.propose s.run s.epoch) else s
  | .save => if s.sub = some .cvv then s.log (.cvvSave s.run s.epoch) else s
  -- `state-sync/lib.rs` 70-100
  | .spawnSync =>
      if (s.sub = some .rejoin ∨ s.sub = some .follow) ∧ s.mode ≠ .active then
        { s with sync := true }
      else s
  | .output n last age => if s.sync then s.output n last age else s
  -- `handler.rs` 591 and 1008: an id is needed, the mode is not read
  | .voteReq =>
      if s.stage.live ∧ c.member s.epoch = true then s.log (.vote s.run s.epoch s.mode) else s
  -- `worker.rs` 87 and 296: a quorum waiter is there for a member, the mode is not read
  | .batch =>
      if s.stage = .running then
        if c.member s.epoch then s.log (.sealBatch s.run s.epoch s.mode)
        else s.log (.disburse s.run s.epoch)
      else s
  | .finish boundary =>
      if s.stage = .running ∧ (boundary = true ∨ s.shut = true) then s.finish boundary else s
  | .crash => c.boot s.epoch (s.run + 1) s.acts

/-- A history of a node, from its first start in epoch `e`. -/
def Cfg.exec (c : Cfg) (e : Nat) (es : List Ev) : Sys :=
  es.foldl c.step (c.boot e 0 [])

end Verif.Mode
