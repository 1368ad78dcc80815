/-
Model of how consensus outputs get from the archive to the engine, through restarts:
`crates/node/src/manager/node/run_epoch.rs` (`run_epoch` 133-560, `process_output` 577-599,
`wait_for_epoch_boundary` 608-660, `check_output_continuity` 961-970), `start_epoch.rs`
(`replay_missed_consensus` 80-118), `close_epoch.rs` (`send_leftover_consensus_output_to_engine` 228-290),
`manager/node.rs` (priming of the last forwarded number, 660-678),
`crates/state-sync/src/lib.rs` (`last_consensus_parent` 156-166, `get_missing_consensus` 174-206) and the
subscriber's loop (`crates/consensus/executor/src/subscriber.rs` 336-405).

Simplifications. The archive is a list: the output with number `n` is entry `n - 1` (C48, C49). Saving and
persisting an output is one step: an output is broadcast only after it is persisted. Whether an output is the
boundary of its epoch (`committed_at ≥ epoch_boundary`) is a field of the output; the boundary of an epoch
is fixed by the block that closes the previous one. Executing an output adds its blocks to the chain in one
step (C42); what the blocks are is C41, here an output only has a flag whether it makes any (an output that
closes the epoch always does, C28). Blocks become durable in order. Any error ends the process (`down`).
-/
namespace Verif
namespace Pipe

/-- A consensus output. `blocks`: it has batches, so that executing it makes blocks. -/
structure O where
  epoch : Nat
  close : Bool
  blocks : Bool
  id : Nat
deriving DecidableEq

/-- An executed output in the chain, with the closing flag it was executed with. -/
structure Ex where
  num : Nat
  out : O
  close : Bool
deriving DecidableEq

/-- What executing an output adds to the chain. -/
def effect (n : Nat) (o : O) (c : Bool) : List Ex := if o.blocks || c then [⟨n, o, c⟩] else []

/-- A message to the engine. -/
structure Msg where
  num : Nat
  out : O
  close : Bool
deriving DecidableEq

/-- Where `run_epoch` is. `replay r`: `r` is the next number to replay. `closing`: waiting for the
execution of the boundary output. `down`: the process ended with an error. -/
inductive Phase where
  | replay (r : Nat)
  | live
  | closing
  | down
deriving DecidableEq

structure St where
  pack : List O
  /-- the durable chain and what was executed since -/
  dur : List Ex
  mem : List Ex
  q : List Msg
  fwd : Nat
  epoch : Nat
  /-- the subscriber has seen the boundary output -/
  done : Bool
  ph : Phase
deriving DecidableEq

def St.chain (s : St) : List Ex := s.dur ++ s.mem

/-- The number of the output of the last block, `last_executed_consensus_block`. -/
def lastExec (ch : List Ex) : Nat :=
  match ch.getLast? with
  | none => 0
  | some e => e.num

/-- The epoch of the chain: each closing output starts the next one. -/
def closings (ch : List Ex) : Nat := (ch.filter (·.close)).length

/-- `process_output`, run_epoch.rs:577-599: the closing flag is set exactly for the boundary output. -/
def St.forward (s : St) (n : Nat) (o : O) : St :=
  { s with q := s.q ++ [⟨n, o, o.close⟩], fwd := n }

/-- Entering an epoch, run_epoch.rs:149-276: the epoch and the missing outputs come from the chain. -/
def St.enter (s : St) : St :=
  { s with epoch := closings s.chain, ph := .replay (lastExec s.chain + 1), done := false }

/-- Receiving output `n` from the subscriber, `wait_for_epoch_boundary`, run_epoch.rs:615-658. -/
def St.receive (s : St) (n : Nat) : St :=
  match s.pack[n - 1]? with
  | none => s
  | some o =>
    if n ≤ s.fwd then s
    else if n = s.fwd + 1 then { s.forward n o with ph := if o.close then .closing else .live }
    else { s with ph := .down }

/-- `send_leftover_consensus_output_to_engine`, close_epoch.rs:228-290, stopping after at most `k` outputs
(an error of a read or a send, or an archive head that is not up to date). No boundary: the epoch is
re-entered without replay. This is the leftover forwarding when the broadcast channel goes on with the next output; `Handoff.lean` models
the channel itself, and when it does not. -/
def St.leftover : Nat → St → St
  | 0, s => { s with done := false }
  | k + 1, s =>
    match s.pack[s.fwd]? with
    | none => { s with done := false }
    | some o =>
      if o.close then { s.forward (s.fwd + 1) o with ph := .closing }
      else St.leftover k (s.forward (s.fwd + 1) o)

/-- One turn of the loop of `replay_missed_consensus`, start_epoch.rs:88-116. -/
def St.replayOne (s : St) (r : Nat) (o : O) : St :=
  if o.epoch ≠ s.epoch then { s with ph := .down }
  else { s.forward r o with ph := if o.close then .closing else .replay (r + 1) }

/-- A restart: what was not durable is lost; the last forwarded number is primed from the archive and the
chain, node.rs:660-678. -/
def St.restart (s : St) : St :=
  let s' : St := { s with mem := [], q := [], fwd := max s.pack.length (lastExec s.dur) }
  s'.enter

inductive Step : St → St → Prop
  /-- the subscriber numbers, saves and broadcasts an output, subscriber.rs:336-405 -/
  | commit {s : St} (o : O) : s.ph = .live → s.done = false → o.epoch = s.epoch →
      Step s { s with pack := s.pack ++ [o], done := o.close }
  | receive {s : St} (n : Nat) : s.ph = .live → 1 ≤ n → Step s (s.receive n)
  | leftover {s : St} (k : Nat) : s.ph = .live → Step s (s.leftover k)
  | exec {s : St} (x : Msg) (q : List Msg) : s.q = x :: q →
      Step s { s with mem := s.mem ++ effect x.num x.out x.close, q := q }
  | persist {s : St} (k : Nat) : Step s { s with dur := s.dur ++ s.mem.take k, mem := s.mem.drop k }
  | closed {s : St} : s.ph = .closing → s.q = [] → Step s s.enter
  | replay {s : St} (r : Nat) (o : O) : s.ph = .replay r → s.pack[r - 1]? = some o →
      Step s (s.replayOne r o)
  | replayed {s : St} (r : Nat) : s.ph = .replay r → s.pack.length < r → s.q = [] →
      Step s { s with ph := .live }
  | restart {s : St} : Step s s.restart

def init : St := St.enter ⟨[], [], [], [], 0, 0, false, .down⟩

inductive Reach : St → Prop
  | init : Reach init
  | step {s t : St} : Reach s → Step s t → Reach t

/-! ## Specification -/

/-- The chain that the outputs `os`, numbered from `n`, should give: each that makes blocks once, in order,
closing the epoch exactly at the boundary outputs. -/
def effsFrom : Nat → List O → List Ex
  | _, [] => []
  | n, o :: os => effect n o o.close ++ effsFrom (n + 1) os

def expected (pack : List O) (m : Nat) : List Ex := effsFrom 1 (pack.take m)

/-- The number of boundary outputs among the first `i`. -/
def boundaries (pack : List O) (i : Nat) : Nat := ((pack.take i).filter (·.close)).length

/-- Each of the first `k` outputs belongs to the epoch in which it is executed. -/
def EpochsOk (pack : List O) (k : Nat) : Prop :=
  ∀ i o, i < k → pack[i]? = some o → o.epoch = boundaries pack i

end Pipe
end Verif
