import Verif.Exex.Replay

/-!
# From execution to a stateful ExEx: replay, then live

The whole path of `ChainExecuted`: the engine commits the blocks of one consensus output in a single
database transaction and announces them afterwards (`crates/tn-reth/src/env/execution.rs`
`persist_executed_output` 252-282, `announce_executed_output` 298-341); reth's broadcast channel
carries the announcements to the manager and silently drops the oldest ones when the manager is slow;
the manager's router detects discontinuities and sends into the ExEx's bounded channel; the ExEx
consumes `replay_and_subscribe(start)` (context.rs 205-241).

The manager subscribes before the ExEx context exists (`crates/node/src/manager/node.rs` 769-800), so
the run starts with the subscription, at committed tip `tip0`.
-/

namespace Verif.Exex.Seam

open Verif.Exex

/-- What the ExEx is doing: not yet subscribed, replaying up to a fixed tip, or reading live. -/
inductive Phase where
  | idle
  | replay (c : Cursor) (last : Nat)
  | live
  deriving DecidableEq, Repr

/-- The state of the path. -/
structure Sys where
  /-- last block committed to the database (`last_block_number`, helpers.rs 259-261) -/
  tip : Nat
  /-- committed outputs, in order, since the subscription -/
  outs : List (Nat × Nat) := []
  /-- committed, not yet announced -/
  pending : List (Nat × Nat) := []
  /-- announced, waiting in the manager's broadcast receiver -/
  bcast : List (Nat × Nat) := []
  /-- `last_canon_tip` -/
  lastTip : Option Nat := none
  /-- the ExEx's channel -/
  h : Handle Content
  phase : Phase := .idle
  /-- `last_height` of `dedup_chain_executed` -/
  lastHeight : Option Nat := none
  /-- the argument of `replay_and_subscribe` -/
  start : Nat := 0
  /-- what the combined stream has yielded -/
  out : List Item := []
  /-- history: an announcement was lost while the manager had not yet handled any -/
  lostFirst : Bool := false
  /-- history: some announcement was lost -/
  lostAny : Bool := false
  deriving Repr

/-- Send a list of notifications into the channel (`fan_out`). -/
def sendAll (h : Handle Content) (ns : List (Note Content)) : Handle Content :=
  ns.foldl Handle.send h

/-- Pass an item through `dedup_chain_executed` to the consumer. -/
def Sys.yield (s : Sys) (i : Item) : Sys :=
  { s with
    out := if (dedupStep s.lastHeight i).1 then s.out ++ [i] else s.out
    lastHeight := (dedupStep s.lastHeight i).2 }

/-- The steps. -/
inductive Op where
  /-- the engine commits an output of `k+1` blocks -/
  | persist (k : Nat)
  /-- the engine announces the oldest unannounced output -/
  | announce
  /-- the broadcast channel overflows: the oldest announcement is lost -/
  | overflow
  /-- the manager handles the oldest announcement -/
  | handle
  /-- the manager handles a certificate or a consensus output (or their lag report) -/
  | other (e : Ev)
  /-- the ExEx reads a live notification before it subscribes -/
  | skim
  /-- the ExEx calls `replay_and_subscribe(start)`; reading the tip may fail -/
  | subscribe (start : Nat) (tipOk : Bool)
  /-- the combined stream is polled while the replay runs -/
  | replayPoll (ans : Read)
  /-- the combined stream is polled in its live part -/
  | livePoll
  deriving Repr

/-- Is this one of the manager's other inputs? -/
def isOther : Ev → Bool
  | .cert _ => true
  | .output _ => true
  | _ => false

/-- One step.  `maxBlock` is `BlockNumber::MAX`; block numbers never exceed it. -/
def Sys.step (maxBlock : Nat) (s : Sys) : Op → Sys
  | .persist k =>
    if s.tip + (k + 1) ≤ maxBlock then
      { s with
        tip := s.tip + (k + 1)
        outs := s.outs ++ [(s.tip + 1, s.tip + (k + 1))]
        pending := s.pending ++ [(s.tip + 1, s.tip + (k + 1))] }
    else s
  | .announce =>
    match s.pending with
    | [] => s
    | c :: r => { s with pending := r, bcast := s.bcast ++ [c] }
  | .overflow =>
    match s.bcast with
    | [] => s
    | _ :: r => { s with bcast := r, lostFirst := s.lostFirst || s.lastTip.isNone, lostAny := true }
  | .handle =>
    match s.bcast with
    | [] => s
    | c :: r =>
      { s with
        bcast := r
        h := sendAll s.h (notesOf s.lastTip (.canon (some c)))
        lastTip := tipAfter s.lastTip (.canon (some c)) }
  | .other e => if isOther e then { s with h := sendAll s.h (notesOf s.lastTip e) } else s
  | .skim => if s.phase = .idle then { s with h := s.h.recv } else s
  | .subscribe start tipOk =>
    if s.phase = .idle then
      if tipOk then { s with start := start, phase := .replay (.active start) s.tip }
      else ({ s with start := start, phase := .live } : Sys).yield (.err start)
    else s
  | .replayPoll ans =>
    match s.phase with
    | .replay c last =>
      match replayPoll maxBlock last c (fun _ => ans) with
      | (some i, c') => ({ s with phase := .replay c' last } : Sys).yield i
      | (none, _) => { s with phase := .live }
    | _ => s
  | .livePoll =>
    if s.phase = .live then
      match s.h.chan with
      | [] => s
      | n :: _ => ({ s with h := s.h.recv } : Sys).yield (.note n)
    else s

/-- A run. -/
def Sys.run (maxBlock : Nat) (s : Sys) (ops : List Op) : Sys := ops.foldl (Sys.step maxBlock) s

/-- The moment of the subscription: committed tip `tip0`, an ExEx with the given channel
capacity. -/
def Sys.init (tip0 capacity : Nat) : Sys := { tip := tip0, h := Handle.fresh capacity }

/-! ### Specification, on what the consumer saw -/

/-- The executed chains among the items, in order. -/
def chains (out : List Item) : List (Nat × Nat) :=
  out.filterMap (fun i => match i with
    | .note (.item (.chain a b)) => some (a, b)
    | _ => none)

/-- The block numbers delivered, in order. -/
def blocks (out : List Item) : List Nat :=
  (chains out).flatMap (fun c => List.range' c.1 (c.2 + 1 - c.1))

/-- A `Lagged` marker or an error: the explicit signal of a gap. -/
def _root_.Verif.Exex.Item.isSignal : Item → Bool
  | .note (.lagged _) => true
  | .err _ => true
  | _ => false

/-- Is it an executed chain? -/
def _root_.Verif.Exex.Item.isChain : Item → Bool
  | .note (.item (.chain _ _)) => true
  | _ => false

end Verif.Exex.Seam
