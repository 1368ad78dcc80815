import Mathlib.Tactic.Common
import Mathlib.Data.List.Basic
/-
Property C103: the routing of epoch votes to the rounds that collect them. crates/node/src/manager/epoch_votes.rs:
`get_new_vote_channel` (275-288), `handle_new_vote` (291-321), `spawn_epoch_vote_collector` (328-383); the watch of epoch
records (close_epoch.rs:326, 333, 416; epoch_votes.rs:412-428). The router task, the rounds and the writers of the two
channels run in parallel: taking a vote, completing the send into a round's channel, reading from it and the end of a round
are separate steps. What a round does with its votes is C53 (`Epoch/Votes.lean`).
-/
namespace Verif
namespace Vrt

/-- `EpochVote`: the epoch, and who and what in `tag`. -/
structure Vote where
  epoch : Nat
  tag : Nat
deriving DecidableEq, Repr

/-- The receiver of a round's channel: still in the router's list, with the round, or gone. -/
inductive Rx where
  | parked
  | taken
  | dropped
deriving DecidableEq, Repr

/-- One channel. `pushed`: all votes ever sent into it, `read`: how many of them the round has read. `born` is a ghost: how
many votes the router had handled before. -/
structure Chan where
  epoch : Nat
  born : Nat
  pushed : List Vote
  read : Nat
  rx : Rx
deriving DecidableEq, Repr

/-- Why a vote was lost. -/
inductive Why where
  /-- the round had ended -/
  | closed
  /-- there was no round, and the epoch is not the one after the last in the list -/
  | outOfOrder
deriving DecidableEq, Repr

/-- `queues` is `vote_queues`, with the index of the channel. `sending` is the vote the router waits to send. `pending` is
the record on the watch that the router has not seen. `inbox` are the votes in the `new_epoch_votes` channel. `handled`
and `lost` are ghosts: the votes dealt with, in order, and those lost. -/
structure St where
  queues : List (Nat × Nat)
  chans : List Chan
  sending : Option (Vote × Nat)
  pending : Option Nat
  inbox : List Vote
  handled : List Vote
  lost : List (Vote × Why)
deriving DecidableEq, Repr

/-- The queue of an epoch (epoch_votes.rs:276-280, 294-302). -/
def find (qs : List (Nat × Nat)) (e : Nat) : Option (Nat × Nat) := qs.find? fun q => q.1 == e

def setChan (s : St) (i : Nat) (c : Chan) : St := { s with chans := s.chans.set i c }

/-- Dropping an entry of the list: the sender goes, and a parked receiver with it. -/
def dropEntry (chans : List Chan) (i : Nat) : List Chan :=
  match chans[i]? with
  | some c => if c.rx = .parked then chans.set i { c with rx := .dropped } else chans
  | none => chans

/-- The limit of the list (epoch_votes.rs:283, 315). -/
def maxQueues : Nat := 5

/-- A new entry, the oldest is dropped when there are five (epoch_votes.rs:282-287, 313-318). -/
def pushQueue (s : St) (c : Chan) : St :=
  if maxQueues ≤ s.queues.length then
    { s with
      queues := s.queues.tail ++ [(c.epoch, s.chans.length)]
      chans := (match s.queues.head? with | some q => dropEntry s.chans q.2 | none => s.chans) ++ [c] }
  else { s with queues := s.queues ++ [(c.epoch, s.chans.length)], chans := s.chans ++ [c] }

inductive Ev where
  /-- the gossip handler forwards a vote -/
  | forward (v : Vote)
  /-- a record is put on the watch -/
  | publish (e : Nat)
  /-- the router sees the record -/
  | takeRecord
  /-- the router takes a vote -/
  | takeVote
  /-- the send of the router completes -/
  | complete
  /-- round `i` reads a vote -/
  | read (i : Nat)
  /-- round `i` ends -/
  | finish (i : Nat)
deriving DecidableEq, Repr

/-- May a vote open an entry for its epoch (epoch_votes.rs:307-312)? -/
def inOrder (qs : List (Nat × Nat)) (e : Nat) : Bool :=
  match qs.getLast? with
  | some q => e == q.1 + 1
  | none => true

/-- `handle_new_vote` without an entry for the epoch (epoch_votes.rs:307-320). -/
def noQueue (s : St) (v : Vote) : St :=
  if inOrder s.queues v.epoch then
    { pushQueue s ⟨v.epoch, s.handled.length, [v], 0, .parked⟩ with handled := s.handled ++ [v] }
  else { s with handled := s.handled ++ [v], lost := s.lost ++ [(v, .outOfOrder)] }

/-- One event, with channels of capacity `cap` (10 000 in the code); `none`: it cannot happen now. -/
def step (cap : Nat) (s : St) : Ev → Option St
  | .forward v => some { s with inbox := s.inbox ++ [v] }
  | .publish e => some { s with pending := some e }
  | .takeRecord =>
    match s.sending, s.pending with
    | none, some e =>
      let s := { s with pending := none }
      match find s.queues e with
      | some q =>
        match s.chans[q.2]? with
        | some c => if c.rx = .parked then some (setChan s q.2 { c with rx := .taken }) else some s
        | none => some s
      | none => some (pushQueue s ⟨e, s.handled.length, [], 0, .taken⟩)
    | _, _ => none
  | .takeVote =>
    match s.sending, s.inbox with
    | none, v :: rest =>
      let s := { s with inbox := rest }
      match find s.queues v.epoch with
      | some q => some { s with sending := some (v, q.2) }
      | none => some (noQueue s v)
    | _, _ => none
  | .complete =>
    match s.sending with
    | some (v, i) =>
      match s.chans[i]? with
      | some c =>
        if c.rx = .dropped then
          some { s with
            sending := none
            queues := s.queues.filter fun q => q.2 != i
            handled := s.handled ++ [v]
            lost := s.lost ++ [(v, .closed)] }
        else if c.pushed.length - c.read < cap then
          some { setChan s i { c with pushed := c.pushed ++ [v] } with sending := none, handled := s.handled ++ [v] }
        else none
      | none => none
    | none => none
  | .read i =>
    match s.chans[i]? with
    | some c =>
      if c.rx = .taken ∧ c.read < c.pushed.length then some (setChan s i { c with read := c.read + 1 }) else none
    | none => none
  | .finish i =>
    match s.chans[i]? with
    | some c => if c.rx = .taken then some (setChan s i { c with rx := .dropped }) else none
    | none => none

/-- A node just started. -/
def start : St := ⟨[], [], none, none, [], [], []⟩

def run (cap : Nat) (s : St) : List Ev → Option St
  | [] => some s
  | v :: vs =>
    match step cap s v with
    | some s' => run cap s' vs
    | none => none

inductive Reach (cap : Nat) : St → Prop where
  | start : Reach cap start
  | step {s t : St} (v : Ev) : Reach cap s → step cap s v = some t → Reach cap t

end Vrt
end Verif
