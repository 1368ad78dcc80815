import Mathlib.Data.List.Perm.Subperm
import Mathlib.Data.List.Nodup
/-
Model of the handling of gossiped consensus results:
`crates/consensus/primary/src/network/handler.rs:353-497` (the `PrimaryGossip::Consensus` arm of
`process_gossip`) and `crates/consensus/primary/src/consensus_bus.rs:537-560`.

Messages are handled by concurrent tasks. The lock on the tally table is released between the duplicate
check and the insertion, and publishing happens outside it, so a message is handled in the steps `recv`,
`ins`, `pub`, `clr`, which interleave with those of other messages in any order.
-/
namespace Verif
namespace Gossip

/-- The data fields of `ConsensusResult`, types/src/primary/block.rs. -/
structure Res where
  epoch : Nat
  round : Nat
  number : Nat
  hash : Nat
deriving DecidableEq, Repr

/-- `ConsensusResult`: the data, the validator's key and its signature. -/
structure Msg where
  res : Res
  key : Nat
  sig : Nat
deriving DecidableEq, Repr

/-- `ConsensusCertTally`, handler.rs:63-73, with its key in the map. `creator` is a ghost: the first
signer; no definition below reads it. -/
structure Tally where
  dig : Nat
  seq : Nat
  number : Nat
  signers : List Nat
  creator : Nat
deriving DecidableEq, Repr

/-- What the handler calls: `ConsensusResult::digest`, `verify_secure` over the intent message of a
digest, and `get_committee` (`none`: epoch not known yet). -/
structure Params where
  dig : Res → Nat
  verify : Nat → Nat → Nat → Bool
  com : Nat → List Nat

/-- `MAX_CONSENSUS_CERTS`, network/mod.rs:80. -/
def maxConsensusCerts : Nat := 20
/-- `MAX_TALLIES_PER_SIGNER_PER_NUMBER`, network/mod.rs:97. -/
def maxTalliesPerSigner : Nat := 2

/-- handler.rs:407: signatures needed. -/
def enoughSigs (n : Nat) : Nat := n / 3 + 1

/-- handler.rs:418: the cap on the table. -/
def maxCerts (n : Nat) : Nat := max n maxConsensusCerts

/-- `published_consensus_num_hash`: epoch, number, hash. -/
abbrev Published := Nat × Nat × Nat

/-- What the first part of the handler decides, handler.rs:362-405. -/
inductive Begin
  | old | unknownEpoch | notMember | counted | badSignature | go
deriving DecidableEq, Repr

/-- `guard.get(&digest)`. -/
def find (ts : List Tally) (d : Nat) : Option Tally := ts.find? (fun t => t.dig == d)

/-- handler.rs:391-393: is this signer already in the tally for this digest? -/
def counted (ts : List Tally) (d key : Nat) : Bool :=
  match find ts d with
  | some t => t.signers.contains key
  | none => false

/-- The checks before the insertion, handler.rs:362-405. `known`: the committee of the result's epoch
could be loaded. -/
def begin_ (P : Params) (pub : Published) (ts : List Tally) (known : Bool) (m : Msg) : Begin :=
  if m.res.hash = pub.2.2 ∨ m.res.number ≤ pub.2.1 then .old
  else if known = false then .unknownEpoch
  else if (P.com m.res.epoch).contains m.key = false then .notMember
  else if counted ts (P.dig m.res) m.key then .counted
  else if P.verify m.key (P.dig m.res) m.sig = false then .badSignature
  else .go

/-- `guard.values().map(seq).max().unwrap_or(0) + 1`, handler.rs:460. -/
def nextSeq (ts : List Tally) : Nat := (ts.map (·.seq)).foldr max 0 + 1

/-- `min_by_key(seq)`: the smallest sequence number. -/
def minSeq : List Tally → Nat
  | [] => 0
  | [t] => t.seq
  | t :: ts => min t.seq (minSeq ts)

/-- Remove the least recently updated tally, handler.rs:462-468. -/
def evict (ts : List Tally) : List Tally := ts.eraseP (fun t => t.seq == minSeq ts)

/-- handler.rs:441-454: tallies for this number this signer is in. -/
def signerTallies (ts : List Tally) (number key : Nat) : Nat :=
  (ts.filter (fun t => decide (t.number = number ∧ key ∈ t.signers))).length

/-- `tally.signers.insert(key)` on a set. -/
def addSigner (l : List Nat) (k : Nat) : List Nat := if k ∈ l then l else k :: l

/-- Update of an existing tally, handler.rs:470-474. -/
def Tally.add (t : Tally) (s number key : Nat) : Tally :=
  { t with seq := s, number := number, signers := addSigner t.signers key }

/-- The second locked section, handler.rs:419-475, for a committee of `n`. Result: the table and the
number of signatures (`none`: dropped as equivocation). -/
def insertTally (n d number key : Nat) (ts : List Tally) : List Tally × Option Nat :=
  match find ts d with
  | some t =>
    (ts.map (fun x => if x.dig = d then x.add (nextSeq ts) number key else x),
      some (addSigner t.signers key).length)
  | none =>
    if maxTalliesPerSigner ≤ signerTallies ts number key then (ts, none)
    else
      ((if maxCerts n ≤ ts.length then evict ts else ts) ++
        [{ dig := d, seq := nextSeq ts, number := number, signers := [key], creator := key }], some 1)

/-- `publish_consensus_num_hash_if_newer`, consensus_bus.rs:539-555. -/
def publishIfNewer (p : Published) (e n h : Nat) : Published := if p.2.1 < n then (e, n, h) else p

/-- The handler's state with the messages being handled: `ready` before the insertion, `quorum` having
seen enough signatures, `done` having published and about to clear. `log` is a ghost: the results that
were handed to `publish_if_newer` by this handler; `seen`: the messages whose signature was checked. -/
structure State where
  tallies : List Tally := []
  published : Published := (0, 0, 0)
  ready : List Msg := []
  quorum : List Msg := []
  finishing : Nat := 0
  log : List Res := []
  seen : List Msg := []

/-- `sigs >= enough_sigs`, handler.rs:477. -/
def reached (n : Nat) : Option Nat → Bool
  | some c => decide (enoughSigs n ≤ c)
  | none => false

/-- State after the insertion of `m`, handler.rs:406-476. -/
def State.inserted (P : Params) (s : State) (m : Msg) : State :=
  let n := (P.com m.res.epoch).length
  let r := insertTally n (P.dig m.res) m.res.number m.key s.tallies
  { s with tallies := r.1, ready := s.ready.erase m,
           quorum := if reached n r.2 then m :: s.quorum else s.quorum }

/-- One step. `ext`: another task publishes a result (epoch record sync, state-sync/src/epoch.rs:40,137). -/
inductive Step (P : Params) : State → State → Prop
  | recv (s : State) (m : Msg) (known : Bool) : begin_ P s.published s.tallies known m = .go →
      Step P s { s with ready := m :: s.ready, seen := m :: s.seen }
  | ins (s : State) (m : Msg) : m ∈ s.ready → Step P s (s.inserted P m)
  | behind (s : State) (m : Msg) : m ∈ s.quorum →
      Step P s { s with tallies := [], quorum := s.quorum.erase m }
  | pub (s : State) (m : Msg) : m ∈ s.quorum →
      Step P s { s with published := publishIfNewer s.published m.res.epoch m.res.number m.res.hash,
                        quorum := s.quorum.erase m, finishing := s.finishing + 1, log := m.res :: s.log }
  | clr (s : State) : 0 < s.finishing → Step P s { s with tallies := [], finishing := s.finishing - 1 }
  | ext (s : State) (e n h : Nat) : Step P s { s with published := publishIfNewer s.published e n h }

inductive Reach (P : Params) : State → Prop
  | init (p : Published) : Reach P { published := p }
  | step {s s' : State} : Reach P s → Step P s s' → Reach P s'

end Gossip
end Verif
