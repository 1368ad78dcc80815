/-!
# When a validator finds itself behind (C108)

The check that turns an active validator inactive, and the state of the node it looks at: the output it
processed last, the output its own consensus committed last, the newest output it heard of. What the
check is given is genuine: a certificate of a committee (its epoch and round), or an output that enough
members have signed (its number).

Sources:
* `crates/consensus/primary/src/network/handler.rs` 154-247 (`behind_consensus`), 303-352 (certificates),
  353-497 (results)
* `crates/consensus/primary/src/recent_blocks.rs` 36-70, `consensus_bus.rs` 422-440, 484-489, 536-560,
  819-832
* `crates/consensus/primary/src/consensus/state.rs` 405-409, 541-561; `crates/state-sync/src/lib.rs` 35-65
* `crates/types/src/primary/mod.rs` 61 (`GC_ACTIVITY_BUFFER`)
-/

namespace Verif.Bhd

/-- `crates/types/src/primary/mod.rs` 61. -/
def buffer : Nat := 10

/-- `handler.rs` 200-205: the window, `gc_depth.saturating_sub(GC_ACTIVITY_BUFFER)`. -/
def win (gc : Nat) : Nat := gc - buffer

/-- What the check reads: the last processed output as (number, epoch, round) if its header is found in
the store (`consensus_bus.rs` 819-832), the round processed last and the round committed last, the
number published last. -/
structure View where
  header : Option (Nat × Nat × Nat)
  processed : Nat
  committed : Nat
  published : Nat
  deriving DecidableEq, Repr

/-- `handler.rs` 166-179: a header that is absent or cannot be read counts as nothing. -/
def View.exec (v : View) : Nat × Nat × Nat := v.header.getD (0, 0, 0)

/-- `handler.rs` 160-224 `behind_consensus` of an active validator. Rounds, epochs and numbers are
unbounded here (`u32` and `u64` there). -/
def behind (gc : Nat) (v : View) (epoch round : Nat) (number : Option Nat) : Bool :=
  let (execNumber, execEpoch, execRound) := v.exec
  let effective := max (max execRound v.processed) v.committed
  let outside := epoch == execEpoch && decide (effective + win gc < round)
  let epochBehind :=
    match number with
    | some n => decide (execEpoch < epoch) && decide (max execNumber v.published + 1 < n)
    | none =>
        if execEpoch + 1 = epoch then decide (max (win gc) 6 < round)
        else decide (execEpoch < epoch)
  outside || epochBehind

/-! ## The node -/

/-- The outputs everybody agrees on: output `n` (from 1 on) is of epoch `E n` and round `R n`. -/
structure Chain where
  E : Nat → Nat
  R : Nat → Nat

/-- Epochs go up one at a time, starting at 0; rounds go up within an epoch. -/
structure Chain.Ok (c : Chain) : Prop where
  zero : c.E 0 = 0 ∧ c.R 0 = 0 ∧ c.E 1 = 0
  step : ∀ n, c.E (n + 1) = c.E n ∨ c.E (n + 1) = c.E n + 1
  rounds : ∀ n, c.E (n + 1) = c.E n → c.R n < c.R (n + 1)

/-- The node. Outputs are known by their number; 0 is "none". -/
structure Node where
  epoch : Nat
  /-- the last output processed by the engine -/
  done : Nat
  /-- the last output committed by the node's own consensus (or taken by its catch-up) -/
  seen : Nat
  /-- `committed_round_updates` -/
  committed : Nat
  /-- `last_published_consensus_num_hash` -/
  published : Nat
  active : Bool
  deriving DecidableEq, Repr

/-- What the check reads in this state; `found` says whether the header of the last processed output
is found. -/
def Node.view (c : Chain) (s : Node) (found : Bool) : View :=
  { header := if found then some (s.done, c.E s.done, c.R s.done) else none,
    processed := c.R s.done, committed := s.committed, published := s.published }

/-- An epoch entered after output `n`, the closing one of epoch `e - 1` or one of epoch `e`:
`reset_for_epoch`, `prime_consensus` and the recovery of consensus. -/
def Chain.primed (c : Chain) (e n : Nat) : Nat := if c.E n = e then c.R n else 0

inductive Ev where
  /-- consensus commits the next output of the epoch -/
  | commit
  /-- the engine processes the next output -/
  | process
  /-- the epoch has ended and the next is entered -/
  | enter
  /-- a verified certificate of epoch `e` and round `r` -/
  | cert (e r : Nat) (found : Bool)
  /-- output `n` has enough signatures -/
  | result (n : Nat) (found : Bool)
  /-- an output is published by another task (`state-sync/src/epoch.rs` 40, 137) -/
  | publish (n : Nat)
  /-- the node, inactive, has caught up to output `n` and enters the epoch after it as active -/
  | rejoin (n : Nat) (next : Bool)
  /-- the process starts again: what was saved (up to output `n`) is processed first (replay), what
  was committed and not yet saved is lost -/
  | restart (n : Nat)
  deriving DecidableEq, Repr

/-- One event; one that is not possible does nothing. -/
def Node.step (gc : Nat) (c : Chain) (s : Node) : Ev → Node
  | .commit =>
      if s.active = true ∧ c.E (s.seen + 1) = s.epoch then
        { s with seen := s.seen + 1, committed := c.R (s.seen + 1) }
      else s
  | .process => if s.done < s.seen then { s with done := s.done + 1 } else s
  | .enter =>
      if s.active = true ∧ s.done = s.seen ∧ c.E s.seen = s.epoch ∧ c.E (s.seen + 1) = s.epoch + 1 then
        { s with epoch := s.epoch + 1, committed := c.primed (s.epoch + 1) s.seen }
      else s
  | .cert e r found =>
      if s.active = true ∧ behind gc (s.view c found) e r none = true then { s with active := false }
      else s
  -- `handler.rs` 370-375: only what is newer than the last published
  | .result n found =>
      if s.published < n then
        if s.active = true ∧ behind gc (s.view c found) (c.E n) (c.R n) (some n) = true then
          { s with active := false }
        else { s with published := max s.published n }
      else s
  | .publish n => { s with published := max s.published n }
  | .rejoin n next =>
      if s.active = false ∧ s.seen ≤ n then
        let e := if next = true ∧ c.E (n + 1) = c.E n + 1 then c.E n + 1 else c.E n
        { s with done := n, seen := n, epoch := e, committed := c.primed e n, active := true }
      else s
  | .restart n =>
      if s.done ≤ n ∧ n ≤ s.seen then
        { s with done := n, seen := n, committed := c.primed s.epoch n, published := 0,
                 active := true }
      else s

def Node.init : Node :=
  { epoch := 0, done := 0, seen := 0, committed := 0, published := 0, active := true }

def Chain.run (gc : Nat) (c : Chain) (es : List Ev) : Node := es.foldl (Node.step gc c) Node.init

end Verif.Bhd
