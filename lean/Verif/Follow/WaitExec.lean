import Mathlib.Tactic.Common
/-
Model of the consensus layer's view of execution: the ring of recent blocks
(`crates/consensus/primary/src/recent_blocks.rs`), its feeding by the engine
(`crates/tn-reth/src/env/execution.rs`, `crates/engine/src/payload_builder.rs`,
`crates/node/src/manager/node.rs`), its restoration after a restart (`crates/node/src/engine/inner.rs`), and the
two waits built on it (`crates/consensus/primary/src/consensus_bus.rs`).
-/
namespace Verif.Wex

/-- An execution block: its hash, the nonce (epoch and round of the output it belongs to), the consensus header's
digest it carries as parent beacon block root (none for genesis). Its number is its position in the database. -/
structure Blk where
  hash : Nat
  nonce : Nat
  root : Option Nat
deriving DecidableEq, Repr

/-- What the engine reports for an output (types/src/primary/output.rs:25-29): the consensus header's digest and the
last block, with its number, if the output produced blocks. The leader's round, only shown, is dropped. -/
structure Upd where
  ch : Nat
  tip : Option (Nat × Blk)
deriving DecidableEq, Repr

/-- `RecentBlocks` (recent_blocks.rs:9-19); the capacity is a parameter of the functions, the round is dropped. -/
structure Ring where
  tips : List (Nat × Blk) := []
  cons : List Nat := []
deriving DecidableEq, Repr

/-- Make room and append (recent_blocks.rs:49-58). -/
def pushBack {α : Type} (cap : Nat) (l : List α) (a : α) : List α :=
  (if l.length ≥ cap then l.drop 1 else l) ++ [a]

/-- `push_latest` (recent_blocks.rs:40-60). -/
def pushLatest (cap : Nat) (r : Ring) (u : Upd) : Ring :=
  { cons := pushBack cap r.cons u.ch,
    tips := match u.tip with
      | some t => pushBack cap r.tips t
      | none => r.tips }

/-- The number in `latest_execution_block_num_hash` (recent_blocks.rs:72-74): zero for an empty ring. -/
def latestNum (r : Ring) : Nat := (r.tips.getLast?.map (·.1)).getD 0

/-- `contains_execution_hash` (recent_blocks.rs:82-89). -/
def containsHash (r : Ring) (h : Nat) : Bool := r.tips.any (fun t => t.2.hash == h)

/-- `contains_consensus` (recent_blocks.rs:92-104). -/
def containsCons (r : Ring) (c : Nat) : Bool :=
  r.cons.any (· == c) || r.tips.any (fun t => t.2.root == some c)

/-- The loop of `last_executed_output_blocks` (inner.rs:298-317): from block `num` downwards, `k` outputs still
wanted, `last` the nonce seen last, `acc` the result so far (the code appends and reverses at the end). `none`: a
block cannot be read. -/
def restoreGo (db : List Blk) : Nat → Nat → Nat → List (Nat × Blk) → Option (List (Nat × Blk))
  | 0, _, _, acc => some acc
  | num + 1, k, last, acc =>
    if k = 0 then some acc
    else match db[num]? with
      | none => none
      | some h =>
        if h.nonce ≠ last then restoreGo db num (k - 1) h.nonce ((num, h) :: acc)
        else restoreGo db num k last acc

/-- `last_executed_output_blocks` (inner.rs:282-321). -/
def restore (db : List Blk) (number : Nat) : Option (List (Nat × Blk)) :=
  if number = 0 then some []
  else match db[db.length - 1]? with
    | none => none
    | some h => restoreGo db (db.length - 1) (number - 1) h.nonce [(db.length - 1, h)]

/-- The digest pushed for a restored block (node.rs:1159-1160); genesis has none and the default is used. -/
def rootOr (dflt : Nat) (b : Blk) : Nat := b.root.getD dflt

/-- One push of `try_restore_state` (node.rs:1155-1179). -/
def primeOne (cap dflt : Nat) (r : Ring) (t : Nat × Blk) : Ring := pushLatest cap r { ch := rootOr dflt t.2, tip := some t }

/-- Where a call of `wait_for_execution` (consensus_bus.rs:725-754) is. `checkEmpty`: before a look whether the ring
is empty; `emptyWait`: in `changed` because it was; `readNum`: before a look at the latest number; `numWait`: in
`changed` because it was too low; `readRing`, `readDb`: before the look for the hash. -/
inductive Ph where
  | checkEmpty
  | emptyWait
  | readNum
  | numWait
  | readRing
  | readDb
  | done (ok : Bool)
deriving DecidableEq, Repr

/-- A call of `wait_for_execution` for `(num, hash)`; `seen` is the version of the watch the receiver saw last. -/
structure W where
  num : Nat
  hash : Nat
  seen : Nat
  ph : Ph := .checkEmpty
deriving DecidableEq, Repr

/-- Where a call of `wait_for_consensus_execution` (consensus_bus.rs:760-774) is. -/
inductive CPh where
  | check
  | wait
  | done
deriving DecidableEq, Repr

/-- A call of `wait_for_consensus_execution` for digest `ch`. -/
structure C where
  ch : Nat
  seen : Nat
  ph : CPh := .check
deriving DecidableEq, Repr

/-- The state: the persisted canonical blocks; the report of the output persisted last if it was not sent yet; the
reports in the channel; the blocks still to be pushed after a start; the watched ring and its version; whether the database reader is installed; the calls. -/
structure S where
  db : List Blk
  ann : Option Upd := none
  queue : List Upd := []
  prime : List (Nat × Blk) := []
  ring : Ring := {}
  version : Nat := 0
  reader : Bool := false
  ws : List W := []
  cs : List C := []
deriving Repr

/-- Events. -/
inductive Ev where
  /-- an output with at least one block is persisted in one transaction (execution.rs:253-285); the blocks' hashes,
  the last one apart -/
  | persist (hs : List Nat) (h nonce ch : Nat)
  /-- its report is sent (execution.rs:323-334) -/
  | announce
  /-- an empty output is skipped and reported (payload_builder.rs:106-122) -/
  | skip (ch : Nat)
  /-- the update task takes a report and modifies the watch (node.rs:1232-1238) -/
  | deliver
  /-- the reader is installed (node.rs:1139) -/
  | install
  /-- the process dies and starts again: the blocks to prime the ring with are read (node.rs:1155) -/
  | restart
  /-- one of them is pushed (node.rs:1177-1179) -/
  | primed
  /-- a call of `wait_for_execution` subscribes -/
  | ask (num hash : Nat)
  /-- it makes its next step; `fail`: the database read, if it is one, fails -/
  | go (w : Nat) (fail : Bool)
  /-- a call of `wait_for_consensus_execution` subscribes -/
  | askC (ch : Nat)
  /-- it makes its next step -/
  | goC (c : Nat)
deriving DecidableEq, Repr

/-- `CanonicalReaderSlot::confirms` (consensus_bus.rs:338-344, helpers.rs:575-590): only the persisted database is
read, a failed read confirms nothing. -/
def confirms (s : S) (num hash : Nat) (fail : Bool) : Bool :=
  s.reader && !fail && (match s.db[num]? with | some b => b.hash == hash | none => false)

/-- The next step of a call of `wait_for_execution`; `none` if it has to wait or is over. -/
def goW (s : S) (x : W) (fail : Bool) : Option W :=
  match x.ph with
  | .checkEmpty => some { x with ph := if s.ring.tips.isEmpty then .emptyWait else .readNum }
  | .emptyWait => if x.seen < s.version then some { x with ph := .checkEmpty, seen := s.version } else none
  | .readNum => some { x with ph := if latestNum s.ring < x.num then .numWait else .readRing }
  | .numWait => if x.seen < s.version then some { x with ph := .readNum, seen := s.version } else none
  | .readRing => some { x with ph := if containsHash s.ring x.hash then .done true else .readDb }
  | .readDb => some { x with ph := .done (confirms s x.num x.hash fail) }
  | .done _ => none

/-- The next step of a call of `wait_for_consensus_execution`. -/
def goCons (s : S) (x : C) : Option C :=
  match x.ph with
  | .check => some { x with ph := if containsCons s.ring x.ch then .done else .wait }
  | .wait => if x.seen < s.version then some { x with ph := .check, seen := s.version } else none
  | .done => none

/-- The blocks of an output: all carry its nonce and digest (payload.rs:50-60, 130-140). -/
def group (hs : List Nat) (h nonce ch : Nat) : List Blk :=
  (hs ++ [h]).map (fun x => { hash := x, nonce, root := some ch })

/-- One step. The engine executes one output at a time (engine/lib.rs:134-165), so an output is persisted only after
the previous one was reported; it gets outputs only after the ring is primed (node.rs:695-770); successive outputs have different nonces. -/
def step (cap dflt : Nat) (s : S) : Ev → Option S
  | .persist hs h nonce ch =>
    if s.prime = [] ∧ s.ann = none ∧ (∀ b ∈ s.db.getLast?, b.nonce ≠ nonce) then
      some { s with db := s.db ++ group hs h nonce ch,
                    ann := some { ch, tip := some (s.db.length + hs.length, { hash := h, nonce, root := some ch }) } }
    else none
  | .announce =>
    match s.ann with
    | some u => some { s with ann := none, queue := s.queue ++ [u] }
    | none => none
  | .skip ch => if s.prime = [] ∧ s.ann = none then some { s with queue := s.queue ++ [{ ch, tip := none }] } else none
  | .deliver =>
    match s.queue with
    | u :: q => some { s with queue := q, ring := pushLatest cap s.ring u, version := s.version + 1 }
    | [] => none
  | .install => some { s with reader := true }
  | .restart =>
    match restore s.db cap with
    | some l => some { db := s.db, prime := l }
    | none => none
  | .primed =>
    match s.prime with
    | t :: l => some { s with prime := l, ring := primeOne cap dflt s.ring t, version := s.version + 1 }
    | [] => none
  | .ask num hash => some { s with ws := s.ws ++ [{ num, hash, seen := s.version }] }
  | .go w fail =>
    match s.ws[w]? with
    | some x => (goW s x fail).map (fun y => { s with ws := s.ws.set w y })
    | none => none
  | .askC ch => some { s with cs := s.cs ++ [{ ch, seen := s.version }] }
  | .goC c =>
    match s.cs[c]? with
    | some x => (goCons s x).map (fun y => { s with cs := s.cs.set c y })
    | none => none

/-- A sequence of events. -/
def runs (cap dflt : Nat) : S → List Ev → Option S
  | s, [] => some s
  | s, e :: es => (step cap dflt s e).bind (fun s' => runs cap dflt s' es)

/-- A process that has just come up on a database with at least the genesis block; the ring is still empty. -/
structure Init (cap : Nat) (s : S) : Prop where
  db : s.db ≠ []
  prime : restore s.db cap = some s.prime
  ann : s.ann = none
  queue : s.queue = []
  ring : s.ring = {}
  ws : s.ws = []
  cs : s.cs = []

/-- Reachable states. -/
def Reach (cap dflt : Nat) (s : S) : Prop := ∃ s0 es, Init cap s0 ∧ runs cap dflt s0 es = some s

end Verif.Wex
