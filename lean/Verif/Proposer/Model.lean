import Verif.Storage.Guard
import Verif.Util.SMap
/-
Model of the header proposer, `crates/consensus/primary/src/proposer.rs`, with the stored last
proposal (`crates/storage/src/stores/proposer_store.rs`) in the layered epoch database.
-/
namespace Verif
namespace Proposer

open Layered

/-- Table and key of the last proposal: the key is a constant (proposer_store.rs:7). -/
def lastProposedTable : Nat := 1
/-- `LAST_PROPOSAL_KEY`. -/
def lastProposalKey : Nat := 0

/-- `IndexMap` collected from (digest, worker) pairs (proposer.rs:308): a repeated digest keeps its place
and takes the later worker. -/
def imInsert (m : List (Nat × Nat)) (p : Nat × Nat) : List (Nat × Nat) :=
  if p.1 ∈ m.map (·.1) then m.map (fun q => if q.1 = p.1 then (q.1, p.2) else q) else m ++ [p]

/-- See `imInsert`. -/
def indexMap (l : List (Nat × Nat)) : List (Nat × Nat) := l.foldl imInsert []

/-- The spawned proposal task: header at hand; stored and waiting for barrier `b`; free to be sent; sent,
with the result on its way to the proposer (proposer.rs:255-420). -/
inductive Task where
  | start (h : Header)
  | barrier (h : Header) (b : Nat)
  | ready (h : Header)
  | done (h : Header)
deriving DecidableEq, Repr

/-- The header a task is about. -/
def Task.header : Task → Header
  | .start h | .barrier h _ | .ready h | .done h => h

/-- A running proposer (proposer.rs:83-139). `pr` is the node's `primary_round` watch, written by
nobody else while a proposer runs. Timers, leader schedule and the `advance_round` flag only decide
when `Act.propose` happens; any time is allowed here. Ghost fields: `acked`, the digests whose receipt was
acknowledged to the worker; `committed`, the digests of own headers reported committed; `out`, the
headers handed to the certifier in this run, newest first. -/
structure Run where
  round : Round
  pr : Round
  parents : List Digest
  digests : List (Nat × Nat) := []
  proposed : List (Round × Header) := []
  task : Option Task := none
  acked : List Nat := []
  committed : List Nat := []
  out : List Header := []
deriving Repr

/-- The node: epoch, epoch database (disk at process start and events since), the running proposer.
Ghost: all headers ever handed to the certifier. -/
structure Node where
  self : AuthorityId
  epoch : Epoch
  disk0 : KV Header
  evs : List (Ev Header) := []
  run : Option Run := none
  sent : List Header := []

/-- `get_last_proposed`, proposer_store.rs:26-28. -/
def Node.stored (n : Node) : Option Header :=
  (Guard.db n.disk0 n.evs).get lastProposedTable lastProposalKey

/-- The starting round, `Proposer::new`, proposer.rs:203-219. `readOk = false`: the read failed. -/
def recoveredRound (readOk : Bool) (stored : Option Header) (epoch pr : Nat) : Nat :=
  match readOk, stored with
  | true, some h => if h.epoch = epoch then (if pr < h.round then h.round - 1 else 0) else 0
  | _, _ => 0

/-- `Proposer::new`, proposer.rs:183-245; the first parents are the genesis certificates. -/
def newRun (readOk : Bool) (stored : Option Header) (epoch pr : Nat) (genesis : List Digest) : Run :=
  { round := recoveredRound readOk stored epoch pr, pr, parents := genesis }

/-- `process_parents`, proposer.rs:525-603. -/
def processParents (r : Run) (ps : List Digest) (round : Round) : Run :=
  if r.round < round then { r with round, pr := round, parents := ps }
  else if round < r.round then r
  else { r with parents := r.parents ++ ps }

/-- The round of the next header, `propose_next_header`, proposer.rs:675-681. -/
def nextRound (r : Run) : Round := max (r.round + 1) (r.pr + 1)

/-- `process_committed_headers`, first loop (proposer.rs:615-624): highest committed round, and the
outstanding headers without the committed ones. -/
def removeCommitted (proposed : List (Round × Header)) (rounds : List Round) : List (Round × Header) :=
  rounds.foldl (fun m r => SMap.erase r m) proposed

/-- `process_committed_headers`, proposer.rs:614-668. The outstanding headers are a `BTreeMap`:
ascending rounds. -/
def processCommitted (r : Run) (rounds : List Round) : Run :=
  let maxCommitted := rounds.foldl max 0
  let left := removeCommitted r.proposed rounds
  let retransmit := left.takeWhile (fun p => decide (p.1 ≤ maxCommitted))
  if retransmit = [] then
    { r with proposed := left,
             committed := r.committed ++
               (r.proposed.filter (fun p => decide (p.1 ∈ rounds))).flatMap (fun p => p.2.payload.map (·.1)) }
  else
    { r with digests := retransmit.flatMap (fun p => p.2.payload) ++ r.digests,
             proposed := retransmit.foldl (fun m p => SMap.erase p.1 m) left,
             committed := r.committed ++
               (r.proposed.filter (fun p => decide (p.1 ∈ rounds))).flatMap (fun p => p.2.payload.map (·.1)) }

/-- `supersedes_stored`, proposer.rs:388-389. -/
def supersedes (stored : Option Header) (h : Header) : Bool :=
  match stored with
  | none => true
  | some w => decide (w.epoch ≠ h.epoch ∨ w.round ≤ h.round)

/-- What happens, as far as the assumptions below need to see it. -/
inductive Act where
  | start (readOk : Bool)
  | parents (round : Round)
  | other
deriving DecidableEq, Repr

/-- One step. `maxBatches` is `max_header_num_of_batches`. -/
inductive Step (maxBatches : Nat) : Node → Act → Node → Prop
  /-- A proposer is created; `pr` is what `prime_consensus` or state sync left in the watch. -/
  | start (n : Node) (readOk : Bool) (pr : Round) (genesis : List Digest) (hr : n.run = none) :
      Step maxBatches n (.start readOk)
        { n with run := some (newRun readOk n.stored n.epoch pr genesis) }
  /-- A batch digest of an own worker, proposer.rs:850-858. -/
  | digest (n : Node) (r : Run) (d : Nat × Nat) (hr : n.run = some r) :
      Step maxBatches n .other
        { n with run := some { r with digests := r.digests ++ [d], acked := d.1 :: r.acked } }
  /-- Parents, proposer.rs:861-864. -/
  | parents (n : Node) (r : Run) (ps : List Digest) (round : Round) (hr : n.run = some r) :
      Step maxBatches n (.parents round) { n with run := some (processParents r ps round) }
  /-- Own headers were committed, proposer.rs:865-868. -/
  | committed (n : Node) (r : Run) (rounds : List Round) (hr : n.run = some r) :
      Step maxBatches n .other { n with run := some (processCommitted r rounds) }
  /-- `propose_next_header`, the stored header is from this round: proposer.rs:699-712. -/
  | reuse (n : Node) (r : Run) (h : Header) (hr : n.run = some r) (ht : r.task = none)
      (hp : r.parents ≠ []) (hs : n.stored = some h) (hround : h.round = nextRound r)
      (he : h.epoch = n.epoch) :
      Step maxBatches n .other
        { n with run := some { r with round := nextRound r, pr := nextRound r, parents := [],
                                      task := some (.start h) } }
  /-- `propose_next_header`, a new header: proposer.rs:714-747, 255-330. -/
  | fresh (n : Node) (r : Run) (h : Header) (hr : n.run = some r) (ht : r.task = none)
      (hp : r.parents ≠ [])
      (hs : ∀ w, n.stored = some w → ¬ (w.round = nextRound r ∧ w.epoch = n.epoch))
      (hround : h.round = nextRound r) (he : h.epoch = n.epoch) (ha : h.author = n.self)
      (hpay : h.payload = indexMap (r.digests.take maxBatches))
      (hpar : ∀ d, d ∈ h.parents ↔ d ∈ r.parents) :
      Step maxBatches n .other
        { n with run := some { r with round := nextRound r, pr := nextRound r, parents := [],
                                      digests := r.digests.drop maxBatches,
                                      task := some (.start h) } }
  /-- The last header is sent again after the maximal delay, proposer.rs:953-972. -/
  | again (n : Node) (r : Run) (h : Header) (hr : n.run = some r) (ht : r.task = none)
      (hs : n.stored = some h) :
      Step maxBatches n .other { n with run := some { r with task := some (.start h) } }
  /-- `store_and_send_header`: the write and the barrier request, proposer.rs:381-410. -/
  | store (n : Node) (r : Run) (h : Header) (hr : n.run = some r) (ht : r.task = some (.start h))
      (hs : supersedes n.stored h = true) :
      Step maxBatches n .other
        { n with evs := n.evs ++ [.write (.ins lastProposedTable lastProposalKey h), .persist],
                 run := some { r with task := some (.barrier h (persists n.evs)) } }
  /-- `store_and_send_header`: not written because the stored header is of a higher round. -/
  | skipStore (n : Node) (r : Run) (h : Header) (hr : n.run = some r) (ht : r.task = some (.start h))
      (hs : supersedes n.stored h = false) :
      Step maxBatches n .other { n with run := some { r with task := some (.ready h) } }
  /-- The barrier reported success. -/
  | persisted (n : Node) (r : Run) (h : Header) (b : Nat) (hr : n.run = some r)
      (ht : r.task = some (.barrier h b)) (hack : (b, true) ∈ (Guard.db n.disk0 n.evs).acks) :
      Step maxBatches n .other { n with run := some { r with task := some (.ready h) } }
  /-- The header goes to the certifier, proposer.rs:413. -/
  | send (n : Node) (r : Run) (h : Header) (hr : n.run = some r) (ht : r.task = some (.ready h)) :
      Step maxBatches n .other
        { n with sent := h :: n.sent,
                 run := some { r with task := some (.done h), out := h :: r.out } }
  /-- `handle_proposal_result`, proposer.rs:766-783. -/
  | result (n : Node) (r : Run) (h : Header) (hr : n.run = some r) (ht : r.task = some (.done h)) :
      Step maxBatches n .other
        { n with run := some { r with task := none, proposed := SMap.insert h.round h r.proposed } }
  /-- The proposer stops: shut down, or a fatal error (its tasks are aborted with it). -/
  | stop (n : Node) : Step maxBatches n .other { n with run := none }
  /-- Anything else happens to the epoch database. -/
  | env (n : Node) (e : Ev Header) (he : Guard.foreign lastProposedTable e) :
      Step maxBatches n .other { n with evs := n.evs ++ [e] }
  /-- The node enters a later epoch; the table is cleared. -/
  | nextEpoch (n : Node) (e : Epoch) (he : n.epoch < e) :
      Step maxBatches n .other
        { n with epoch := e, run := none, evs := n.evs ++ [.write (.clr lastProposedTable)] }
  /-- The process dies and starts again, in this epoch or a later one (table not cleared). -/
  | crash (n : Node) (e : Epoch) (he : n.epoch ≤ e) :
      Step maxBatches n .other
        { n with epoch := e, run := none, disk0 := (Guard.db n.disk0 n.evs).disk, evs := [] }

/-- All states a node can get into, from an empty database. -/
inductive ReachableAny (maxBatches : Nat) : Node → Prop
  | init (self : AuthorityId) (e : Epoch) :
      ReachableAny maxBatches { self, epoch := e, disk0 := fun _ _ => none }
  | step {n n' : Node} {a : Act} : ReachableAny maxBatches n → Step maxBatches n a n' →
      ReachableAny maxBatches n'

/-- The assumptions: the stored header can be read when a proposer is created, and parents that make
the proposer jump forward are not older than the round before the last stored proposal. -/
def Act.Assumed (n : Node) : Act → Prop
  | .start readOk => readOk = true
  | .parents round => ∀ r w, n.run = some r → r.round < round → n.stored = some w →
      w.epoch = n.epoch → w.round ≤ round + 1
  | .other => True

/-- The states reached under the assumptions. -/
inductive Reachable (maxBatches : Nat) : Node → Prop
  | init (self : AuthorityId) (e : Epoch) :
      Reachable maxBatches { self, epoch := e, disk0 := fun _ _ => none }
  | step {n n' : Node} {a : Act} : Reachable maxBatches n → a.Assumed n → Step maxBatches n a n' →
      Reachable maxBatches n'

end Proposer
end Verif
