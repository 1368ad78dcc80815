import Mathlib.Tactic.Common
/-
Model of the life of a transaction inside one node: pool, batch under way, the node's own batches, forwarding, recovery
of batches that missed their epoch.

Sources: `crates/batch-builder/src/lib.rs` 180-285 (`spawn_execution_task`) and 350-470 (`run`),
`crates/consensus/worker/src/worker.rs` 245-388 (`disburse_txns`, `seal`), `crates/tn-reth/src/forward.rs` 553-780
(`spawn_forward`, `requeue_one`), `crates/node/src/manager/node/close_epoch.rs` 117-205 (`repool_batch_txns`,
`orphan_batches`), `crates/node/src/manager/node/run_epoch.rs` 570-600 (`process_output`).

Transactions and batch digests are numbers; `content` gives the transactions of a digest (digests are free of
collisions). The calls between components are events; the order of events is arbitrary. What reth's pool does on its own
(eviction, refusal of a transaction) is an input; the transactions are recorded in `dropped`. Walk and verdicts of a
forward task are those of `Forward.lean`; here only the fate of the next transaction matters.
-/
namespace Verif
namespace Tx
namespace Life

/-- How far the batch under way is. -/
inductive Stage
  /-- built from the pool, not yet stored by the worker -/
  | built
  /-- stored in `OurNodeBatchesCache`, waiting for the quorum -/
  | waiting
  /-- quorum reached -/
  | quorum
  /-- acknowledged with success; the builder has not consumed the result -/
  | done
  /-- acknowledged with an error that is not fatal -/
  | failed
  /-- fatal database error: the builder ends -/
  | fatal
deriving DecidableEq, Repr

/-- `BatchBuilder::pending_task`. -/
structure Job where
  dig : Nat
  stage : Stage
deriving DecidableEq, Repr

/-- A task `forward-txns`: the transactions it has not settled. -/
structure FTask where
  dig : Nat
  todo : List Nat
deriving DecidableEq, Repr

/-- The node. `own` is `OurNodeBatchesCache` (digests), `orphan` the batches the recovery task has yet to treat;
`committed` are the digests of batches committed by consensus. -/
structure Node where
  pool : List Nat := []
  own : List Nat := []
  job : Option Job := none
  fwd : List FTask := []
  orphan : List Nat := []
  committed : List Nat := []
  delivered : List Nat := []
  rejected : List Nat := []
  dropped : List Nat := []
deriving DecidableEq, Repr

/-- The fate of the next transaction of a forward task, forward.rs:648-686; without a verdict it goes back to the pool
(`requeue_one`, 799-817), which may refuse it. -/
inductive Fate
  | delivered
  | rejected
  | requeued
  | refused
deriving DecidableEq, Repr

/-- Events. -/
inductive Ev
  /-- the pool accepts a transaction of a user -/
  | accept (t : Nat)
  /-- the pool drops a transaction (limits, replaced, executed) -/
  | evict (t : Nat)
  /-- the builder starts a batch (lib.rs:383-390) -/
  | build (d : Nat)
  /-- worker.rs:304-313 -/
  | insertOwn
  | insertOwnFails
  /-- worker.rs:315-368 -/
  | quorumOk
  | quorumFails
  /-- worker.rs:376-379 -/
  | storeFails
  /-- worker.rs:381-388 -/
  | report
  | reportFails
  /-- an observer's batch: no forward admits it, or one does (worker.rs:247-297) -/
  | refuse
  | admitted
  /-- the builder consumes the result (lib.rs:410-470) -/
  | settle
  /-- an output with a batch is handed on (run_epoch.rs:589-596) -/
  | commit (d : Nat)
  /-- the next transaction of the `i`-th forward task -/
  | walk (i : Nat) (f : Fate)
  /-- the tasks of the epoch are aborted -/
  | epochEnd
  /-- `orphan_batches` reads and clears the table (close_epoch.rs:163-168) -/
  | collect
  /-- the recovery task returns the next batch to the pool (`repool_batch_txns`); `acc`: what the pool accepts -/
  | repool (acc : Nat → Bool)
  /-- the recovery task of an observer hands the next batch to a forward task -/
  | reforward
  /-- the process dies; `keep` are the own batches that had reached the disk -/
  | crash (keep : List Nat)

/-- Set the stage of the batch under way. -/
def Node.stage (s : Node) (j : Job) (st : Stage) : Node := { s with job := some { j with stage := st } }

/-- Move a batch under way from one stage to the next. -/
def Node.move (s : Node) (a b : Stage) (f : Nat → Node → Node) : Option Node :=
  match s.job with
  | some j => if j.stage = a then some (f j.dig (s.stage j b)) else none
  | none => none

/-- One event; `none` if it cannot happen. -/
def Ev.run (content : Nat → List Nat) (s : Node) : Ev → Option Node
  | .accept t => some { s with pool := t :: s.pool }
  | .evict t =>
    if t ∈ s.pool then some { s with pool := s.pool.filter (· != t), dropped := t :: s.dropped } else none
  | .build d =>
    -- only one batch at a time, of transactions in the pool
    if s.job = none ∧ ∀ t ∈ content d, t ∈ s.pool then some { s with job := some ⟨d, .built⟩ } else none
  | .insertOwn => s.move .built .waiting fun d s => { s with own := d :: s.own }
  | .insertOwnFails => s.move .built .fatal fun _ s => s
  | .quorumOk => s.move .waiting .quorum fun _ s => s
  | .quorumFails => s.move .waiting .failed fun d s => { s with own := s.own.filter (· != d) }
  | .storeFails => s.move .quorum .fatal fun _ s => s
  | .report => s.move .quorum .done fun _ s => s
  | .reportFails => s.move .quorum .failed fun _ s => s
  | .refuse => s.move .built .failed fun _ s => s
  | .admitted => s.move .built .done fun d s => { s with fwd := s.fwd ++ [⟨d, content d⟩] }
  | .settle =>
    match s.job with
    | some ⟨d, .done⟩ => some { s with job := none, pool := s.pool.filter fun t => decide (t ∉ content d) }
    | some ⟨_, .failed⟩ => some { s with job := none }
    | _ => none
  | .commit d => some { s with own := s.own.filter (· != d), committed := d :: s.committed }
  | .walk i f =>
    match s.fwd[i]? with
    | some ⟨d, t :: r⟩ =>
      let s := { s with fwd := s.fwd.set i ⟨d, r⟩ }
      match f with
      | .delivered => some { s with delivered := t :: s.delivered }
      | .rejected => some { s with rejected := t :: s.rejected }
      | .requeued => some { s with pool := t :: s.pool }
      | .refused => some { s with dropped := t :: s.dropped }
    | _ => none
  | .epochEnd => some { s with job := none, fwd := [], orphan := [] }
  | .collect => some { s with orphan := s.orphan ++ s.own, own := [] }
  | .repool acc =>
    match s.orphan with
    | d :: r => some { s with orphan := r, pool := (content d).filter acc ++ s.pool,
                              dropped := (content d).filter (fun t => !acc t) ++ s.dropped }
    | [] => none
  | .reforward =>
    match s.orphan with
    | d :: r => some { s with orphan := r, fwd := s.fwd ++ [⟨d, content d⟩] }
    | [] => none
  | .crash keep =>
    some { s with pool := [], job := none, fwd := [], orphan := [], own := s.own.filter (· ∈ keep) }

/-- A run: the state after the events, `none` if one of them cannot happen. -/
def run (content : Nat → List Nat) : List Ev → Node → Option Node
  | [], s => some s
  | e :: l, s =>
    match e.run content s with
    | some s' => run content l s'
    | none => none

/-! ## Specification -/

/-- The transactions that users handed in. -/
def accepted : List Ev → List Nat
  | [] => []
  | .accept t :: l => t :: accepted l
  | _ :: l => accepted l

/-- A transaction is still somewhere, or has met its end: committed, delivered to a validator, rejected by validators,
or dropped by the pool. -/
structure Kept (content : Nat → List Nat) (s : Node) (t : Nat) : Prop where
  somewhere : t ∈ s.pool ∨ (∃ d ∈ s.own, t ∈ content d) ∨ (∃ f ∈ s.fwd, t ∈ f.todo) ∨
    (∃ d ∈ s.orphan, t ∈ content d) ∨ (∃ d ∈ s.committed, t ∈ content d) ∨
    t ∈ s.delivered ∨ t ∈ s.rejected ∨ t ∈ s.dropped

/-- Events at a moment when they lose nothing: an epoch ends when no forward and no recovery is under way; the table
of own batches is read when no batch of it is under way; a transaction comes back from a forward task (`REQUEUE_GRACE`, one second
after the start of the task) after the builder has pruned the batch; no crash. -/
def Ev.calm (s : Node) : Ev → Prop
  | .epochEnd => (∀ f ∈ s.fwd, f.todo = []) ∧ s.orphan = []
  | .collect => ∀ j, s.job = some j → j.stage = .built
  | .walk i .requeued => ∀ f, s.fwd[i]? = some f → s.job ≠ some ⟨f.dig, .done⟩
  | .crash _ => False
  | _ => True

/-- Every event of a run is calm. -/
def Calm (content : Nat → List Nat) : List Ev → Node → Prop
  | [], _ => True
  | e :: l, s => e.calm s ∧ ∀ s', e.run content s = some s' → Calm content l s'

end Life
end Tx
end Verif
