import Verif.Types
/-
Model of the layered database, `crates/storage/src/layered_db.rs`: an in-memory layer written
synchronously, and a background thread that applies the same writes to the persistent database in
queue order, with overlapped write transactions and durability barriers.
-/
namespace Verif
namespace Layered

/-- The content of a database: value by (table, key). -/
abbrev KV (V : Type) := Nat → Nat → Option V

/-- The write operations a client issues (`KeyValueInsert`, `KeyRemove`, `ClearTable`,
layered_db.rs:619-675). -/
inductive Op (V : Type) where
  | ins (t k : Nat) (v : V)
  | rm (t k : Nat)
  | clr (t : Nat)
deriving DecidableEq, Repr

variable {V : Type}

/-- Effect of a write on a store (`MemDatabase` / `MdbxDatabase` `insert`, `remove`,
`clear_table`). -/
def Op.apply (m : KV V) : Op V → KV V
  | .ins t k v => fun t' k' => if t' = t ∧ k' = k then some v else m t' k'
  | .rm t k => fun t' k' => if t' = t ∧ k' = k then none else m t' k'
  | .clr t => fun t' k' => if t' = t then none else m t' k'

/-- `DBMessage`, the queue items of the background thread. `barrier b` is
`DurableBarrier(tx)`; the channel is named by a number. `Stats` and `Shutdown` are not
modelled (a shutdown is the process ending, see `DB.crash`). -/
inductive Msg (V : Type) where
  | start
  | finish
  | op (o : Op V)
  | barrier (b : Nat)
deriving Repr

/-- State of a `LayeredDatabase` and of its thread (`db_run`, layered_db.rs:203-219, 357-368).
`txn` is the open physical transaction as the store content it would commit, and the overlap
count; `retained` the inserts kept until the commit (cache mode); `pending` the barriers waiting for
the transaction; `acks` the answers given to barriers. -/
structure DB (V : Type) where
  full : Bool
  mem : KV V
  disk : KV V
  queue : List (Msg V) := []
  txn : Option (KV V × Nat) := none
  failed : Bool := false
  retained : List (Nat × Nat) := []
  pending : List Nat := []
  acks : List (Nat × Bool) := []
  nextBarrier : Nat := 0

/-- `LayeredDatabase::open` and `open_table` (layered_db.rs:393-401, 433-442): a full-memory database
loads every record. -/
def openDb (full : Bool) (disk : KV V) : DB V :=
  { full, mem := if full then disk else fun _ _ => none, disk }

/-- What the client does, and one step of the background thread. `run ok` handles the first queued
message; `ok` says whether the physical operation it performs (if any) succeeds. `start` is
`write_txn`, `finish` is `commit` or the drop of an uncommitted transaction (`CommitTxn` /
`EndTxn`, which the thread treats alike). Writes inside a transaction and bare writes send the same
message. -/
inductive Ev (V : Type) where
  | write (o : Op V)
  | start
  | finish
  | persist
  | run (ok : Bool)
deriving Repr

/-- `ack_pending_durable`, layered_db.rs:191-199. -/
def ackPending (d : DB V) : DB V :=
  { d with acks := d.acks ++ d.pending.map (fun b => (b, !d.failed)), pending := [] }

/-- `clear_insert_mem` of the retained inserts, layered_db.rs:639-642, 172-176. -/
def dropMem (m : KV V) (ks : List (Nat × Nat)) : KV V :=
  fun t k => if (t, k) ∈ ks then none else m t k

/-- `end_txn`, layered_db.rs:160-183, with the latch of the `CommitTxn` / `EndTxn` arms. -/
def endTxn (d : DB V) (ok : Bool) : DB V :=
  match d.txn with
  | none => d
  | some (s, n) =>
    if n ≤ 1 then
      if ok then
        { d with txn := none, disk := s,
                 mem := if d.full then d.mem else dropMem d.mem d.retained,
                 retained := if d.full then d.retained else [] }
      else { d with txn := none, failed := true }
    else { d with txn := some (s, n - 1) }

/-- The key an insert leaves to be cleared from the memory layer. -/
def Op.insKey : Op V → List (Nat × Nat)
  | .ins t k _ => [(t, k)]
  | _ => []

/-- The `Insert`, `Remove` and `Clear` arms of `db_run`, layered_db.rs:257-316. -/
def runOp (d : DB V) (o : Op V) (ok : Bool) : DB V :=
  match d.txn with
  | some (s, n) =>
    let r := if d.full then d.retained else d.retained ++ o.insKey
    if ok then { d with txn := some (o.apply s, n), retained := r }
    else { d with failed := true, retained := r }
  | none =>
    if ok then
      { d with disk := o.apply d.disk, mem := if d.full then d.mem else dropMem d.mem o.insKey }
    else { d with failed := true }

/-- One message handled by `db_run`, layered_db.rs:221-345. A failing `StartTxn` leaves no
transaction open. -/
def handle (d : DB V) (m : Msg V) (ok : Bool) : DB V :=
  match m with
  | .start =>
    match d.txn with
    | some (s, n) => { d with txn := some (s, n + 1) }
    | none => if ok then { d with txn := some (d.disk, 1) } else d
  | .finish =>
    let d := endTxn d ok
    if d.txn.isNone then ackPending d else d
  | .op o => runOp d o ok
  | .barrier b =>
    if d.txn.isSome then { d with pending := d.pending ++ [b] }
    else { d with acks := d.acks ++ [(b, !d.failed)] }

/-- One event. Client calls: `insert` / `remove` / `clear_table` (layered_db.rs:97-116, 477-504),
`write_txn` (451-459), `commit` (125-134) and drop (61-69), `persist` (557-575). Simplification: the
memory write and the send of one call happen together. -/
def step (d : DB V) : Ev V → DB V
  | .write o => { d with mem := o.apply d.mem, queue := d.queue ++ [.op o] }
  | .start => { d with queue := d.queue ++ [.start] }
  | .finish => { d with queue := d.queue ++ [.finish] }
  | .persist => { d with queue := d.queue ++ [.barrier d.nextBarrier],
                         nextBarrier := d.nextBarrier + 1 }
  | .run ok =>
    match d.queue with
    | [] => d
    | m :: q => handle { d with queue := q } m ok

/-- A run of the process. -/
def exec (d : DB V) (evs : List (Ev V)) : DB V := evs.foldl step d

/-- `LayeredDatabase::get`, layered_db.rs:469-475. -/
def DB.get (d : DB V) (t k : Nat) : Option V :=
  match d.mem t k with
  | some v => some v
  | none => d.disk t k

/-- `contains_key`, layered_db.rs:461-467. -/
def DB.containsKey (d : DB V) (t k : Nat) : Bool :=
  if d.full then (d.mem t k).isSome else (d.mem t k).isSome || (d.disk t k).isSome

/-- The process dies and the database is opened again: what was committed is what is there (an
uncommitted physical transaction is rolled back by the persistent database). -/
def DB.crash (d : DB V) : DB V := openDb d.full d.disk

/-! ### Specification vocabulary -/

/-- Writes issued by the client, in order. -/
def written : List (Ev V) → List (Op V)
  | [] => []
  | .write o :: es => o :: written es
  | _ :: es => written es

/-- A store after a list of writes. -/
def applyOps (m : KV V) (l : List (Op V)) : KV V := l.foldl Op.apply m

/-- Number of `persist` calls. -/
def persists : List (Ev V) → Nat
  | [] => 0
  | .persist :: es => persists es + 1
  | _ :: es => persists es

end Layered
end Verif
