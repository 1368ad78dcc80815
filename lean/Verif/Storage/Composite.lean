import Verif.Storage.Atomic
/-
Model of the database the node opens, `crates/storage/src/composite_db.rs`: three layered databases (C33, C34), each
table in one of them, and write transactions that may be cloned and are ended by `commit` or by being dropped
(`TxnGuard`, `crates/storage/src/layered_db.rs` 42-70).
Simplifications: `send` succeeds (the threads are alive), so the `?` of `commit` never returns early; a table is its
number, with the hint given beside it; `sync_persist`, iteration and statistics are not modelled.
-/
namespace Verif
namespace Comp
open Layered (KV Op DB Ev)
variable {V : Type}

/-- `TableHint`, `crates/types/src/database_traits.rs`. -/
inductive Hint where
  | epoch | kad | cache
deriving DecidableEq, Repr

/-- `CompositeDatabase::open`, composite_db.rs:32-38. -/
def fullMemory : Hint → Bool
  | .epoch => true
  | .kad => true
  | .cache => false

/-- `CompositeDbTxMut`, composite_db.rs:162-171: the transaction begun in each database, if any. -/
structure Handle where
  tx : Hint → Option Nat

/-- `CompositeDatabase` with its clients. `begun h` are the transactions begun in `h` in order, true if ended
(`TxnGuard::committed`, or the end sent by its drop); `handles` the transactions handed out, absent once
`commit` or the drop consumed them. `log` is what was called on each database, for the specification. -/
structure State (V : Type) where
  db : Hint → DB V
  log : Hint → List (Ev V) := fun _ => []
  begun : Hint → List Bool := fun _ => []
  handles : List (Option Handle) := []

/-- Calls and steps of the three threads. -/
inductive Event (V : Type) where
  /-- `write_txn` -/
  | begin_
  /-- `clone` of a transaction -/
  | clone (i : Nat)
  /-- `insert`, `remove`, `clear_table` on a transaction -/
  | put (i : Nat) (h : Hint) (o : Op V)
  | commit (i : Nat)
  | drop (i : Nat)
  /-- `insert`, `remove`, `clear_table` on the database -/
  | write (h : Hint) (o : Op V)
  /-- `persist` of a table of `h` -/
  | persist (h : Hint)
  | run (h : Hint) (ok : Bool)

/-- Replace one of three. -/
def upd {α : Type} (f : Hint → α) (h : Hint) (x : α) : Hint → α := fun h' => if h' = h then x else f h'

/-- `open_db`, `crates/storage/src/lib.rs` 131-196. -/
def openDb (d0 : Hint → KV V) : State V := { db := fun h => Layered.openDb (fullMemory h) (d0 h) }

/-- A call of one of the layered databases. -/
def call (s : State V) (h : Hint) (e : Ev V) : State V :=
  { s with db := upd s.db h (Layered.step (s.db h) e), log := upd s.log h (s.log h ++ [e]) }

/-- The handle `i`, if it has not been consumed. -/
def live (s : State V) (i : Nat) : Option Handle :=
  match s.handles[i]? with
  | some x => x
  | none => none

/-- The transaction `id` of `h` ends: `CommitTxn` or `EndTxn`, layered_db.rs:61-69, 125-134. -/
def endTx (s : State V) (h : Hint) (id : Nat) : State V :=
  call { s with begun := upd s.begun h ((s.begun h).set id true) } h .finish

/-- `LayeredDbTxMut::commit` of one of the three, layered_db.rs:125-134. -/
def commitOne (x : Handle) (s : State V) (h : Hint) : State V :=
  match x.tx h with
  | none => s
  | some id => if (s.begun h)[id]? = some false then endTx s h id else s

/-- Is `id` of `h` in use by a handle? -/
def inUse (hs : List (Option Handle)) (h : Hint) (id : Nat) : Bool :=
  hs.any (fun x => match x with | some x => x.tx h == some id | none => false)

/-- A clone is dropped; with the last one goes the guard, layered_db.rs:61-69. -/
def dropOne (x : Handle) (s : State V) (h : Hint) : State V :=
  match x.tx h with
  | none => s
  | some id => if (s.begun h)[id]? = some false ∧ inUse s.handles h id = false then endTx s h id else s

/-- `CompositeDbTxMut::get_tx` and the write, composite_db.rs:174-199, 237-249. -/
def put (s : State V) (i : Nat) (x : Handle) (h : Hint) (o : Op V) : State V :=
  match x.tx h with
  | some _ => call s h (.write o)
  | none =>
    call (call { s with begun := upd s.begun h (s.begun h ++ [false]),
                        handles := s.handles.set i (some ⟨upd x.tx h (some (s.begun h).length)⟩) } h .start)
      h (.write o)

/-- One event; calls on a handle that was consumed do not exist and change nothing. `write_txn` composite_db.rs:75-82,
`commit` 251-262 (the handle is dropped with it, which then does nothing), the bare calls 96-106, `persist` 128-130. -/
def step (s : State V) : Event V → State V
  | .begin_ => { s with handles := s.handles ++ [some ⟨fun _ => none⟩] }
  | .clone i =>
    match live s i with
    | none => s
    | some x => { s with handles := s.handles ++ [some x] }
  | .put i h o =>
    match live s i with
    | none => s
    | some x => put s i x h o
  | .commit i =>
    match live s i with
    | none => s
    | some x => commitOne x (commitOne x (commitOne x { s with handles := s.handles.set i none } .epoch) .kad) .cache
  | .drop i =>
    match live s i with
    | none => s
    | some x => dropOne x (dropOne x (dropOne x { s with handles := s.handles.set i none } .epoch) .kad) .cache
  | .write h o => call s h (.write o)
  | .persist h => call s h .persist
  | .run h ok => call s h (.run ok)

/-- A run. -/
def exec (s : State V) (evs : List (Event V)) : State V := evs.foldl step s

/-- `get` on the database, composite_db.rs:92-94. -/
def State.get (s : State V) (h : Hint) (t k : Nat) : Option V := (s.db h).get t k

/-- `get` on a transaction, composite_db.rs:208-235, layered_db.rs:81-90: memory first, then the persistent database,
with or without a transaction begun. -/
def State.txGet (s : State V) (x : Handle) (h : Hint) (t k : Nat) : Option V :=
  match x.tx h with
  | some _ => (match (s.db h).mem t k with | some v => some v | none => (s.db h).disk t k)
  | none => (s.db h).get t k

/-- The process dies and opens the three databases again. -/
def State.crash (s : State V) : State V := openDb (fun h => (s.db h).disk)

/-! ### Specification -/

/-- The writes issued to the tables of `h`, through transactions and directly, in order. `s` is the state before. -/
def issued (s : State V) (h : Hint) : List (Event V) → List (Op V)
  | [] => []
  | e :: es =>
    (match e with
     | .write h' o => if h' = h then [o] else []
     | .put i h' o => if h' = h ∧ (live s i).isSome then [o] else []
     | _ => []) ++ issued (step s e) h es

/-- Number of `persist` calls on tables of `h`. -/
def persists (h : Hint) : List (Event V) → Nat
  | [] => 0
  | .persist h' :: es => (if h' = h then 1 else 0) + persists h es
  | _ :: es => persists h es

/-- No handle is left that wrote to tables of `h` in a transaction that has not been committed. -/
def Quiet (s : State V) (h : Hint) : Prop :=
  ∀ (i : Nat) (x : Handle) (id : Nat), live s i = some x → x.tx h = some id → (s.begun h)[id]? = some true

/-- No handle is left at all. -/
def AllGone (s : State V) : Prop := ∀ i : Nat, live s i = none

/-- No physical operation of the thread of `h` failed. -/
def NoFailure (h : Hint) (evs : List (Event V)) : Prop := Event.run h false ∉ evs

end Comp
end Verif
