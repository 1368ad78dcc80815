import Verif.Codec.NodeRecord
/-
C119: the three databases behind the storage interface: `MemDatabase` (`crates/storage/src/mem_db.rs` 1-300),
`MdbxDatabase` (`crates/storage/src/mdbx/database.rs` 22-395) and `ReDB` (`crates/storage/src/redb/database.rs` 17-290,
`redb/wraps.rs`).

All three store a table as a B-tree from the encoded key to the encoded value: a list of pairs ascending in the
lexicographic order of the keys' bytes. Simplifications: values are not encoded (C38); the libraries' trees are taken to
be such lists, and their transactions to be atomic and isolated; failing I/O is not modelled; a transaction is
one event, so that nothing runs beside it (both libraries let one writer in at a time).
-/
namespace Verif
namespace Bkd
open Codec (Bytes ltB)

/-- `encode_key` and `decode_key`, codec.rs:41-85, of a type of keys with its order `lt`. -/
structure Coding (K : Type) where
  enc : K → Bytes
  dec : Bytes → K
  lt : K → K → Bool
  dec_enc : ∀ k, dec (enc k) = k
  mono : ∀ k j, ltB (enc k) (enc j) = lt k j

inductive Kind where
  | mem
  | mdbx
  | redb
deriving DecidableEq, Repr

abbrev Tree (V : Type) := List (Bytes × V)

/-- `BTreeMap::get` and its like. -/
def look {V : Type} (m : Tree V) (b : Bytes) : Option V := (m.find? (fun x => x.1 == b)).map (·.2)

/-- `BTreeMap::insert`, mdbx `put` with `UPSERT`, redb `insert`. -/
def ins {V : Type} (m : Tree V) (b : Bytes) (v : V) : Tree V :=
  m.filter (fun x => ltB x.1 b) ++ (b, v) :: m.filter (fun x => ltB b x.1)

/-- `BTreeMap::remove`, `del`, `remove`: no error if the key is missing. -/
def del {V : Type} (m : Tree V) (b : Bytes) : Tree V := m.filter (fun x => !(x.1 == b))

/-- A write, `DbTxMut`. -/
inductive W (K V : Type) where
  | ins (t : Nat) (k : K) (v : V)
  | rem (t : Nat) (k : K)
  | clear (t : Nat)
deriving DecidableEq, Repr

def W.table {K V : Type} : W K V → Nat
  | .ins t _ _ => t
  | .rem t _ => t
  | .clear t => t

/-- The calls. A transaction is the list of its writes and whether `commit` was called or it was dropped. -/
inductive Op (K V : Type) where
  | openTable (t : Nat)
  | write (w : W K V)
  | txn (ws : List (W K V)) (commit : Bool)
  | get (t : Nat) (k : K)
  | contains (t : Nat) (k : K)
  | isEmpty (t : Nat)
  | iter (t : Nat)
  | reverseIter (t : Nat)
  | skipTo (t : Nat) (k : K)
  | priorTo (t : Nat) (k : K)
  | last (t : Nat)
deriving DecidableEq, Repr

inductive Ans (K V : Type) where
  | done
  | value (v : Option V)
  | yes (b : Bool)
  | rows (l : List (K × V))
  | row (r : Option (K × V))
  | err
  | panic
deriving DecidableEq, Repr

abbrev State (V : Type) := Nat → Option (Tree V)

def set {V : Type} (s : State V) (t : Nat) (m : Tree V) : State V := fun x => if x = t then some m else s x

variable {K V : Type} (C : Coding K)

/-- A row, decoded. -/
def row (x : Bytes × V) : K × V := (C.dec x.1, x.2)

/-- The write in a table that is there. -/
def apply1 (w : W K V) (m : Tree V) : Tree V :=
  match w with
  | .ins _ k v => ins m (C.enc k) v
  | .rem _ k => del m (C.enc k)
  | .clear _ => []

/-- A write and whether it was without an error: mem_db.rs:46-70 (a table that is not there is passed over), database.rs:74-91
of mdbx (`open_db` fails), database.rs:52-70 of redb (`open_table` in a write transaction makes the table; `clear_table` deletes it
and makes it anew). -/
def wstep (kd : Kind) (s : State V) (w : W K V) : State V × Bool :=
  match s w.table with
  | some m => (set s w.table (apply1 C w m), true)
  | none =>
    match kd with
    | .mem => (s, true)
    | .mdbx => (s, false)
    | .redb => (set s w.table (apply1 C w []), true)

/-- The writes of a transaction, up to the first error. -/
def wsteps (kd : Kind) : State V → List (W K V) → State V × Bool
  | s, [] => (s, true)
  | s, w :: ws => if (wstep C kd s w).2 then wsteps kd (wstep C kd s w).1 ws else ((wstep C kd s w).1, false)

/-- `skip_to`: mem_db.rs:206-232 compares bytes, mdbx 273-282 and redb 193-219 decoded keys. -/
def skip (kd : Kind) (m : Tree V) (k : K) : List (K × V) :=
  match kd with
  | .mem => (m.dropWhile (fun x => ltB x.1 (C.enc k))).map (row C)
  | _ => (m.map (row C)).dropWhile (fun x => C.lt x.1 k)

/-- `record_prior_to`: mem_db.rs:259-276, mdbx 294-303, redb 246-258: the last row before the loop breaks at `k >= key`. -/
def prior (kd : Kind) (m : Tree V) (k : K) : Option (K × V) :=
  match kd with
  | .mem => (m.takeWhile (fun x => ltB x.1 (C.enc k))).getLast?.map (row C)
  | _ => ((m.map (row C)).takeWhile (fun x => C.lt x.1 k)).getLast?

/-- The calls of `Database`. -/
def step (kd : Kind) (s : State V) : Op K V → State V × Ans K V
  /- mem_db.rs:120-123: an empty table takes the place of the one that is there; mdbx 202-207, redb 93-99: it is made if
  it is missing -/
  | .openTable t =>
    match kd, s t with
    | .mem, _ => (set s t [], .done)
    | _, some _ => (s, .done)
    | _, none => (set s t [], .done)
  | .write w => ((wstep C kd s w).1, if (wstep C kd s w).2 then .done else .err)
  /- mem_db.rs:36-76: a write is there at once, `commit` does nothing -/
  | .txn ws commit =>
    match kd with
    | .mem => ((wsteps C kd s ws).1, .done)
    | _ =>
      if (wsteps C kd s ws).2 then (if commit then (wsteps C kd s ws).1 else s, .done)
      else (s, .err)
  | .get t k =>
    match s t, kd with
    | some m, _ => (s, .value (look m (C.enc k)))
    | none, .mem => (s, .value none)
    | none, _ => (s, .err)
  | .contains t k =>
    match s t, kd with
    | some m, _ => (s, .yes (look m (C.enc k)).isSome)
    | none, .mem => (s, .yes false)
    | none, _ => (s, .err)
  | .isEmpty t =>
    match s t, kd with
    | some m, _ => (s, .yes m.isEmpty)
    | none, .mdbx => (s, .panic)
    | none, _ => (s, .yes false)
  | .iter t => (s, match s t with | some m => .rows (m.map (row C)) | none => .panic)
  | .reverseIter t => (s, match s t with | some m => .rows (m.reverse.map (row C)) | none => .panic)
  | .skipTo t k =>
    match s t, kd with
    | some m, _ => (s, .rows (skip C kd m k))
    | none, .mem => (s, .err)
    | none, _ => (s, .panic)
  | .priorTo t k =>
    match s t, kd with
    | some m, _ => (s, .row (prior C kd m k))
    | none, .mdbx => (s, .panic)
    | none, _ => (s, .row none)
  | .last t =>
    match s t with
    | some m => (s, .row (m.getLast?.map (row C)))
    | none => (s, .row none)

def exec (kd : Kind) (s : State V) (os : List (Op K V)) : State V := os.foldl (fun s o => (step C kd s o).1) s

/-- The answers to the calls. -/
def answers (kd : Kind) : State V → List (Op K V) → List (Ans K V)
  | _, [] => []
  | s, o :: os => (step C kd s o).2 :: answers kd (step C kd s o).1 os

/-- The tables `ts` were opened, and are empty. -/
def fresh (ts : List Nat) : State V := fun t => if t ∈ ts then some [] else none

/-! ### Specification -/

/-- What a write does to the value of the key `k` of table `t`. -/
def W.effect [DecidableEq K] (t : Nat) (k : K) (o : Option V) : W K V → Option V
  | .ins t' k' v => if t' = t ∧ k' = k then some v else o
  | .rem t' k' => if t' = t ∧ k' = k then none else o
  | .clear t' => if t' = t then none else o

/-- What a call does to it: a transaction that is dropped does nothing. -/
def Op.effect [DecidableEq K] (t : Nat) (k : K) (o : Option V) : Op K V → Option V
  | .write w => w.effect t k o
  | .txn ws commit => if commit then ws.foldl (W.effect t k) o else o
  | _ => o

/-- The value last written for a key of a table, if it was not removed since. -/
def written [DecidableEq K] (os : List (Op K V)) (t : Nat) (k : K) : Option V := os.foldl (Op.effect t k) none

/-- A call of a history in which the tables `ts`, opened at its start, are the only ones used, none is opened again, and,
for the database in memory, every transaction is committed. -/
def Op.Ok (kd : Kind) (ts : List Nat) : Op K V → Prop
  | .openTable _ => False
  | .write w => w.table ∈ ts
  | .txn ws commit => (kd = .mem → commit = true) ∧ ∀ w ∈ ws, w.table ∈ ts
  | .get t _ => t ∈ ts
  | .contains t _ => t ∈ ts
  | .isEmpty t => t ∈ ts
  | .iter t => t ∈ ts
  | .reverseIter t => t ∈ ts
  | .skipTo t _ => t ∈ ts
  | .priorTo t _ => t ∈ ts
  | .last t => t ∈ ts

/-- The answers the interface promises, for what is written (`T`) in a table. -/
def Right (lt : K → K → Bool) (T : Nat → K → Option V) : Op K V → Ans K V → Prop
  | .openTable _, a => a = .done
  | .write _, a => a = .done
  | .txn _ _, a => a = .done
  | .get t k, a => a = .value (T t k)
  | .contains t k, a => a = .yes (T t k).isSome
  | .isEmpty t, a => ∃ b, a = .yes b ∧ (b = true ↔ ∀ k, T t k = none)
  | .iter t, a => ∃ l, a = .rows l ∧ l.Pairwise (fun x y => lt x.1 y.1 = true) ∧ ∀ x, x ∈ l ↔ T t x.1 = some x.2
  | .reverseIter t, a => ∃ l, a = .rows l ∧ l.Pairwise (fun x y => lt y.1 x.1 = true) ∧ ∀ x, x ∈ l ↔ T t x.1 = some x.2
  | .skipTo t k, a => ∃ l, a = .rows l ∧ l.Pairwise (fun x y => lt x.1 y.1 = true) ∧
      ∀ x, x ∈ l ↔ T t x.1 = some x.2 ∧ lt x.1 k = false
  | .priorTo t k, a => ∃ r, a = .row r ∧ ∀ x, r = some x ↔ (T t x.1 = some x.2 ∧ lt x.1 k = true ∧
      ∀ j v, T t j = some v → lt j k = true → lt x.1 j = false)
  | .last t, a => ∃ r, a = .row r ∧ ∀ x, r = some x ↔ (T t x.1 = some x.2 ∧ ∀ j v, T t j = some v → lt x.1 j = false)

end Bkd
end Verif
