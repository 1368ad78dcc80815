import Verif.Worker.Quorum
/-
Model of `build_batch`, `crates/batch-builder/src/batch.rs` 37-187.

The pool is the list of what `best_transactions` yields when nothing is marked invalid. `mark_invalid`
(`crates/tn-reth/src/txn_pool.rs` 395-437, reth's `BestTransactions`) makes the iterator pass over all further
transactions of that sender. Account balances are a function. `U256` and `usize` sums are natural numbers
(saturating at 0 where the code saturates); the `u64` sum of the gas limits wraps as in a release build.
-/
namespace Verif
namespace Tx
open Exec (Batch)
open Worker (maxBatchGas maxBatchSize Validator BatchErr)

/-- A transaction of the pool (`ValidPoolTransaction`): `size` is `InMemorySize::size`, `bytes` its EIP-2718
encoding. -/
structure PTx where
  hash : Nat
  sender : Nat
  nonce : Nat
  gas : Nat
  size : Nat
  bytes : List Nat
  ty : Nat
  cost : Nat
deriving DecidableEq, Repr

/-- `batch_allowlisted_tx_type`, types/src/lib.rs:82-84. -/
def allowedTy (ty : Nat) : Bool := ty == 0 || ty == 1 || ty == 2

/-- Addition of `u64` in a release build. -/
def wadd (a b : Nat) : Nat := (a + b) % 2 ^ 64

/-- The entry of a sender in a `HashMap`. -/
def entry (s : Nat) : List (Nat × Nat) → Option Nat
  | [] => none
  | x :: l => if x.1 = s then some x.2 else entry s l

/-- `entry(s).and_modify(f).or_insert(v)`. -/
def upd (s : Nat) (f : Nat → Nat) (v : Nat) : List (Nat × Nat) → List (Nat × Nat)
  | [] => [(s, v)]
  | x :: l => if x.1 = s then (x.1, f x.2) :: l else x :: upd s f v l

/-- The variables of the loop, batch.rs:64-72, and the senders marked invalid. -/
structure Acc where
  gas : Nat := 0
  size : Nat := 0
  txs : List (List Nat) := []
  mined : List Nat := []
  blobs : List Nat := []
  unsupported : List Nat := []
  nonces : List (Nat × Nat) := []
  costs : List (Nat × Nat) := []
  bad : List Nat := []
deriving DecidableEq, Repr

/-- `mark_invalid`. -/
def Acc.mark (a : Acc) (t : PTx) : Acc := { a with bad := t.sender :: a.bad }

/-- An accepted transaction, batch.rs:117-138. -/
def Acc.take (a : Acc) (t : PTx) : Acc :=
  { a with
    gas := wadd a.gas t.gas
    size := a.size + t.size
    txs := a.txs ++ [t.bytes]
    mined := a.mined ++ [t.hash]
    nonces := upd t.sender (fun m => max m t.nonce) t.nonce a.nonces
    costs := upd t.sender (fun c => c + t.cost) t.cost a.costs }

/-- A transaction of a type that is not allowed, batch.rs:91-105. -/
def Acc.refuse (a : Acc) (t : PTx) : Acc :=
  if t.ty = 3 then { a.mark t with blobs := a.blobs ++ [t.hash] }
  else { a.mark t with unsupported := a.unsupported ++ [t.hash] }

/-- One iteration of the loop, batch.rs:76-139. -/
def step (a : Acc) (t : PTx) : Acc :=
  if t.sender ∈ a.bad then a
  else if maxBatchGas < wadd a.gas t.gas then a.mark t
  else if !allowedTy t.ty then a.refuse t
  else if maxBatchSize < a.size + t.size then a.mark t
  else a.take t

/-- `ChangedAccount`. -/
structure Changed where
  address : Nat
  nonce : Nat
  balance : Nat
deriving DecidableEq, Repr

/-- `BatchBuilderOutput`, and the transactions the pool is told to remove. -/
structure Output where
  batch : Batch
  mined : List Nat
  changed : List Changed
  removed : List Nat
deriving DecidableEq, Repr

/-- The account updates, batch.rs:173-182. -/
def changedOf (balance : Nat → Nat) (a : Acc) : List Changed :=
  a.nonces.map fun x => ⟨x.1, x.2 + 1, balance x.1 - (entry x.1 a.costs).getD 0⟩

/-- `build_batch`, batch.rs:49-187. -/
def build (epoch worker baseFee beneficiary : Nat) (balance : Nat → Nat) (best : List PTx) : Output :=
  let a := best.foldl step {}
  { batch := { txs := a.txs, epoch := epoch, beneficiary := beneficiary, baseFee := baseFee,
               workerId := worker }
    mined := a.mined
    changed := changedOf balance a
    removed := a.blobs ++ a.unsupported }

end Tx
end Verif
