import Mathlib.Data.List.Perm.Basic
import Mathlib.Data.List.Sort
import Mathlib.Data.List.Dedup
import Mathlib.Data.Nat.Factorial.Basic
import Mathlib.Tactic.Ring
/-
Model of the choice of the next committee: `assemble_new_committee` (`crates/tn-reth/src/evm/block.rs` 1557-1613),
`shuffle_new_committee` 966-982, `read_committee_eligible_pool` 992-1025, `generate_conclude_epoch_calldata` 936-953,
`apply_closing_epoch_contract_call` 377-438, and of `IteratorRandom::choose_multiple` of the `rand` crate (reservoir
sampling; not part of the repository).

The random number generator is the list of its draws: the n-th call of `random_range(0..b)` gives the n-th entry,
which is below `b`. `drawBounds` lists the `b` of the calls in order. The pre-fork path of the `adiri` feature reads the
pool in one call and makes no slash call; the pool of `assemble` is arbitrary here, so it covers both.
-/
namespace Verif
namespace Shuffle

/-- The statuses that are eligible for a committee. -/
inductive Status where
  | active
  | pendingActivation
  | pendingExit
deriving DecidableEq, Repr

/-- `ValidatorInfo`: what the choice looks at. -/
structure Val where
  addr : Nat
  status : Status
deriving DecidableEq, Repr

def Val.exiting (v : Val) : Bool := decide (v.status = .pendingExit)

/-- `slice::swap`. -/
def swap {α : Type} (l : List α) (i j : Nat) : List α :=
  match l[i]?, l[j]? with
  | some a, some b => (l.set i b).set j a
  | _, _ => l

/-- `for i in (1..len).rev() { j = random_range(0..=i); swap(i, j) }`, block.rs:1594-1597. -/
def shuffle {α : Type} : Nat → List α → List Nat → List α
  | 0, l, _ => l
  | i + 1, l, ds => shuffle i (swap l (i + 1) (ds.headD 0)) ds.tail

/-- The loop of `choose_multiple`: every further element replaces the slot drawn, if there is one. -/
def reservoir {α : Type} : List α → List α → List Nat → List α × List Nat
  | res, [], ds => (res, ds)
  | res, x :: xs, ds => reservoir (res.set (ds.headD 0) x) xs ds.tail

/-- `IteratorRandom::choose_multiple`. -/
def chooseMultiple {α : Type} (amount : Nat) (xs : List α) (ds : List Nat) : List α × List Nat :=
  if xs.length < amount then (xs, ds) else reservoir (xs.take amount) (xs.drop amount) ds

inductive Err where
  | zeroSize
  | undersized (expected got : Nat)
deriving DecidableEq, Repr

/-- Those that are shuffled, and the draws left, block.rs:1575-1589. -/
def candidates (size : Nat) (pool : List Val) (ds : List Nat) : List Val × List Nat :=
  let exiting := pool.filter (fun v => v.exiting)
  let act := pool.filter (fun v => !v.exiting)
  if size ≤ act.length then (act, ds)
  else
    let r := chooseMultiple (size - act.length) exiting ds
    (act ++ r.1, r.2)

/-- `assemble_new_committee`, block.rs:1557-1613. -/
def assemble (size : Nat) (pool : List Val) (ds : List Nat) : Except Err (List Nat) :=
  if size = 0 then .error .zeroSize
  else
    let c := candidates size pool ds
    let committee := ((shuffle (c.1.length - 1) c.1 c.2).map (·.addr)).take size
    if committee.length = size then .ok committee else .error (.undersized size committee.length)

/-! ### The draws -/

/-- The bounds of the draws of `choose_multiple` once `t` elements have been seen and `m` are to come. -/
def resBounds : Nat → Nat → List Nat
  | _, 0 => []
  | t, m + 1 => (t + 1) :: resBounds (t + 1) m

/-- The bounds of the draws of the shuffle. -/
def shufBounds : Nat → List Nat
  | 0 => []
  | i + 1 => (i + 2) :: shufBounds i

/-- The bounds of all draws, in order. -/
def drawBounds (size : Nat) (pool : List Val) : List Nat :=
  let e := (pool.filter (fun v => v.exiting)).length
  let a := (pool.filter (fun v => !v.exiting)).length
  if size ≤ a then shufBounds (a - 1)
  else resBounds (size - a) (e - (size - a)) ++ shufBounds (a + min e (size - a) - 1)

/-- All sequences of draws within bounds. -/
def draws : List Nat → List (List Nat)
  | [] => [[]]
  | b :: bs => (List.range b).flatMap (fun d => (draws bs).map (d :: ·))

/-- A sequence of draws within bounds. -/
def Valid (bs ds : List Nat) : Prop := List.Forall₂ (fun d b => d < b) ds bs

/-! ### The registry and the closing calls -/

/-- The registry contract as it is called at an epoch's end; `none` is a revert. -/
structure Registry (σ : Type) where
  incentives : σ → Option σ
  slashes : σ → Option σ
  size : σ → Option Nat
  info : σ → Status → Option (List Val)
  conclude : List Nat → σ → Option σ
  fees : σ → Option σ

variable {σ : Type}

/-- `read_committee_eligible_pool`, block.rs:992-1025. -/
def Registry.pool (R : Registry σ) (s : σ) : Option (List Val) :=
  match R.info s .active, R.info s .pendingActivation, R.info s .pendingExit with
  | some a, some b, some c => some (a ++ b ++ c)
  | _, _, _ => none

/-- `generate_conclude_epoch_calldata`, block.rs:936-953, with `shuffle_new_committee`, 966-982. -/
def Registry.committee (R : Registry σ) (s : σ) (ds : List Nat) : Option (List Nat) :=
  match R.size s, R.pool s with
  | some n, some p =>
    match assemble n p ds with
    | .ok c => some (c.insertionSort (· ≤ ·))
    | .error _ => none
  | _, _ => none

/-- `apply_closing_epoch_contract_call`, block.rs:377-438: a failure of any call fails the block. -/
def Registry.close (R : Registry σ) (s : σ) (ds : List Nat) : Option σ :=
  (R.incentives s).bind fun s1 =>
  (R.slashes s1).bind fun s2 =>
  (R.committee s2 ds).bind fun c =>
  (R.conclude c s2).bind fun s3 => R.fees s3

end Shuffle
end Verif
