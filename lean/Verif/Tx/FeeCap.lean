import Mathlib.Tactic.Common
/-
Model of the fee cap on submitted transactions: `crates/tn-reth/src/rpc_fee_cap.rs` (`TxFeeCapWei` 41-86,
`EthSubmitWithCap` 110-150) and its installation on the RPC server (`get_rpc_server`,
`crates/tn-reth/src/env/rpc.rs` 79-130).

The decoding of a transaction (`PooledTransaction::decode_2718_exact`) is an arbitrary function; what reth does
with the bytes once the guard has let them through is the effect `handed raw`.
-/
namespace Verif
namespace Cap

/-- The fields the check reads: `max_fee_per_gas` (u128), `gas_limit` (u64), and of a blob transaction
`max_fee_per_blob_gas` (u128) and `blob_gas_used` (u64). -/
structure Tx where
  maxFee : Nat
  gasLimit : Nat
  blobFee : Option Nat
  blobGas : Option Nat
deriving DecidableEq, Repr

/-- The widths of the fields. -/
structure Tx.Fits (tx : Tx) : Prop where
  maxFee : tx.maxFee < 2 ^ 128
  gasLimit : tx.gasLimit < 2 ^ 64
  blobFee : ∀ f, tx.blobFee = some f → f < 2 ^ 128
  blobGas : ∀ g, tx.blobGas = some g → g < 2 ^ 64

/-- `U256::saturating_mul`. -/
def satMul (a b : Nat) : Nat := min (a * b) (2 ^ 256 - 1)

/-- `U256::saturating_add`. -/
def satAdd (a b : Nat) : Nat := min (a + b) (2 ^ 256 - 1)

/-- `saturating_to::<u128>`. -/
def toU128 (a : Nat) : Nat := min a (2 ^ 128 - 1)

inductive CapErr where
  /-- `EthApiError::EmptyRawTransactionData` -/
  | empty
  /-- `EthApiError::FailedToDecodeSignedTransaction` -/
  | undecodable
  /-- `RpcPoolError::ExceedsFeeCap { max_tx_fee_wei, tx_fee_cap_wei }` -/
  | exceeds (fee cap : Nat)
deriving DecidableEq, Repr

/-- The blob part, rpc_fee_cap.rs:71-77. -/
def blobPart (tx : Tx) : Nat :=
  match tx.blobFee, tx.blobGas with
  | some f, some g => satMul f g
  | _, _ => 0

/-- `max_tx_fee_wei`, 70-78. -/
def maxTxFee (tx : Tx) : Nat := satAdd (satMul tx.maxFee tx.gasLimit) (blobPart tx)

/-- `check_cap`, 69-85. -/
def checkCap (tx : Tx) (cap : Nat) : Except CapErr Unit :=
  if maxTxFee tx ≤ cap then .ok () else .error (.exceeds (toU128 (maxTxFee tx)) cap)

/-- `enforce`, 52-61. -/
def enforce (decode : List Nat → Option Tx) (cap : Nat) (raw : List Nat) : Except CapErr Unit :=
  if cap = 0 then .ok ()
  else if raw = [] then .error .empty
  else
    match decode raw with
    | none => .error .undecodable
    | some tx => checkCap tx cap

/-- The answer to one call. -/
inductive Answer where
  /-- the transport serves no such method -/
  | unknown
  | refused (e : CapErr)
  /-- the bytes were handed to reth's own handler, whose answer it is -/
  | handed (raw : List Nat)
  /-- any other method of reth -/
  | other
deriving DecidableEq, Repr

/-- The methods that matter: the two that submit a raw transaction, and all the others. -/
inductive Method where
  | sendRaw
  | sendRawSync
  | other (name : Nat)
deriving DecidableEq, Repr

/-- Where a method of a transport leads. -/
inductive Handler where
  /-- reth's handler -/
  | reth
  /-- `EthSubmitWithCap`, 133-149 -/
  | guarded (cap : Nat)
deriving DecidableEq, Repr

/-- A transport (http, ws or ipc): the namespaces configured for it and its methods. -/
structure Transport where
  /-- the `eth` namespace is among the configured modules -/
  eth : Bool
  table : Method → Option Handler

/-- A transport as reth's builder makes it: the methods of `eth` are there when the namespace is configured. -/
def built (eth : Bool) (others : Nat → Bool) : Transport where
  eth := eth
  table
    | .sendRaw => if eth then some .reth else none
    | .sendRawSync => if eth then some .reth else none
    | .other n => if others n then some .reth else none

/-- `add_or_replace_if_module_configured(Eth, fee_cap_guard.into_rpc())`, env/rpc.rs:127: the two methods of the
guard are put in place of reth's on a transport whose configuration has the namespace. -/
def install (cap : Nat) (t : Transport) : Transport :=
  if t.eth then
    { t with table := fun m =>
        match m with
        | .sendRaw => some (.guarded cap)
        | .sendRawSync => some (.guarded cap)
        | .other n => t.table (.other n) }
  else t

/-- `get_rpc_server`, env/rpc.rs:79-130: the transports it returns. -/
def server (cap : Nat) (config : List (Bool × (Nat → Bool))) : List Transport :=
  (config.map (fun c => built c.1 c.2)).map (install cap)

/-- One call on a transport. `send_raw_transaction` and `send_raw_transaction_sync`, rpc_fee_cap.rs:133-149, check
the cap and then delegate. -/
def call (decode : List Nat → Option Tx) (t : Transport) (m : Method) (raw : List Nat) : Answer :=
  match t.table m with
  | none => .unknown
  | some h =>
    match m with
    | .other _ => .other
    | _ =>
      match h with
      | .reth => .handed raw
      | .guarded cap =>
        match enforce decode cap raw with
        | .ok _ => .handed raw
        | .error e => .refused e

/-! ## The check of reth's validator -/

/-- `EthTransactionValidator` compares `cost - value`, where the products are saturated in `u128` before they
are widened (rpc_fee_cap.rs:14-16). -/
def rethFee (tx : Tx) : Nat :=
  toU128 (tx.maxFee * tx.gasLimit) +
    (match tx.blobFee, tx.blobGas with
     | some f, some g => toU128 (f * g)
     | _, _ => 0)

/-- Its test, which a cap of zero skips. -/
def rethAllows (cap : Nat) (tx : Tx) : Bool := decide (cap = 0) || decide (rethFee tx ≤ cap)

end Cap
end Verif
