import Verif.Codec.Signed

/-!
# The signature precompile and proofs of possession (C110)

`crates/tn-reth/src/evm/bls_precompile/mod.rs` 60-190 (the contract-facing verifier);
`crates/types/src/crypto/bls_signature.rs` 159-214 (proofs of possession), `bls_public_key.rs` 128-130;
`crates/config/src/keys.rs` 334-340.

The curve is a parameter (`Curve`): decoding of signatures and keys, verification, and what is known of
them. ABI encoding is the standard one for `(bytes,bytes,bytes)`; the decoder (a library) is any function
that inverts it.
-/

namespace Verif.Bls
open Verif.Codec

/-- `blst::min_sig`: decoding accepts compressed and uncompressed points (48 or 96 bytes for signatures,
96 or 192 for keys). -/
structure Curve where
  Sig : Type
  Key : Type
  sigOf : Bytes → Option Sig
  keyOf : Bytes → Option Key
  sigBytes : Sig → Bytes
  keyBytes : Key → Bytes
  /-- subgroup and infinity check of a key (`validate`) -/
  valid : Key → Bool
  /-- `bls_verify_secure` (190-196), with both subgroup checks -/
  verify : Sig → Key → Bytes → Bool

/-- What is assumed of the curve: compressed encodings have 48 and 96 bytes and decode to what was
encoded; a key has one compressed encoding; verification includes the check of the key. -/
structure Curve.Ok (c : Curve) : Prop where
  sigLen : ∀ s, (c.sigBytes s).length = 48
  keyLen : ∀ k, (c.keyBytes k).length = 96
  sigRound : ∀ s, c.sigOf (c.sigBytes s) = some s
  keyRound : ∀ k, c.keyOf (c.keyBytes k) = some k
  keyCanon : ∀ b k, b.length = 96 → c.keyOf b = some k → c.keyBytes k = b
  checks : ∀ s k m, c.verify s k m = true → c.valid k = true

/-! ## The precompile -/

/-- The constants, mod.rs 76-97. -/
def baseGas : Nat := 150000
def wordGas : Nat := 12
def maxMessage : Nat := 4096

inductive Err where
  /-- `PrecompileError::Other` -/
  | other
  | outOfGas
  deriving DecidableEq, Repr

/-- A `u64`. -/
def u64 (n : Nat) : Option Nat := if n < 2 ^ 64 then some n else none

/-- `bls_verify_gas_cost`, 105-110. -/
def gasCost (len : Nat) : Option Nat :=
  (u64 ((len + 31) / 32)).bind fun words =>
    (u64 (words * wordGas)).bind fun g => u64 (baseGas + g)

/-- `bls_verify`, 179-191. -/
def Curve.blsVerify (c : Curve) (sig key message : Bytes) : Bool :=
  if sig.length ≠ 48 ∨ key.length ≠ 96 then false
  else
    match c.keyOf key with
    | none => false
    | some k =>
        match c.sigOf sig with
        | none => false
        | some s => c.verify s k message

/-- The decoder of the arguments. -/
abbrev Decoder := Bytes → Option (Bytes × Bytes × Bytes)

/-- A word of 32 bytes. -/
def word (n : Nat) : Bytes := beBytes 32 n

/-- `bool::abi_encode`. -/
def boolWord (b : Bool) : Bytes := word (if b then 1 else 0)

/-- `handle_bls_verify`, 149-171. -/
def Curve.handle (c : Curve) (dec : Decoder) (calldata : Bytes) (gas : Nat) : Except Err (Nat × Bytes) :=
  match dec calldata with
  | none => .error .other
  | some (sig, key, message) =>
      if message.length ≤ maxMessage then
        match gasCost message.length with
        | none => .error .outOfGas
        | some cost =>
            if cost ≤ gas then .ok (cost, boolWord (c.blsVerify sig key message))
            else .error .outOfGas
      else .error .other

/-- `dispatch`, 128-139; `selector` is the first four bytes of the hash of the signature. -/
def Curve.dispatch (c : Curve) (dec : Decoder) (selector : Bytes) (data : Bytes) (gas : Nat) :
    Except Err (Nat × Bytes) :=
  if data.length < 4 then .error .other
  else if data.take 4 = selector then c.handle dec (data.drop 4) gas
  else .error .other

/-! ## Standard encoding of the call -/

/-- Zeros up to a multiple of 32. -/
def pad (b : Bytes) : Bytes := b ++ List.replicate ((32 - b.length % 32) % 32) 0

/-- The tail of a `bytes` argument. -/
def tail (b : Bytes) : Bytes := word b.length ++ pad b

/-- `abi_encode` of three `bytes`: offsets, then the tails. -/
def encode (sig key message : Bytes) : Bytes :=
  word 96 ++ word (96 + (tail sig).length) ++ word (96 + (tail sig).length + (tail key).length) ++
    (tail sig ++ tail key ++ tail message)

/-- A decoder that inverts the standard encoding (of arguments whose size is a `u64`). -/
def Inverts (dec : Decoder) : Prop :=
  ∀ sig key message : Bytes, sig.length < 2 ^ 64 → key.length < 2 ^ 64 → message.length < 2 ^ 64 →
    dec (encode sig key message) = some (sig, key, message)

/-- A big-endian number. -/
def beNat (b : Bytes) : Nat := leNat b.reverse

/-- The word at a position. -/
def wordAt (b : Bytes) (at' : Nat) : Option Nat :=
  if at' + 32 ≤ b.length then some (beNat ((b.drop at').take 32)) else none

/-- The `bytes` at a position. -/
def bytesAt (b : Bytes) (at' : Nat) : Option Bytes :=
  (wordAt b at').bind fun n =>
    if at' + 32 + n ≤ b.length then some ((b.drop (at' + 32)).take n) else none

/-- A decoder by the book, to show that there is one. -/
def standard : Decoder := fun b =>
  (wordAt b 0).bind fun o1 => (wordAt b 32).bind fun o2 => (wordAt b 64).bind fun o3 =>
    (bytesAt b o1).bind fun s => (bytesAt b o2).bind fun k => (bytesAt b o3).bind fun m =>
      some (s, k, m)

/-! ## Proofs of possession -/

/-- `construct_proof_of_possession_message`, 206-214. -/
def Curve.popMessage (c : Curve) (k : c.Key) (address : Bytes) : Bytes :=
  intent 0 0 ++ c.keyBytes k ++ address

/-- `verify_proof_of_possession_bls`, 171-183; used for genesis and by the key tool. -/
def Curve.verifyPop (c : Curve) (proof : c.Sig) (k : c.Key) (address : Bytes) : Bool :=
  if c.valid k then c.verify proof k (c.popMessage k address) else false

/-- The registry's call for a stored key and an address: the message it builds, and the precompile. -/
def Curve.registry (c : Curve) (sig key address : Bytes) : Bool :=
  c.blsVerify sig key (intent 0 0 ++ key ++ address)

end Verif.Bls
