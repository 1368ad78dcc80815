/-
Shared data types of the model. Identifiers, keys, digests, ... are natural numbers; the readable names
below are macros for `Nat`.
-/
namespace Verif

/-- Identifier of an authority. Models `AuthorityIdentifier` (32 byte hash of the BLS key),
`crates/types/src/committee.rs:300-345`; only equality and order are used, so `Nat`. -/
scoped macro "AuthorityId" : term => `(Nat)
/-- BLS public key; `crates/types/src/crypto/bls_public_key.rs`. Only equality and order are used. -/
scoped macro "Key" : term => `(Nat)
/-- Digest of a header / certificate; `HeaderDigest`, `crates/types/src/primary/header.rs`. -/
scoped macro "Digest" : term => `(Nat)
/-- `Round`, u32 in the code. -/
scoped macro "Round" : term => `(Nat)
/-- `Epoch`, u32 in the code. -/
scoped macro "Epoch" : term => `(Nat)
/-- A BLS signature (individual or aggregate); abstract. -/
scoped macro "Sig" : term => `(Nat)

/-- `Authority` with its identifier, BLS key and fee recipient;
`crates/types/src/committee.rs:130-177`. Voting power is the constant 1
(`EQUAL_VOTING_POWER`), so it is not a field. -/
structure Authority where
  id : AuthorityId
  key : Key
  addr : Nat := 0
deriving DecidableEq, Repr

/-- `Committee`, `crates/types/src/committee.rs:199-221, 265-268`. `authorities` is the
`BTreeMap<BlsPublicKey, Authority>` as the list of its values in ascending key order. The
thresholds are functions of the size (they are recomputed by `load`). Bootstrap servers are
not modelled. -/
structure Committee where
  epoch : Epoch
  authorities : List Authority
deriving DecidableEq, Repr

/-- The fields of `HeaderInner` that consensus reads, `crates/types/src/primary/header.rs:18-61`.
`payload` is the `IndexMap<BlockHash, WorkerId>` in insertion order, `parents` the
`BTreeSet<HeaderDigest>` in ascending order, `digest` the cached digest. The latest execution
block and the seed signature are opaque numbers. -/
structure Header where
  author : AuthorityId
  round : Round
  epoch : Epoch
  createdAt : Nat := 0
  payload : List (Nat × Nat) := []
  parents : List Digest := []
  latestExec : Nat × Nat := (0, 0)
  seedSig : Sig := 0
  digest : Digest
deriving DecidableEq, Repr

end Verif
