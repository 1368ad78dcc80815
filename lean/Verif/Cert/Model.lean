import Verif.Committee.Model
import Verif.Util.SMap
/-
Model of certificate assembly and verification (`crates/types/src/primary/certificate.rs`) and of the
two aggregators (`crates/consensus/primary/src/aggregators/{votes,certificates}.rs`).
-/
namespace Verif

/-- The BLS operations used, abstract. `verify` is `ProtocolSignature::verify_secure` of one
signature, `aggregate` is `BlsAggregateSignature::aggregate(.., true)` (`none` = error),
`verifyAgg` is `BlsAggregateSignature::verify_secure` against a list of keys.
`crates/types/src/crypto/bls_signature.rs`. -/
structure Bls where
  verify : Sig → Digest → Key → Bool
  aggregate : List Sig → Option Sig
  verifyAgg : Sig → Digest → List Key → Bool

/-- `SignatureVerificationState`, certificate.rs:425-446. -/
inductive SigState where
  | unsigned (s : Sig)
  | unverified (s : Sig)
  | verifiedDirectly (s : Sig)
  | verifiedIndirectly (s : Sig)
  | genesis
deriving DecidableEq, Repr

/-- `Certificate`, certificate.rs:29-38; the roaring bitmap is its ascending list of indices. -/
structure Certificate where
  header : Header
  state : SigState
  bitmap : List Nat
deriving DecidableEq, Repr

/-- The error variants (`DagError`, `CertificateError`, `HeaderError`;
`crates/types/src/error.rs`) that the modelled functions return. -/
inductive CertErr where
  | unknownAuthority
  | requiresQuorum
  | invalidSignature
  | authorityReuse
  | invalidHeaderDigest
  | invalidEpoch
  | inquorate (stake threshold : Nat)
  | unsigned
  | recoverSignature
  | tooManyParents
  | tooManyBatches
  | unknownWorkerId
deriving DecidableEq, Repr

namespace Certificate

/-- The closure walked over the committee in `new_internal`, certificate.rs:108-128: committee
authorities in key order with their index; votes as the remaining `BTreeMap`, ascending. Whenever
the committee key equals the first remaining vote's key, that vote is popped (together with
repeats of the same pair) and the index is kept. Returns kept indices, popped signatures and
remaining votes; the weight is the number of popped votes (power 1 each). -/
def walk : List Authority → Nat → List (Key × Sig) → List Nat × List Sig × List (Key × Sig)
  | [], _, votes => ([], [], votes)
  | _ :: as, i, [] => walk as (i + 1) []
  | a :: as, i, (k, s) :: vs =>
    if a.key = k then
      let r := walk as (i + 1) (vs.dropWhile (fun p => p.1 == k && p.2 == s))
      (i :: r.1, s :: r.2.1, r.2.2)
    else walk as (i + 1) ((k, s) :: vs)

/-- `Certificate::new_internal`, certificate.rs:94-160. `defaultSig` is `BlsSignature::default()`.
`RoaringBitmap::from_sorted_iter` cannot fail because the indices are ascending. -/
def newInternal (B : Bls) (c : Committee) (header : Header) (votes : List (Key × Sig))
    (checkStake : Bool) (defaultSig : Sig := 0) : Except CertErr Certificate :=
  let r := walk c.authorities 0 votes
  if r.2.2 ≠ [] then .error .unknownAuthority
  else if checkStake && decide (r.2.1.length < c.quorumThreshold) then .error .requiresQuorum
  else
    let sig? := if r.2.1 = [] then some defaultSig else B.aggregate r.2.1
    match sig? with
    | none => .error .invalidSignature
    | some s => .ok { header, state := if checkStake then .unverified s else .unsigned s,
                      bitmap := r.1 }

/-- `Certificate::new_unverified`, certificate.rs:62-77: votes by identifier are translated to keys,
dropping strangers, and collected into a `BTreeMap`. -/
def newUnverified (B : Bls) (c : Committee) (header : Header)
    (votes : List (AuthorityId × Sig)) : Except CertErr Certificate :=
  newInternal B c header
    (SMap.ofList (votes.filterMap (fun v => (c.authority v.1).map (fun a => (a.key, v.2))))) true

/-- The filter of `signed_by`, certificate.rs:184-194: committee keys in order with their index;
the cursor into the ascending bitmap advances on a match only. -/
def signedKeys : List Key → Nat → List Nat → List Key
  | [], _, _ => []
  | _ :: _, _, [] => []
  | k :: ks, i, b :: bs => if b = i then k :: signedKeys ks (i + 1) bs
                           else signedKeys ks (i + 1) (b :: bs)

/-- `Certificate::signed_by`, certificate.rs:175-196: (weight, keys). -/
def signedBy (cert : Certificate) (committee : List Key) : Nat × List Key :=
  let pks := signedKeys committee 0 cert.bitmap
  (pks.length, pks)

/-- `Certificate::aggregated_signature`, certificate.rs:329-337. -/
def aggregatedSignature (cert : Certificate) : Option Sig :=
  match cert.state with
  | .verifiedDirectly s | .unverified s | .verifiedIndirectly s | .unsigned s => some s
  | .genesis => none

/-- `Certificate::is_verified`, certificate.rs:357-364. -/
def isVerified (cert : Certificate) : Bool :=
  match cert.state with
  | .verifiedDirectly _ | .verifiedIndirectly _ | .genesis => true
  | _ => false

/-- `Certificate::verify_signature`, certificate.rs:272-297. -/
def verifySignature (B : Bls) (cert : Certificate) (pks : List Key) :
    Except CertErr Certificate :=
  match cert.state with
  | .verifiedIndirectly _ | .verifiedDirectly _ | .genesis => .ok cert
  | .unsigned _ => .error .unsigned
  | .unverified s =>
    if B.verifyAgg s cert.header.digest pks then .ok { cert with state := .verifiedDirectly s }
    else .error .invalidSignature

/-- `Certificate::validate_received` / `validate_fetched_certificate`, certificate.rs:300-306,
461-470: forget any claimed verification. -/
def validateReceived (cert : Certificate) : Except CertErr Certificate :=
  match cert.aggregatedSignature with
  | none => .error .recoverSignature
  | some s => .ok { cert with state := .unverified s }

/-- `Certificate::verify_cert`, certificate.rs:257-269. -/
def verifyCert (B : Bls) (cert : Certificate) (committee : List Key) :
    Except CertErr Certificate := do
  let cert ← cert.validateReceived
  let sb := cert.signedBy committee
  if sb.1 < quorumThresholdOf committee.length then
    .error (.inquorate sb.1 (quorumThresholdOf committee.length))
  else cert.verifySignature B sb.2

end Certificate

/-- `MAX_HEADER_NUM_OF_BATCHES`, `crates/types/src/primary/mod.rs:71`. -/
def maxHeaderNumOfBatches : Nat := 10

/-- `Header::validate`, header.rs:118-166; `number_of_workers` is 1 (committee.rs:605-608). -/
def Header.validate (h : Header) (c : Committee) : Except CertErr Unit :=
  if h.epoch ≠ c.epoch then .error .invalidEpoch
  else if c.size < h.parents.length then .error .tooManyParents
  else if maxHeaderNumOfBatches < h.payload.length then .error .tooManyBatches
  else if (c.authority h.author).isNone then .error .unknownAuthority
  else if h.payload.any (fun p => decide (1 ≤ p.2)) then .error .unknownWorkerId
  else .ok ()

namespace Certificate

/-- `Certificate::genesis(committee).contains(self)`, certificate.rs:47-58, 496-503. `genesisDigest`
is the digest of the empty header of that author and epoch. `PartialEq` compares digest, round,
epoch and origin. -/
def isGenesis (genesisDigest : AuthorityId → Epoch → Digest) (cert : Certificate) (c : Committee) :
    Bool :=
  c.authorities.any (fun a => cert.header.digest == genesisDigest a.id c.epoch &&
    cert.header.round == 0 && cert.header.epoch == c.epoch && cert.header.author == a.id)

/-- `Certificate::validate_and_verify`, certificate.rs:222-253. -/
def validateAndVerify (B : Bls)
    (genesisDigest : AuthorityId → Epoch → Digest) (cert : Certificate) (c : Committee) :
    Except CertErr Certificate :=
  if cert.header.epoch ≠ c.epoch then .error .invalidEpoch
  else if cert.header.round == 0 && cert.isGenesis genesisDigest c then .ok cert
  else match cert.header.validate c with
    | .error e => .error e
    | .ok _ =>
      let sb := cert.signedBy c.blsKeys
      if sb.1 < c.quorumThreshold then .error (.inquorate sb.1 c.quorumThreshold)
      else cert.verifySignature B sb.2

end Certificate

/-- `Vote`, `crates/types/src/primary/vote.rs:13-28` (fields the aggregator reads). -/
structure Vote where
  headerDigest : Digest
  round : Round := 0
  epoch : Epoch := 0
  origin : AuthorityId := 0
  author : AuthorityId
  signature : Sig
deriving DecidableEq, Repr

/-- `VotesAggregator`, aggregators/votes.rs:13-22. -/
structure VotesAgg where
  weight : Nat := 0
  verified : List (AuthorityId × Sig) := []
  seen : List AuthorityId := []
deriving DecidableEq, Repr

namespace VotesAgg

/-- `VotesAggregator::append`, aggregators/votes.rs:34-90. -/
def append (B : Bls) (st : VotesAgg) (v : Vote) (c : Committee) (h : Header) :
    VotesAgg × Except CertErr (Option Certificate) :=
  if v.author ∈ st.seen then (st, .error .authorityReuse)
  else
    let st := { st with seen := v.author :: st.seen }
    if v.headerDigest ≠ h.digest then (st, .error .invalidHeaderDigest)
    else match c.authority v.author with
      | none => (st, .error .unknownAuthority)
      | some a =>
        if B.verify v.signature v.headerDigest a.key = false then (st, .error .invalidSignature)
        else
          let st := { st with verified := st.verified ++ [(v.author, v.signature)],
                              weight := st.weight + c.votingPowerById v.author }
          if c.quorumThreshold ≤ st.weight then
            match Certificate.newUnverified B c h st.verified with
            | .error e => (st, .error e)
            | .ok cert =>
              match cert.aggregatedSignature with
              | none => (st, .error .invalidSignature)
              | some s => (st, .ok (some { cert with state := .verifiedDirectly s }))
          else (st, .ok none)

/-- Feeding a sequence of votes; the outputs in order. -/
def run (B : Bls) (c : Committee) (h : Header) :
    VotesAgg → List Vote → VotesAgg × List (Except CertErr (Option Certificate))
  | st, [] => (st, [])
  | st, v :: vs =>
    let r := append B st v c h
    let r2 := run B c h r.1 vs
    (r2.1, r.2 :: r2.2)

end VotesAgg

/-- `CertificatesAggregator`, aggregators/certificates.rs:54-64. Certificates are represented by
origin and an opaque payload. -/
structure CertsAgg where
  weight : Nat := 0
  certificates : List (AuthorityId × Digest) := []
  seen : List AuthorityId := []
deriving DecidableEq, Repr

namespace CertsAgg

/-- `CertificatesAggregator::append`, aggregators/certificates.rs:76-106. -/
def append (st : CertsAgg) (cert : AuthorityId × Digest) (c : Committee) :
    CertsAgg × Option (List (AuthorityId × Digest)) :=
  if cert.1 ∈ st.seen then (st, none)
  else
    let st := { st with seen := cert.1 :: st.seen
                        certificates := st.certificates ++ [cert]
                        weight := st.weight + c.votingPowerById cert.1 }
    if c.quorumThreshold ≤ st.weight then
      ({ st with certificates := [] }, some st.certificates)
    else (st, none)

/-- Feeding a sequence of certificates of one round; outputs in order. -/
def run (c : Committee) :
    CertsAgg → List (AuthorityId × Digest) →
      CertsAgg × List (Option (List (AuthorityId × Digest)))
  | st, [] => (st, [])
  | st, x :: xs =>
    let r := append st x c
    let r2 := run c r.1 xs
    (r2.1, r.2 :: r2.2)

end CertsAgg

/-- `CertificatesAggregatorManager`, aggregators/certificates.rs:9-53: one aggregator per round;
`sent` is the sequence of `(parents, round)` messages to the proposer. -/
structure CertsAggMgr where
  aggregators : List (Round × CertsAgg) := []
  sent : List (List (AuthorityId × Digest) × Round) := []
deriving DecidableEq, Repr

namespace CertsAggMgr

/-- `append_certificate`, aggregators/certificates.rs:25-46. -/
def appendCertificate (m : CertsAggMgr) (round : Round) (cert : AuthorityId × Digest)
    (c : Committee) : CertsAggMgr :=
  let agg := (SMap.get? round m.aggregators).getD {}
  let r := agg.append cert c
  { aggregators := SMap.insert round r.1 m.aggregators
    sent := match r.2 with
      | none => m.sent
      | some ps => m.sent ++ [(ps, round)] }

/-- `garbage_collect`, aggregators/certificates.rs:49-52. -/
def garbageCollect (m : CertsAggMgr) (gcRound : Round) : CertsAggMgr :=
  { m with aggregators := m.aggregators.filter (fun p => decide (gcRound < p.1)) }

end CertsAggMgr
end Verif
