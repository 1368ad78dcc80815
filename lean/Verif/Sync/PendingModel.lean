import Verif.Cert.Model
import Verif.Util.PMap
/-
Model of the certificate manager: `crates/consensus/primary/src/state_sync/pending_cert_manager.rs` and
`cert_manager.rs`. Certificates that arrive before their parents wait here.
-/
namespace Verif
namespace Sync

/-- `PendingCertificate`, pending_cert_manager.rs:14-21. Sets are lists; the order a hash set is iterated in is
the parameter `ord` below. -/
structure Entry where
  cert : Certificate
  missing : List Digest
deriving DecidableEq, Repr

/-- `PendingCertificateManager`, pending_cert_manager.rs:37-48: waiting certificates by digest, and by (round,
digest) of a missing parent those that wait for it. -/
structure Pending where
  pending : List (Digest × Entry) := []
  blocked : List ((Round × Digest) × List Digest) := []
deriving DecidableEq, Repr

/-- `CertManagerError` (primary/src/error/cert_manager.rs); `fuel` does not exist in the code (see `cascade`). -/
inductive Err where
  | mismatch (d : Digest)
  | notFound (d : Digest)
  | unverified (d : Digest)
  | pending (d : Digest)
  | genesisParent (d : Digest)
  | fuel
deriving DecidableEq, Repr

/-- `HashSet::insert`. -/
def setInsert (x : Digest) (s : List Digest) : List Digest := if x ∈ s then s else s ++ [x]

/-- `entry((round, parent)).or_default().insert(digest)` for every missing parent,
pending_cert_manager.rs:83-85. -/
def block (r : Round) (x : Digest) : List Digest → List ((Round × Digest) × List Digest) →
    List ((Round × Digest) × List Digest)
  | [], m => m
  | d :: ds, m => block r x ds (PMap.insert (r, d) (setInsert x ((PMap.get? (r, d) m).getD [])) m)

/-- Equality of sets. -/
def sameSet (a b : List Digest) : Bool := a.all (fun x => decide (x ∈ b)) && b.all (fun x => decide (x ∈ a))

/-- `insert_pending`, pending_cert_manager.rs:61-88. -/
def insertPending (m : Pending) (cert : Certificate) (missing : List Digest) : Pending × Except Err Unit :=
  let x := cert.header.digest
  let p := SMap.insert x ⟨cert, missing⟩ m.pending
  match SMap.get? x m.pending with
  | some e =>
    if sameSet e.missing missing then
      ({ pending := p, blocked := block (cert.header.round - 1) x missing m.blocked }, .ok ())
    else ({ m with pending := p }, .error (.mismatch x))
  | none => ({ pending := p, blocked := block (cert.header.round - 1) x missing m.blocked }, .ok ())

/-- The inner loop of `update_pending` over the certificates that wait for `d`, pending_cert_manager.rs:111-138. -/
def visit (d : Digest) : List Digest → Pending → List (Round × Digest) → List Certificate →
    Pending × Except Err (List (Round × Digest) × List Certificate)
  | [], m, q, ready => (m, .ok (q, ready))
  | x :: xs, m, q, ready =>
    match SMap.get? x m.pending with
    | none => (m, .error (.notFound x))
    | some e =>
      if e.missing.filter (fun y => decide (y ≠ d)) = [] then
        visit d xs { m with pending := SMap.erase x m.pending } (q ++ [(e.cert.header.round, x)])
          (ready ++ [e.cert])
      else
        visit d xs { m with pending := SMap.insert x ⟨e.cert, e.missing.filter (fun y => decide (y ≠ d))⟩ m.pending }
          q ready

/-- The loop of `update_pending`, pending_cert_manager.rs:102-139. The first argument bounds the number
of iterations; `.fuel` would mean the bound was too small (never, `updatePending_ok`). -/
def cascade (ord : List Digest → List Digest) : Nat → List (Round × Digest) → List Certificate → Pending →
    Pending × Except Err (List Certificate)
  | _, [], ready, m => (m, .ok ready)
  | 0, _ :: _, _, m => (m, .error .fuel)
  | n + 1, k :: q, ready, m =>
    match PMap.get? k m.blocked with
    | none => cascade ord n q ready m
    | some ds =>
      match visit k.2 (ord ds) { m with blocked := PMap.erase k m.blocked } q ready with
      | (m', .error e) => (m', .error e)
      | (m', .ok (q', ready')) => cascade ord n q' ready' m'

/-- `update_pending`, pending_cert_manager.rs:92-142. -/
def updatePending (ord : List Digest → List Digest) (m : Pending) (round : Round) (digest : Digest) :
    Pending × Except Err (List Certificate) :=
  cascade ord (2 * m.pending.length + 1) [(round, digest)] [] m

/-- `next_for_gc_round`, pending_cert_manager.rs:148-169. -/
def nextForGc (m : Pending) (gc : Round) : Pending × Option (Round × Digest) :=
  match m.blocked with
  | [] => (m, none)
  | (k, _) :: _ =>
    if gc < k.1 then (m, none)
    else
      match SMap.get? k.2 m.pending with
      | none => (m, some k)
      | some e => ({ m with pending := SMap.insert k.2 { e with missing := [] } m.pending }, some k)

/-- The certificate manager: the waiting certificates, the certificates in storage (by header), and (ghost) what
was handed to consensus, in order, each with the garbage collection round read for it. -/
structure Mgr where
  pend : Pending := {}
  store : List Header := []
  out : List (Certificate × Round) := []

/-- What does not change: iteration order of hash sets, the digests of the genesis certificates, how many
rounds the store keeps (`ROUNDS_TO_KEEP` = 64). -/
structure Cfg where
  ord : List Digest → List Digest
  genesis : List Digest
  keep : Nat := 64

/-- Highest round among certificates. -/
def maxRound : List Certificate → Round
  | [] => 0
  | c :: cs => max c.header.round (maxRound cs)

/-- `write_all` with `gc_rounds`, crates/storage/src/stores/certificate_store.rs:149-209: the certificates are added,
then everything more than `keep` rounds below the highest of them is deleted. -/
def writeAll (keep : Nat) (store : List Header) (certs : List Certificate) : List Header :=
  let all := certs.map (·.header) ++ store
  if maxRound certs ≤ keep then all
  else all.filter (fun h => decide (maxRound certs - keep ≤ h.round))

/-- `accept_verified_certificates`, cert_manager.rs:186-221: store, then one by one to the aggregator (see
`CertsAggMgr`) and consensus. Storage and channel errors are not modelled. -/
def accept (C : Cfg) (gc : Round) (m : Mgr) (certs : List Certificate) : Mgr :=
  { m with store := writeAll C.keep m.store certs, out := m.out ++ certs.map (fun c => (c, gc)) }

/-- `get_missing_parents`, cert_manager.rs:138-178. -/
def missingParents (C : Cfg) (store : List Header) (cert : Certificate) : Except Err (List Digest) :=
  if cert.header.round = 1 then
    match cert.header.parents.find? (fun d => decide (d ∉ C.genesis)) with
    | some d => .error (.genesisParent d)
    | none => .ok []
  else .ok (cert.header.parents.filter (fun d => decide (d ∉ store.map (·.digest))))

/-- `update_pending` and acceptance of what became ready, with `front` first (cert_manager.rs:123-126,
243-246). -/
def release (C : Cfg) (gc : Round) (m : Mgr) (k : Round × Digest) (front : List Certificate) : Mgr × Except Err Unit :=
  match updatePending C.ord m.pend k.1 k.2 with
  | (p, .error e) => ({ m with pend := p }, .error e)
  | (p, .ok ready) => (accept C gc { m with pend := p } (front ++ ready), .ok ())

/-- One certificate of `process_verified_certificates`, cert_manager.rs:85-127; `gc` is the garbage
collection round read for it. -/
def processOne (C : Cfg) (gc : Round) (m : Mgr) (cert : Certificate) : Mgr × Except Err Unit :=
  let x := cert.header.digest
  if cert.isVerified = false then (m, .error (.unverified x))
  else if (SMap.get? x m.pend.pending).isSome then (m, .error (.pending x))
  else if gc + 1 < cert.header.round then
    match missingParents C m.store cert with
    | .error e => (m, .error e)
    | .ok [] => release C gc m (cert.header.round, x) [cert]
    | .ok (d :: ds) =>
      match insertPending m.pend cert (d :: ds) with
      | (p, .error e) => ({ m with pend := p }, .error e)
      | (p, .ok _) => ({ m with pend := p }, .error (.pending x))
  else release C gc m (cert.header.round, x) [cert]

/-- `process_verified_certificates`, cert_manager.rs:75-136: all certificates in turn; a certificate that has to
wait is no reason to stop, any other error is. -/
def processBatch (C : Cfg) : Mgr → List (Certificate × Round) → Mgr × Except Err Unit
  | m, [] => (m, .ok ())
  | m, (cert, gc) :: rest =>
    match processOne C gc m cert with
    | (m', .ok _) => processBatch C m' rest
    | (m', .error (.pending x)) =>
      match processBatch C m' rest with
      | (m'', .ok _) => (m'', .error (.pending x))
      | r => r
    | (m', .error e) => (m', .error e)

/-- The loop of `process_gc_round`, cert_manager.rs:232-249 (the aggregators' part is `CertsAggMgr.garbageCollect`). -/
def gcLoop (C : Cfg) (gc : Round) : Nat → Mgr → Mgr × Except Err Unit
  | 0, m => (m, if (nextForGc m.pend gc).2.isSome then .error .fuel else .ok ())
  | n + 1, m =>
    match nextForGc m.pend gc with
    | (p, none) => ({ m with pend := p }, .ok ())
    | (p, some k) =>
      match release C gc { m with pend := p } k [] with
      | (m', .error e) => (m', .error e)
      | (m', .ok _) => gcLoop C gc n m'

/-- `process_gc_round`, cert_manager.rs:232-249. -/
def processGc (C : Cfg) (gc : Round) (m : Mgr) : Mgr × Except Err Unit :=
  gcLoop C gc m.pend.blocked.length m

end Sync
end Verif
