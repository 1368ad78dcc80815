import Verif.Sync.PendingModel
/-
Model of the certificate store, `crates/storage/src/stores/certificate_store.rs`: three tables that have to agree.
Each public function is one database transaction (writes: one for the new rows, one for the
garbage collection), so each is one step here. Property C35.
-/
namespace Verif
namespace CertStore

/-- The tables `Certificates`, `CertificateDigestByRound`, `CertificateDigestByOrigin`, in key
order (lib.rs:95-125; keys are compared as big endian bytes, see `Codec`). -/
structure Db where
  certs : List (Digest × Certificate) := []
  byRound : List ((Round × AuthorityId) × Digest) := []
  byOrigin : List ((AuthorityId × Round) × Digest) := []
deriving DecidableEq, Repr

/-- `save_cert`, certificate_store.rs:125-143. -/
def save (db : Db) (c : Certificate) : Db :=
  { certs := SMap.insert c.header.digest c db.certs
    byRound := PMap.insert (c.header.round, c.header.author) c.header.digest db.byRound
    byOrigin := PMap.insert (c.header.author, c.header.round) c.header.digest db.byOrigin }

/-- The rows of one certificate are removed, certificate_store.rs:163-166. -/
def removeRow (db : Db) (r : Round) (o : AuthorityId) (d : Digest) : Db :=
  { certs := SMap.erase d db.certs
    byRound := PMap.erase (r, o) db.byRound
    byOrigin := PMap.erase (o, r) db.byOrigin }

/-- The second loop of `gc_rounds`, certificate_store.rs:162-167. -/
def removeRows : List ((Round × AuthorityId) × Digest) → Db → Db
  | [], db => db
  | ((r, o), d) :: rest, db => removeRows rest (removeRow db r o d)

/-- `gc_rounds`, certificate_store.rs:146-170; `keep` is `ROUNDS_TO_KEEP`. -/
def gcRounds (keep : Nat) (target : Round) (db : Db) : Db :=
  if target ≤ keep then db
  else removeRows (db.byRound.takeWhile (fun kv => decide (kv.1.1 < target - keep))) db

/-- The new rows of `write` and `write_all`, certificate_store.rs:174-184, 190-206. -/
def saveAll : List Certificate → Db → Db
  | [], db => db
  | c :: cs, db => saveAll cs (save db c)

/-- `write_all`, certificate_store.rs:190-211. -/
def writeAll (keep : Nat) (cs : List Certificate) (db : Db) : Db :=
  gcRounds keep (Sync.maxRound cs) (saveAll cs db)

/-- `write`, certificate_store.rs:174-185. -/
def write (keep : Nat) (c : Certificate) (db : Db) : Db := gcRounds keep c.header.round (save db c)

/-- `delete`, certificate_store.rs:276-299. -/
def delete (d : Digest) (db : Db) : Db :=
  match SMap.get? d db.certs with
  | none => db
  | some c => removeRow db c.header.round c.header.author d

/-- `read`, certificate_store.rs:213-215. -/
def read (db : Db) (d : Digest) : Option Certificate := SMap.get? d db.certs

/-- `read_by_index`, certificate_store.rs:219-228. -/
def readByIndex (db : Db) (o : AuthorityId) (r : Round) : Option Certificate :=
  match PMap.get? (o, r) db.byOrigin with
  | none => none
  | some d => read db d

/-- `contains`, certificate_store.rs:230-232. -/
def contains (db : Db) (d : Digest) : Bool := (SMap.get? d db.certs).isSome

/-- `skip_to`, mem_db.rs:206-232. -/
def skipTo {β : Type} (k : Nat × Nat) (m : List ((Nat × Nat) × β)) : List ((Nat × Nat) × β) :=
  m.dropWhile (fun kv => decide (PMap.Lt kv.1 k))

/-- `record_prior_to`, mem_db.rs:259-276. -/
def recordPriorTo {β : Type} (k : Nat × Nat) (m : List ((Nat × Nat) × β)) : Option ((Nat × Nat) × β) :=
  (m.takeWhile (fun kv => decide (PMap.Lt kv.1 k))).getLast?

/-- The loop of `after_round`, certificate_store.rs:312-330; `none` is the error of a dangling index
row. -/
def afterLoop (certs : List (Digest × Certificate)) (round : Round) :
    List ((Round × AuthorityId) × Digest) → Option (List Certificate)
  | [] => some []
  | ((r, _), d) :: rest =>
    if round ≤ r then
      match SMap.get? d certs with
      | none => none
      | some c => (afterLoop certs round rest).map (c :: ·)
    else afterLoop certs round rest

/-- The rows `after_round` and `origins_after_round` look at, certificate_store.rs:306-310. -/
def rowsFrom (db : Db) (round : Round) : List ((Round × AuthorityId) × Digest) :=
  if 0 < round then skipTo (round - 1, 0) db.byRound else db.byRound

/-- `after_round`, certificate_store.rs:303-331. -/
def afterRound (db : Db) (round : Round) : Option (List Certificate) :=
  afterLoop db.certs round (rowsFrom db round)

/-- `origins_after_round`, certificate_store.rs:336-355; the `BTreeMap<Round, Vec<_>>` as its
(round, origin) pairs in order. -/
def originsAfterRound (db : Db) (round : Round) : List (Round × AuthorityId) :=
  ((rowsFrom db round).filter (fun kv => decide (round ≤ kv.1.1))).map (·.1)

/-- The loop of `last_two_rounds_certs`, certificate_store.rs:367-388. -/
def lastTwoLoop (certs : List (Digest × Certificate)) : Round → List ((Round × AuthorityId) × Digest) →
    Option (List Certificate)
  | _, [] => some []
  | round, ((r, _), d) :: rest =>
    if round ≠ 0 ∧ r < round - 1 then some []
    else
      match SMap.get? d certs with
      | none => none
      | some c => (lastTwoLoop certs (if round = 0 then r else round) rest).map (c :: ·)

/-- `last_two_rounds_certs`, certificate_store.rs:358-391. -/
def lastTwoRoundsCerts (db : Db) : Option (List Certificate) := lastTwoLoop db.certs 0 db.byRound.reverse

/-- `highest_round_number`, certificate_store.rs:409-413. -/
def highestRound (db : Db) : Round :=
  match db.byRound.reverse with
  | [] => 0
  | (k, _) :: _ => k.1

/-- `Round::MAX`. -/
def roundMax : Nat := 2 ^ 32 - 1

/-- `last_round_number`, certificate_store.rs:417-425. -/
def lastRoundNumber (db : Db) (o : AuthorityId) : Option Round :=
  match recordPriorTo (o, roundMax) db.byOrigin with
  | some (k, _) => if k.1 = o then some k.2 else none
  | none => none

/-- `last_round`, certificate_store.rs:395-405. -/
def lastRound (db : Db) (o : AuthorityId) : Option Certificate :=
  match recordPriorTo (o, roundMax) db.byOrigin with
  | some (k, d) => if k.1 = o then read db d else none
  | none => none

/-- `next_round_number`, certificate_store.rs:429-440. -/
def nextRoundNumber (db : Db) (o : AuthorityId) (r : Round) : Option Round :=
  match skipTo (o, r + 1) db.byOrigin with
  | (k, _) :: _ => if k.1 = o then some k.2 else none
  | [] => none

/-! ### Steps -/

/-- The store in use: certificates of the epoch are written, deleted and garbage collected; a crash may come
between the two transactions of a write. -/
inductive Reach (U : Header → Prop) (keep : Nat) : Db → Prop
  | empty : Reach U keep {}
  | save {db : Db} (cs : List Certificate) : Reach U keep db → (∀ c ∈ cs, U c.header) → Reach U keep (saveAll cs db)
  | gc {db : Db} (target : Round) : Reach U keep db → Reach U keep (gcRounds keep target db)
  | delete {db : Db} (d : Digest) : Reach U keep db → Reach U keep (delete d db)

end CertStore
end Verif
