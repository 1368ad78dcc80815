import Verif.Snapshot.Export
import Verif.Epoch.Record
import Mathlib.Data.List.Sort

/-!
# Restoring a node from a snapshot

Models the restore side of `crates/tn-reth/src/snapshot.rs` and `db load-state` in
`crates/telcoin-network-cli/src/db.rs` as a function from a bundle to a database; the order in which its
pieces become durable is modelled in `Verif.Snapshot.Datadir`.
-/
namespace Verif.Snapshot

/-! ## The headers -/

/-- `export_exec.rs:268-283` (`gather_headers`): the anchor, then its ancestors down to
`max(1, anchor - 256)`, newest first. `chain n` is the canonical header at height `n`. -/
def gatherHeaders (chain : Nat → Header) (b : Nat) : List Header :=
  let lowest := max (b - ancestors) 1
  chain b :: ((List.range' lowest (b - lowest)).reverse.map chain)

/-- `db.rs:760-766` (`scaffold_window`). -/
def scaffoldWindow (headers : List Header) : List Header :=
  (headers.insertionSort (fun x y => x.number ≤ y.number)).filter (fun h => h.number ≠ 0)

/-- Why a restore is refused. -/
inductive RErr
  | pack (e : Err) | emptyWindow | genesis | tip | windowGenesis | lookback | gap | unlinked
  | nonEmpty | order | twice | storageFirst | badCode | root | headerRoot | noHeader | readiness | records | mismatch
deriving DecidableEq, Repr

/-- `snapshot.rs:539-605`: the checks of `import_chain_scaffold`, in their order. `final` is the number and the hash
of the final block. -/
def checkWindow (hash : Header → Nat) (window : List Header) (final : Nat × Nat) : Except RErr Unit :=
  match window with
  | [] => .error .emptyWindow
  | w0 :: _ =>
    let last := window.getLast?.getD w0
    if final.1 = 0 then .error .genesis
    else if last.number ≠ final.1 ∨ hash last ≠ final.2 then .error .tip
    else if w0.number = 0 then .error .windowGenesis
    else if ¬ w0.number ≤ max (final.1 - (ancestors - 1)) 1 then .error .lookback
    else if ¬ (window.mapIdx (fun i h => decide (h.number = w0.number + i))).all id then .error .gap
    else if ¬ (window.zip (window.drop 1)).all (fun p => decide (p.2.parent = hash p.1)) then .error .unlinked
    else .ok ()

/-- `snapshot.rs:647-672` and the insertion of block `B`: the hash recorded for a height: the local genesis, zero
below the window, the header's own inside it, none above. -/
def recordedHash (hash : Header → Nat) (genesisHash : Nat) (window : List Header) (n : Nat) : Option Nat :=
  if n = 0 then some genesisHash
  else match window with
    | [] => none
    | w0 :: _ => if n < w0.number then some 0 else (window[n - w0.number]?).map hash

/-! ## The database -/

/-- The tables the import writes. `plain` and `hashed` are the storage tables (`PlainStorageState`, read by the
node; `HashedStorages`, from which the root is computed); an absent slot is zero. The account rows of the two
kinds are written together from the same value and are one field here. `touched` is the keys of
`StoragesHistory`. The other history index and the trie nodes are not modelled. -/
structure Db where
  rows : Nat → Option Row
  plain : Nat → Nat → Nat
  hashed : Nat → Nat → Nat
  codes : Nat → Option (List Nat)
  touched : List (Nat × Nat) := []

/-- A state as the trie sees it: nonce, balance and code hash of each account, and every slot. -/
abbrev View := (Nat → Option (Nat × Nat × Nat)) × (Nat → Nat → Nat)

def viewRow (emptyHash : Nat) (r : Row) : Nat × Nat × Nat := (r.nonce, r.balance, r.codeHash.getD emptyHash)

/-- What the state root is computed from. -/
def Db.hashedView (emptyHash : Nat) (db : Db) : View := (fun a => (db.rows a).map (viewRow emptyHash), db.hashed)

/-- What the node reads. -/
def Db.plainView (emptyHash : Nat) (db : Db) : View := (fun a => (db.rows a).map (viewRow emptyHash), db.plain)

/-- `snapshot.rs:635-643`: after the scaffold the state tables are empty; the code table keeps the genesis codes. -/
def Db.cleared (codes : Nat → Option (List Nat)) : Db := ⟨fun _ => none, fun _ _ => 0, fun _ _ => 0, codes, []⟩

/-- One upsert of a slot: the row of that key is replaced, a zero only removes it. -/
def setSlot (m : Nat → Nat → Nat) (a k v : Nat) : Nat → Nat → Nat :=
  fun a' k' => if a' = a ∧ k' = k then v else m a' k'

def writeSlots (m : Nat → Nat → Nat) (a : Nat) (c : Slots) : Nat → Nat → Nat := c.foldl (fun m s => setSlot m a s.1 s.2) m

/-- What the restore is given: hash of a code, the check `Bytecode::new_raw_checked` makes, and the order in which
reth writes a chunk's plain rows. reth sorts them with an unstable sort, so that rows of the same key may
come in any order; the hashed rows pass through a map in which the last row of a key counts. `strict` is whether
reth's history index refuses a second entry of the same block for the same slot; the source of reth is not at hand, and
the theorems say where they need it. -/
structure Env where
  codeHash : List Nat → Nat
  codeOk : List Nat → Bool
  ord : Slots → Slots
  strict : Bool

/-- `snapshot.rs:965-999` (`write_account_header`). -/
def writeAccount (E : Env) (db : Db) (a : Acct) : Except RErr Db :=
  match a.code with
  | some c =>
    if c.isEmpty then
      .ok { db with rows := fun x => if x = a.addr then some ⟨a.nonce, a.balance, none⟩ else db.rows x }
    else if E.codeOk c then
      .ok { db with rows := fun x => if x = a.addr then some ⟨a.nonce, a.balance, some (E.codeHash c)⟩ else db.rows x
                    codes := fun h => if h = E.codeHash c then some c else db.codes h }
    else .error .badCode
  | none => .ok { db with rows := fun x => if x = a.addr then some ⟨a.nonce, a.balance, none⟩ else db.rows x }

/-- Whether a slot of the chunk is already in the index, or twice in the chunk. -/
def repeats (touched : List (Nat × Nat)) (a : Nat) (c : Slots) : Bool :=
  !decide ((c.map (fun s => (a, s.1))).Nodup) || c.any (fun s => decide ((a, s.1) ∈ touched))

/-- `snapshot.rs:1013-1057` (`write_storage_chunk`). -/
def writeChunk (E : Env) (db : Db) (a : Nat) (c : Slots) : Except RErr Db :=
  if E.strict && repeats db.touched a c then .error .twice
  else .ok { db with plain := writeSlots db.plain a (E.ord c)
                     hashed := writeSlots db.hashed a c
                     touched := c.map (fun s => (a, s.1)) ++ db.touched }

/-- `snapshot.rs:803-842`: the loop of `import_state`. `cur` is the address of the account read last; the code keeps
it in two variables, `current` and `prev_address`, that are always equal. -/
def importAll (E : Env) : List Entry → Option Nat → Db → Except RErr Db
  | [], _, db => .ok db
  | .account a :: es, cur, db =>
    if ¬ above cur a.addr = true then .error .order
    else do
      let db ← writeAccount E db a
      importAll E es (some a.addr) db
  | .storage c :: es, cur, db =>
    match cur with
    | none => .error .storageFirst
    | some a => do
      let db ← writeChunk E db a c
      importAll E es cur db

/-- Reading the entries until `None` or an error; the number of calls suffices (`drainEntries_total`). -/
def readAll (r : Reader) : Except RErr (List Entry) :=
  match drainEntries (r.stream.length + 1) r with
  | some (.ok es) => .ok es
  | some (.error e) => .error (.pack e)
  | none => .ok []

/-- `snapshot.rs:779-890` (`import_state`): the database committed, or an error and nothing committed.
`headerRoot` is the state root of the scaffolded header at the pack's block. -/
def importState (E : Env) (emptyHash : Nat) (rootOf : View → Nat) (r : Reader) (headerRoot : Option Nat) (db : Db) :
    Except RErr Db := do
  let es ← readAll r
  let db ← importAll E es none db
  let root := rootOf (db.hashedView emptyHash)
  if root ≠ r.info.root then .error .root
  else match headerRoot with
    | none => .error .noHeader
    | some hr => if hr ≠ root then .error .headerRoot else return db

/-- `db.rs:534-577` (`restore_pack`), with `SnapshotRestorer::open` (snapshot.rs:482-502), `finish` (:928-955, whose
checks repeat what `checkWindow` established) and `entry_readiness_precondition` (:901-919) given as the
predicate `ready` on the restored state and the block. `tip` is the height the datadir is at. -/
def restorePack (hash : Header → Nat) (E : Env) (emptyHash : Nat) (rootOf : View → Nat) (ready : View → Nat → Bool)
    (tip : Nat) (genesisCodes : Nat → Option (List Nat)) (f : File) : Except RErr ((Nat × Nat) × List Header × Db) := do
  let r ← (match openPack f with | .ok r => Except.ok r | .error e => .error (.pack e))
  let final := (r.info.number, r.info.hash)
  let window := scaffoldWindow r.headers
  if tip > 0 then .error .nonEmpty
  else do
    checkWindow hash window final
    let db ← importState E emptyHash rootOf r (window.getLast?.map (fun h => h.root)) (Db.cleared genesisCodes)
    if ready (db.plainView emptyHash) final.1 then return (final, window, db)
    else .error .readiness

/-- `db.rs:446-495` (`verify_record_chain_in_memory`): the records, each at its own position and each with a
certificate, validated against the record before it, the first against the local genesis committee. The
result is the last record. -/
def verifyChain (B : Bls) (dig : Ep.Rec → Nat) (certs : Nat → Option Ep.Cert) :
    List Ep.Rec → Nat → Nat → Finset Nat → Option Ep.Rec → Except RErr Ep.Rec
  | [], _, _, _, some r => .ok r
  | [], _, _, _, none => .error .records
  | r :: rs, slot, parent, committee, _ =>
    if r.epoch ≠ slot then .error .records
    else match certs (dig r) with
      | none => .error .records
      | some c =>
        if Ep.validAgainst B dig slot r c parent committee = true then
          verifyChain B dig certs rs (slot + 1) (dig r) r.next.toFinset (some r)
        else .error .records

/-- A bundle. `consensus`, `records` and `certs` are the three optional parts of it; the first is not read here. -/
structure Bundle where
  pack : File
  consensus : Bool
  records : Option (List Ep.Rec)
  certs : Option (Nat → Option Ep.Cert)

/-- `db.rs:186-305` (`DbLoadStateArgs::execute`) as far as the restore of the execution state, its errors and its
result: `reject_non_resumable_bundle` (:366-401), `verify_record_chain_in_memory` (:446-495),
`check_state_pack_matches_record` (:511-527) and `restore_pack`. -/
def loadState (B : Bls) (dig : Ep.Rec → Nat) (genesis : Finset Nat) (hash : Header → Nat) (E : Env) (emptyHash : Nat)
    (rootOf : View → Nat) (ready : View → Nat → Bool) (tip : Nat) (genesisCodes : Nat → Option (List Nat)) (b : Bundle) :
    Except RErr ((Nat × Nat) × List Header × Db) :=
  match b.consensus, b.records, b.certs with
  | true, some rs, some certs =>
    if rs.getLast?.all (fun r => decide (r.epoch = 0)) = true then .error .records
    else do
      let r ← verifyChain B dig certs rs 0 0 genesis none
      let rd ← (match openPack b.pack with | .ok r => Except.ok r | .error e => .error (.pack e))
      if (rd.info.number, rd.info.hash) ≠ r.finalState then .error .mismatch
      else restorePack hash E emptyHash rootOf ready tip genesisCodes b.pack
  | _, _, _ => .error .records

end Verif.Snapshot
