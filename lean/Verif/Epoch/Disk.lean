import Verif.Archive.CertPackProps
/-
Property C104: the database of epoch records on the disk. crates/storage/src/epoch_records.rs: `Inner` (1079-1452) with
`open_append`, `heal_records`, `heal_certs`, `save_record`, `save`, `save_certificate`, `persist` and the reads;
archive/position_index/index.rs for the position index. The two packs and their digest indexes are those of the certificate
pack (`Archive/CertPack.lean`: `Inner` is a data file with a digest index and what of them is on the disk); the position
index of the records comes in addition.

Simplifications: a record or certificate is its digest, the rest and its size; a stretch of the file that is not a record is
never read as one (checksum); after a crash the data file holds what was written in order up to some length at least the
synced one, and then possibly damaged bytes; the position index likewise, entry by entry. `start_epoch` is 0 (`open` passes
0, and the first record stored has epoch 0: `first_is_zero`). The epoch 0 dummy record is in `Epoch/Store.lean`.
-/
namespace Verif
namespace EDisk
open CertPack (Inner Snap Seg SaveOut Restart total header fileLen recAt cutSeg)

/-- An epoch record, or an epoch certificate filed under the digest of its record. -/
abbrev Rec := CertPack.Cert

/-- `EpochDbError`, as far as writes give it. -/
inductive Err where
  | outOfOrder (want got : Nat)
  | append (n : Nat)
  | indexAppend (n : Nat)
  | persist (n : Nat)
deriving DecidableEq, Repr

/-- `Inner`, epoch_records.rs:1079-1101. `recs`: `epochs.pack` with `epochs.hash`; `pos`: `epochs.idx`, of which `dpos`
entries are synced; `certs`: `epoch_certs.pack` with `epoch_certs.hash`. -/
structure Disk where
  recs : Inner
  pos : List Nat
  dpos : Nat
  certs : Inner

/-- What the disk does to the save of a record. -/
inductive RecOut where
  | low (o : SaveOut)
  /-- the position index cannot be updated -/
  | pos (e : Nat) (extra : Nat → Bool)

/-- `save_record`, epoch_records.rs:1254-1279; `ep` is the epoch of a record. Append, digest index, position index, length. -/
def Disk.saveRecord (ep : Rec → Nat) (d : Disk) (r : Rec) (o : RecOut) : Disk × Option Err :=
  if ep r < d.pos.length then (d, none)
  else if ep r ≠ d.pos.length then (d, some (.outOfOrder d.pos.length (ep r)))
  else match d.recs.failed with
    | some e => (d, some (.append e))
    | none => match o with
      | .low (.serialize e) => (d, some (.append e))
      | .low (.write e n) =>
        ({ d with recs := { d.recs with file := d.recs.file ++ [.junk n], failed := some e } }, some (.append e))
      | .low (.index e) => ({ d with recs := { d.recs with file := d.recs.file ++ [.rec_ r] } }, some (.indexAppend e))
      | .pos e extra =>
        ({ d with recs := { d.recs with file := d.recs.file ++ [.rec_ r],
                                        idx := d.recs.idx.save r.digest (fileLen d.recs.file) extra } },
          some (.indexAppend e))
      | .low (.fine extra) =>
        ({ d with recs := { d.recs with file := d.recs.file ++ [.rec_ r],
                                        idx := { d.recs.idx.save r.digest (fileLen d.recs.file) extra with
                                                   len := fileLen (d.recs.file ++ [.rec_ r]) } },
                  pos := d.pos ++ [fileLen d.recs.file] }, none)

def ofErr : Option CertPack.Err → Option Err
  | none => none
  | some (.append n) => some (.append n)
  | some (.indexAppend n) => some (.indexAppend n)
  | some _ => some (.persist 0)

/-- `save_certificate`, epoch_records.rs:1304-1318: the same code as the certificate pack's save. -/
def Disk.saveCert (d : Disk) (c : Rec) (o : SaveOut) : Disk × Option Err :=
  ({ d with certs := (d.certs.save c o).1 }, ofErr (d.certs.save c o).2)

/-- `save`, epoch_records.rs:1284-1301: the record, then the certificate, under the record's digest. -/
def Disk.save (ep : Rec → Nat) (d : Disk) (r c : Rec) (o : RecOut) (oc : SaveOut) : Disk × Option Err :=
  match d.saveRecord ep r o with
  | (d', some e) => (d', some e)
  | (d', none) => d'.saveCert { c with digest := r.digest } oc

/-- What the disk does to a persist: all five syncs work, or one (1-5) fails. A crash within the persist is a failure with
a restart behind it. -/
inductive PersistOut where
  | fine
  | fail (step e : Nat)
deriving DecidableEq, Repr

def PersistOut.at_ (o : PersistOut) (n : Nat) : Option Nat :=
  match o with
  | .fine => none
  | .fail s e => if s = n then some e else none

/-- The sync of the two digest indexes, the last two steps of `persist`, epoch_records.rs:1448-1449. -/
def Disk.syncIdx (d : Disk) (o : PersistOut) : Disk × Option Err :=
  match o.at_ 4 with
  | some e => ({ d with recs := { d.recs with more := d.recs.more ++ [d.recs.idx] } }, some (.persist e))
  | none =>
    let d := { d with recs := { d.recs with base := d.recs.idx, more := [] } }
    match o.at_ 5 with
    | some e => ({ d with certs := { d.certs with more := d.certs.more ++ [d.certs.idx] } }, some (.persist e))
    | none => ({ d with certs := { d.certs with base := d.certs.idx, more := [] } }, none)

/-- `persist`, epoch_records.rs:1442-1452: records, certificates, position index, the two digest indexes. -/
def Disk.persist (d : Disk) (o : PersistOut) : Disk × Option Err :=
  match d.recs.failed.or (o.at_ 1) with
  | some e => (d, some (.persist e))
  | none =>
    let d := { d with recs := { d.recs with dur := total d.recs.file } }
    match d.certs.failed.or (o.at_ 2) with
    | some e => (d, some (.persist e))
    | none =>
      let d := { d with certs := { d.certs with dur := total d.certs.file } }
      match o.at_ 3 with
      | some e => (d, some (.persist e))
      | none => ({ d with dpos := d.pos.length } : Disk).syncIdx o

/-! ### Opening -/

/-- What is found on the disk: `data` bytes of the records at least, then `junk` damaged ones; `entries` entries of the
position index at least, then `bad`; `ri`, `rc`: the digest indexes, and the certificates' data file. -/
structure Found where
  data : Nat
  junk : Nat
  entries : Nat
  bad : List Nat
  ri : Restart
  rc : Restart

def junkSeg (n : Nat) : List Seg := if n = 0 then [] else [.junk n]

/-- The records' data file as found. -/
def Disk.foundFile (d : Disk) (f : Found) : List Seg := cutSeg d.recs.file (max d.recs.dur f.data) ++ junkSeg f.junk

/-- The first cut of `heal_records` and `heal_certs`, epoch_records.rs:1120-1124, 1157-1161: to the length in the index, if
there is one. -/
def cutTo (file : List Seg) (len : Nat) : List Seg :=
  if len < fileLen file ∧ header < len then cutSeg file (len - header) else file

/-- The loop of `heal_records`, epoch_records.rs:1126-1144: from entry `i` down to the first whose record can be read. The
entries kept, and the end of that record. -/
def healLoop (file : List Seg) (pos : List Nat) : Nat → List Nat × Option Nat
  | 0 => match pos[0]? with
    | some p => match recAt file p with
      | some c => (pos.take 1, some (p + c.len))
      | none => ([], none)
    | none => ([], none)
  | i + 1 => match pos[i + 1]? with
    | some p => match recAt file p with
      | some c => (pos.take (i + 2), some (p + c.len))
      | none => healLoop file pos i
    | none => healLoop file pos i

/-- The second cut, epoch_records.rs:1145-1147. -/
def cutEnd (file : List Seg) : Option Nat → List Seg
  | some n => if n ≠ fileLen file then cutSeg file (n - header) else file
  | none => file

/-- `heal_records`, epoch_records.rs:1115-1150. -/
def healRecords (file : List Seg) (pos : List Nat) (len : Nat) : List Seg × List Nat :=
  let file := cutTo file len
  if pos = [] then (file, [])
  else
    let r := healLoop file pos (pos.length - 1)
    (cutEnd file r.2, r.1)

/-- The certificates' pack opened again with `heal_certs`, epoch_records.rs:1153-1163. -/
def reopenCerts (i : Inner) (r : Restart) : Inner :=
  let file := cutTo (cutSeg i.file i.dur ++ r.tail) (i.found r).len
  { file := file, idx := i.found r, failed := none, readOnly := false, dur := min i.dur (total file), base := i.found r,
    more := [] }

/-- `open_append`, epoch_records.rs:1165-1238. -/
def Disk.reopen (d : Disk) (f : Found) : Disk :=
  let h := healRecords (d.foundFile f) (d.pos.take (max d.dpos f.entries) ++ f.bad) (d.recs.found f.ri).len
  { recs := { file := h.1, idx := d.recs.found f.ri, failed := none, readOnly := false, dur := min d.recs.dur (total h.1),
              base := d.recs.found f.ri, more := [] }
    pos := h.2
    dpos := min d.dpos h.2.length
    certs := reopenCerts d.certs f.rc }

/-- The position index' entries that were not written are no positions of records; beyond the synced bytes of the
certificates' file there are no certificates that were never written to it. -/
structure Found.Legal (d : Disk) (f : Found) : Prop where
  bad : ∀ p ∈ f.bad, recAt (d.foundFile f) p = none
  tail : ∀ c, Seg.rec_ c ∈ f.rc.tail → Seg.rec_ c ∈ d.certs.file

/-- A new database. -/
def Disk.new : Disk := ⟨Inner.new, [], 0, Inner.new⟩

/-! ### Reads -/

/-- `try_record_by_epoch` without the dummy, epoch_records.rs:1333-1343. -/
def Disk.recordByEpoch (d : Disk) (e : Nat) : Option Rec := d.pos[e]?.bind (recAt d.recs.file)

/-- `record_by_digest`, epoch_records.rs:1345-1348: what is read is not compared with the digest. -/
def Disk.recordByDigest (d : Disk) (k : Nat) : Option Rec := (d.recs.idx.load k).bind (recAt d.recs.file)

/-- `cert_by_digest`, epoch_records.rs:1353-1365: likewise. -/
def Disk.certByDigest (d : Disk) (k : Nat) : Option Rec := (d.certs.idx.load k).bind (recAt d.certs.file)

/-- `epoch_certified`, epoch_records.rs:1407-1410: the index decides. -/
def Disk.certified (d : Disk) (e : Nat) : Bool :=
  match d.recordByEpoch e with
  | some r => (d.certs.idx.load r.digest).isSome
  | none => false

/-- The writes and restarts of the database. -/
inductive Ev where
  | record (r : Rec) (o : RecOut)
  | cert (c : Rec) (o : SaveOut)
  | both (r c : Rec) (o : RecOut) (oc : SaveOut)
  | persist (o : PersistOut)
  | restart (f : Found)

def step (ep : Rec → Nat) (d : Disk) : Ev → Disk × Option Err
  | .record r o => d.saveRecord ep r o
  | .cert c o => d.saveCert c o
  | .both r c o oc => d.save ep r c o oc
  | .persist o => d.persist o
  | .restart f => (d.reopen f, none)

/-- Restarts find what a disk can hold. -/
def Ev.Legal (d : Disk) : Ev → Prop
  | .restart f => f.Legal d
  | _ => True

/-- Histories. -/
inductive Steps (ep : Rec → Nat) : Disk → List Ev → Disk → Prop where
  | nil (d : Disk) : Steps ep d [] d
  | cons {d t : Disk} {e : Ev} {es : List Ev} : e.Legal d → Steps ep (step ep d e).1 es t → Steps ep d (e :: es) t

end EDisk
end Verif
