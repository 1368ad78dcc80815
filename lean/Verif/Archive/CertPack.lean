import Verif.Types
/-
The certificate pack (crates/storage/src/certificate_pack.rs): the file in which a node keeps every
certificate of an epoch, indexed by certificate digest, and the background thread that writes it.
The consensus task hands certificates to it with `try_save` and never waits.

Simplifications: the data file is a list of records and damaged stretches (the bytes of a record are C48's
matter); the digest index is a position and a filter bit per digest (`Verif.Hdx` models its buckets; see
`CertPackProps.hdx_save` for the connection); what an interrupted write of the index leaves behind is, per
digest, one of the versions of that digest's entry.
-/
namespace Verif
namespace CertPack

/-- A certificate: its digest (the hash of its header), the rest of it, and the size of its encoding.
Two certificates of one header (other signers) have the same digest. crates/types/src/primary/certificate.rs -/
structure Cert where
  digest : Nat
  body : Nat
  size : Nat
deriving DecidableEq, Repr

/-- The length of a record in the data file: length word, value, checksum. pack.rs write_value, 400-440. -/
def Cert.len (c : Cert) : Nat := c.size + 8

/-- A stretch of the data file: a record, or bytes that are not one. -/
inductive Seg where
  | rec_ (c : Cert)
  | junk (n : Nat)
deriving DecidableEq, Repr

def Seg.len : Seg → Nat
  | .rec_ c => c.len
  | .junk n => n

def Seg.cert : Seg → Option Cert
  | .rec_ c => some c
  | .junk _ => none

/-- The bytes after the header of the data file. -/
def total : List Seg → Nat
  | [] => 0
  | s :: l => s.len + total l

/-- `DATA_HEADER_BYTES`, pack.rs:538. -/
def header : Nat := 28

/-- `Pack::file_len`, pack.rs:239-241. -/
def fileLen (l : List Seg) : Nat := header + total l

/-- The record that begins exactly `p` bytes after the header. -/
def atSeg : List Seg → Nat → Option Cert
  | [], _ => none
  | s :: l, p => if p < s.len then (if p = 0 then s.cert else none) else atSeg l (p - s.len)

/-- The record at a position of the file. pack.rs:243-246, 405-440. -/
def recAt (l : List Seg) (p : Nat) : Option Cert := if p < header then none else atSeg l (p - header)

/-- `set_len` on the bytes after the header: a record cut in the middle is no record. data_file.rs:128-158. -/
def cutSeg : List Seg → Nat → List Seg
  | [], _ => []
  | s :: l, n => if s.len ≤ n then s :: cutSeg l (n - s.len) else
    if n = 0 then [] else [.junk n]

/-- The digest index: the position per digest, the answer of the bloom filter per digest, and the length of
the data file it knows of. digest_index/index.rs:40-80, 775-782. -/
structure Snap where
  raw : Nat → Option Nat
  vis : Nat → Bool
  len : Nat

/-- `HdxIndex::load`, index.rs:775-782: the filter first, then the bucket. -/
def Snap.load (s : Snap) (k : Nat) : Option Nat := if s.vis k then s.raw k else none

/-- `HdxIndex::save`: sets the position and the digest's filter bits; the bits may be bits of other digests,
too (`extra`). index.rs:752-773. -/
def Snap.save (s : Snap) (k p : Nat) (extra : Nat → Bool) : Snap :=
  { s with raw := fun j => if j = k then some p else s.raw j,
           vis := fun j => s.vis j || extra j || decide (j = k) }

/-- A new index, index.rs:60-80. -/
def Snap.empty : Snap := { raw := fun _ => none, vis := fun _ => false, len := header }

/-- Errors. certificate_pack.rs:365-377; `n` stands for the text. -/
inductive Err where
  | append (n : Nat)
  | readOnly
  | indexAppend (n : Nat)
  | persist (n : Nat)
  | open_ (n : Nat)
  | sendFailed
  | sendFull
  | receiveFailed
deriving DecidableEq, Repr

/-- `Inner`, certificate_pack.rs:276-280, with what is known of the disk: `dur` bytes after the header are
synced; `base` is the index at the last completed sync and `more` the versions of it whose writing was begun
since then. `failed`: the pack's failed state, pack.rs:173-176. -/
structure Inner where
  file : List Seg
  idx : Snap
  failed : Option Nat
  readOnly : Bool
  dur : Nat
  base : Snap
  more : List Snap

/-- What the disk does to a save: everything works (`extra`: other digests whose filter bits are now set);
the value cannot be serialised; the write fails and leaves `n` bytes behind; the index cannot be updated. -/
inductive SaveOut where
  | fine (extra : Nat → Bool)
  | serialize (e : Nat)
  | write (e n : Nat)
  | index (e : Nat)

/-- `Inner::save`, certificate_pack.rs:317-330 with `PackInner::append`, pack.rs:308-328: a failed pack
answers with the failure it began with. -/
def Inner.save (i : Inner) (c : Cert) (o : SaveOut) : Inner × Option Err :=
  match i.idx.load c.digest with
  | some _ => (i, none)
  | none =>
    if i.readOnly then (i, some .readOnly)
    else match i.failed with
    | some e => (i, some (.append e))
    | none => match o with
      | .serialize e => (i, some (.append e))
      | .write e n => ({ i with file := i.file ++ [.junk n], failed := some e }, some (.append e))
      | .index e => ({ i with file := i.file ++ [.rec_ c] }, some (.indexAppend e))
      | .fine extra =>
        ({ i with file := i.file ++ [.rec_ c],
                  idx := { i.idx.save c.digest (fileLen i.file) extra with
                             len := fileLen (i.file ++ [.rec_ c]) } }, none)

/-- `Inner::contains`, certificate_pack.rs:332-338. -/
def Inner.contains (i : Inner) (k : Nat) : Bool :=
  match i.idx.load k with
  | some p => decide (p < fileLen i.file)
  | none => false

/-- `Inner::get`, certificate_pack.rs:340-353. `junk`: what reading at a position where no record begins
gives (normally nothing: the checksum fails). -/
def Inner.get (junk : Nat → Option Cert) (i : Inner) (k : Nat) : Option Cert :=
  match i.idx.load k with
  | none => none
  | some p =>
    if fileLen i.file ≤ p then none
    else match (recAt i.file p).or (junk p) with
      | none => none
      | some c => if c.digest = k then some c else none

/-- What the disk does to a persist: everything synced; the sync of the data fails; the sync of the index
fails after it was begun. -/
inductive PersistOut where
  | fine
  | data (e : Nat)
  | index (e : Nat)

/-- `Inner::persist`, certificate_pack.rs:355-361: data first, then the index; pack.rs:347-356. -/
def Inner.persist (i : Inner) (o : PersistOut) : Inner × Option Err :=
  if i.readOnly then (i, none)
  else match i.failed with
  | some e => (i, some (.persist e))
  | none => match o with
    | .data e => (i, some (.persist e))
    | .index e => ({ i with dur := total i.file, more := i.more ++ [i.idx] }, some (.persist e))
    | .fine => ({ i with dur := total i.file, base := i.idx, more := [] }, none)

/-- What is found on the disk when the pack is opened again. `tail`: what follows the synced bytes of the
data file; `written`: the index was also written when the pack was dropped (index.rs:723-750, also after a
failed write of the data); `pick`: which version of a digest's entry is found; `lost`: the digests whose
bucket was split by an interrupted sync (`Hdx.split_crash_loses`); `seen`: digests the filter lets through
besides those of the last completed sync; `lenPick`: the version of the length. -/
structure Restart where
  tail : List Seg
  written : Bool
  pick : Nat → Nat
  lost : Nat → Bool
  seen : Nat → Bool
  lenPick : Nat
  readOnly : Bool

/-- The `n`-th version of the index that can be on the disk. -/
def Inner.version (i : Inner) (written : Bool) (n : Nat) : Snap :=
  ((if written then i.more ++ [i.idx] else i.more)[n]?).getD i.base

/-- The index as it is read back. -/
def Inner.found (i : Inner) (r : Restart) : Snap :=
  { raw := fun k => if r.lost k then none else (i.version r.written (r.pick k)).raw k,
    vis := fun k => i.base.vis k || r.seen k,
    len := (i.version r.written r.lenPick).len }

/-- `Inner::open`, certificate_pack.rs:286-315: data beyond the length the index knows of is cut off; an
index that is ahead of the data is left as it is. -/
def Inner.reopen (i : Inner) (r : Restart) : Inner :=
  let file := cutSeg i.file i.dur ++ r.tail
  let idx := i.found r
  if r.readOnly then
    { file := file, idx := idx, failed := none, readOnly := true, dur := min i.dur (total file), base := idx,
      more := [] }
  else
    let file' := if idx.len < fileLen file ∧ header ≤ idx.len then cutSeg file (idx.len - header) else file
    let idx' := if idx.len < header then { idx with len := fileLen file' } else idx
    { file := file', idx := idx', failed := none, readOnly := false, dur := min i.dur (total file'),
      base := idx, more := [] }

/-- A new pack. -/
def Inner.new : Inner :=
  { file := [], idx := .empty, failed := none, readOnly := false, dur := 0, base := .empty, more := [] }

/-! ## The background thread -/

/-- `PackMessage`, certificate_pack.rs:28-35. -/
inductive Msg where
  | save (c : Cert)
  | get (k : Nat)
  | contains (k : Nat)
  | persist
  | shutdown
  | shutdownAsync
deriving DecidableEq

/-- A reply of the thread. -/
inductive Reply where
  | got (c : Option Cert)
  | has (b : Bool)
  | flushed (e : Option Err)
deriving DecidableEq

/-- The pack and its thread. `q`: the channel; `err`: the error slot; `running`: the thread receives.
History since the pack was opened: `pushed`, the messages that entered the channel, and `replies` with the
position of the message they answer. `ever`: every certificate handed over, in all runs; `opened`: the pack as it
was opened. certificate_pack.rs:43-50. -/
structure Sys where
  inner : Inner
  q : List Msg
  err : Option Err
  running : Bool
  pushed : List Msg
  handled : Nat
  replies : List (Nat × Reply)
  ever : List Cert
  opened : Inner

/-- The channel's capacity, certificate_pack.rs:131. -/
def capacity : Nat := 1000

/-- `latch_first_error`, error_latch.rs:17-25. -/
def latch (slot : Option Err) (e : Err) : Option Err :=
  match slot with
  | none => some e
  | some x => some x

/-- The reply to a flush: `pending.map_or(flushed, Err)`, certificate_pack.rs:90, 106. -/
def fold (pending flushed : Option Err) : Option Err :=
  match pending with
  | some e => some e
  | none => flushed

/-- What the disk does during one message. -/
structure Out where
  save : SaveOut
  persist : PersistOut
  junk : Nat → Option Cert

/-- One message of `run_pack_loop`, certificate_pack.rs:60-111. -/
def Sys.handle (s : Sys) (m : Msg) (o : Out) : Sys :=
  match m with
  | .save c =>
    let (i, e) := s.inner.save c o.save
    { s with inner := i, err := match e with | some e => latch s.err e | none => s.err }
  | .get k => { s with replies := s.replies ++ [(s.handled, .got (s.inner.get o.junk k))] }
  | .contains k => { s with replies := s.replies ++ [(s.handled, .has (s.inner.contains k))] }
  | .persist =>
    let (i, e) := s.inner.persist o.persist
    { s with inner := i, replies := s.replies ++ [(s.handled, .flushed (fold s.err e))] }
  | .shutdown => { s with inner := (s.inner.persist o.persist).1, running := false }
  | .shutdownAsync =>
    let (i, e) := s.inner.persist o.persist
    { s with inner := i, running := false,
             replies := s.replies ++ [(s.handled, .flushed (fold s.err e))] }

/-- The thread takes the next message. -/
def Sys.work (s : Sys) (o : Out) : Sys :=
  if s.running then
    match s.q with
    | [] => s
    | m :: q => let t := s.handle m o; { t with q := q, handled := s.handled + 1 }
  else s

/-- A message enters the channel, if the thread has not ended and there is room. -/
def Sys.push (s : Sys) (m : Msg) : Sys :=
  if s.running ∧ s.q.length < capacity then
    { s with q := s.q ++ [m], pushed := s.pushed ++ [m],
             ever := match m with | .save c => s.ever ++ [c] | _ => s.ever }
  else s

/-- The pack opened, certificate_pack.rs:129-145. -/
def Sys.start (i : Inner) (ever : List Cert) : Sys :=
  { inner := i, q := [], err := none, running := true, pushed := [], handled := 0, replies := [],
    ever := ever, opened := i }

/-- Opening failed: the error is latched and the channel closed, certificate_pack.rs:52-57, 137-140. -/
def Sys.refused (i : Inner) (e : Err) (ever : List Cert) : Sys :=
  { Sys.start i ever with err := some e, running := false }

/-- `try_save`, certificate_pack.rs:187-198: `sampled` is the error slot as it was read, the thread may have
gone on since. Result: the error, if any, and the state. -/
def Sys.trySave (s : Sys) (sampled : Option Err) (c : Cert) : Option Err × Sys :=
  match sampled with
  | some e => (some e, s)
  | none =>
    if s.running then
      if s.q.length < capacity then (none, s.push (.save c)) else (some .sendFull, s)
    else (some .sendFailed, s)

/-- What the consensus task does with the pack on a new certificate of its epoch, consensus/state.rs:462-474;
`inUse`: it still has the pack. -/
def offer (inUse : Bool) (s : Sys) (sampled : Option Err) (c : Cert) : Bool × Sys :=
  if inUse then
    match s.trySave sampled c with
    | (some .sendFailed, t) => (false, t)
    | (_, t) => (true, t)
  else (false, s)

/-- The events. -/
inductive Ev where
  | push (m : Msg)
  | work (o : Out)
  | restart (r : Restart)
  | refuse (e : Err)

def step (s : Sys) : Ev → Sys
  | .push m => s.push m
  | .work o => s.work o
  | .restart r => Sys.start (s.inner.reopen r) s.ever
  | .refuse e => Sys.refused s.inner e s.ever

def run (s : Sys) (evs : List Ev) : Sys := evs.foldl step s

/-- A pack that is opened for the first time. -/
def init : Sys := Sys.start .new []

end CertPack
end Verif
