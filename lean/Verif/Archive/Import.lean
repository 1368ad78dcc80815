import Mathlib.Data.Finset.Dedup
import Verif.Util.SMap
import Verif.Epoch.Record
/-
Model of the import of an epoch's pack from a peer: `Inner::stream_import`
(`crates/storage/src/consensus_pack.rs` 907-1005), `verify_epoch_meta` 1392-1442, `check_header_expectation`
1484-1501, `iter_to_output` 1563-1709, `iter_to_output_legacy` 1713-1836 and `ConsensusChain::stream_import`
(`crates/storage/src/consensus.rs` 482-579).

The stream is the list of what `next_output_record` returns: a record or (`none`) a read error or timeout. The
end of the list is the end of the stream. Framing, checksums and decompression are below this (C48). The
`adiri` feature's rule for repeated batches in old epochs is not modelled.
-/
namespace Verif
namespace Import

/-- A batch (an opaque value). -/
abbrev Bat := Nat

/-- A primary header of a sub-dag as far as the import looks at it. -/
structure SubHdr where
  author : Nat
  epoch : Nat
  payload : List Nat
deriving DecidableEq, Repr

/-- `ConsensusHeader`, block.rs:40-54. `id` stands for all else the digest covers. `extra` is not kept by an
import: the header is rebuilt from the output, which has none. -/
structure CHdr where
  parent : Nat
  number : Nat
  heads : List SubHdr
  id : Nat
deriving DecidableEq, Repr

/-- `EpochMeta`, consensus_pack.rs:50-64. A committee is the list of keys with execution addresses; the
identifier of an authority is the hash of its key, here the key. -/
structure Meta where
  epoch : Nat
  members : List (Nat × Nat)
  start : Nat
  genState : Nat × Nat
  genNum : Nat
  genHash : Nat
deriving DecidableEq, Repr

/-- `PackRecord`, consensus_pack.rs:68-72. -/
inductive Rec where
  | epoch (m : Meta)
  | bat (b : Bat)
  | hdr (h : CHdr)
deriving DecidableEq, Repr

/-- A consensus output: header and, per primary header, the address that is paid and its batches
(`CertifiedBatch`, output.rs:33-38). -/
structure Out where
  hdr : CHdr
  certified : List (Nat × List Bat)
deriving DecidableEq, Repr

/-- The digests and the limit on batches per output (`max_batches_per_output`, consensus_pack.rs:1459-1461, a
function of the committee's size). -/
structure Env where
  dig : CHdr → Nat
  bdig : Bat → Nat
  maxB : Nat → Nat

inductive Err where
  | notConsensus
  | other
deriving DecidableEq, Repr

/-- `HeaderExpectation`, consensus_pack.rs:1471-1479. -/
inductive Expect where
  | none
  | digest (d : Nat)
  | parent (d : Nat)
deriving DecidableEq, Repr

/-- `check_header_expectation`, consensus_pack.rs:1484-1501. -/
def expectOk (E : Env) : Expect → CHdr → Bool
  | .none, _ => true
  | .digest d, h => decide (E.dig h = d)
  | .parent d, h => decide (h.parent = d)

/-- All payload digests, in order. -/
def CHdr.digests (h : CHdr) : List Nat := h.heads.flatMap (·.payload)

/-- The payload digests as a `BTreeSet`, consensus_pack.rs:1597-1604. -/
def CHdr.expected (h : CHdr) : List Nat := (SMap.ofList (h.digests.map (fun d => (d, ())))).map (·.1)

/-- `leader_epoch`, output.rs:498-510; `none`: it panics. -/
def CHdr.leaderEpoch (h : CHdr) : Option Nat := h.heads.getLast?.map (·.epoch)

/-- `committee.authority(author).map(execution_address)`. -/
def Meta.address (m : Meta) (author : Nat) : Option Nat := (m.members.find? (fun x => x.1 == author)).map (·.2)

/-- One batch of one header, consensus_pack.rs:1661-1695: taken from the received ones, else found among those
placed before. -/
def pick (E : Env) (refd : List Nat) (avail : List (Nat × Bat)) (placed : List Bat) (d : Nat) :
    Option (Bat × List (Nat × Bat)) :=
  match SMap.get? d avail with
  | some b => some (b, SMap.erase d avail)
  | none =>
    if d ∈ refd then (placed.find? (fun b => E.bdig b == d)).map (fun b => (b, avail)) else none

def pickAll (E : Env) (refd : List Nat) : List Nat → List (Nat × Bat) → List Bat →
    Option (List Bat × List (Nat × Bat))
  | [], avail, _ => some ([], avail)
  | d :: ds, avail, placed =>
    match pick E refd avail placed d with
    | none => none
    | some (b, avail') => (pickAll E refd ds avail' (placed ++ [b])).map (fun r => (b :: r.1, r.2))

/-- The batches of every header with its author's address, consensus_pack.rs:1653-1704. -/
def assemble (E : Env) (m : Meta) (refd : List Nat) : List SubHdr → List (Nat × Bat) → List Bat →
    Option (List (Nat × List Bat))
  | [], _, _ => some []
  | h :: hs, avail, placed =>
    match pickAll E refd h.payload avail placed with
    | none => none
    | some (bs, avail') =>
      match m.address h.author with
      | none => none
      | some a => (assemble E m refd hs avail' (placed ++ bs)).map (fun r => (a, bs) :: r)

/-- The batches of an output in the order of their digests, consensus_pack.rs:1618-1651. -/
def readBats (E : Env) : List Nat → List (Option Rec) → Except Err (List Bat × List (Option Rec))
  | [], rs => .ok ([], rs)
  | _ :: _, [] => .ok ([], [])
  | d :: ds, some (.bat b) :: rs =>
    if E.bdig b = d then
      match readBats E ds rs with
      | .ok (bs, rest) => .ok (b :: bs, rest)
      | .error e => .error e
    else .error .other
  | _ :: _, _ :: _ => .error .other

/-- The batches by digest (a `HashMap`). -/
def byDigest (E : Env) (bs : List Bat) : List (Nat × Bat) := SMap.ofList (bs.map (fun b => (E.bdig b, b)))

/-- The end of both decoders: a header without batches needs nothing else. -/
def finish (E : Env) (m : Meta) (h : CHdr) (refd : List Nat) (avail : List (Nat × Bat)) : Option Out :=
  if h.digests = [] then some ⟨h, []⟩ else (assemble E m refd h.heads avail []).map (fun c => ⟨h, c⟩)

/-- `iter_to_output` after the header was read, consensus_pack.rs:1586-1709. -/
def decodeBody (E : Env) (m : Meta) (h : CHdr) (rs : List (Option Rec)) :
    Except Err (Out × List (Option Rec)) :=
  if h.digests = [] then .ok (⟨h, []⟩, rs)
  else if E.maxB m.members.length < h.expected.length then .error .other
  else match readBats E h.expected rs with
    | .error e => .error e
    | .ok (bs, rest) =>
      match finish E m h (bs.map E.bdig) (byDigest E bs) with
      | none => .error .other
      | some o => .ok (o, rest)

/-- `iter_to_output`, consensus_pack.rs:1563-1709: header first. -/
def decode1 (E : Env) (m : Meta) (x : Expect) : List (Option Rec) → Except Err (Out × List (Option Rec))
  | [] => .error .notConsensus
  | some (.hdr h) :: rs => if expectOk E x h then decodeBody E m h rs else .error .other
  | _ :: _ => .error .other

/-- The checks of `iter_to_output_legacy` at the header, consensus_pack.rs:1745-1768. -/
def legacyOk (E : Env) (x : Expect) (h : CHdr) (avail : List (Nat × Bat)) : Bool :=
  expectOk E x h && h.digests.all (fun d => (SMap.get? d avail).isSome) &&
    decide (avail.length ≤ h.expected.length)

/-- `iter_to_output_legacy`, consensus_pack.rs:1713-1836: batches first. `n`: batches read so far. -/
def decode0 (E : Env) (m : Meta) (x : Expect) : Nat → List (Nat × Bat) → List (Option Rec) →
    Except Err (Out × List (Option Rec))
  | _, _, [] => .error .notConsensus
  | n, avail, some (.bat b) :: rs =>
    if E.maxB m.members.length < n + 1 then .error .other
    else decode0 E m x (n + 1) (SMap.insert (E.bdig b) b avail) rs
  | _, avail, some (.hdr h) :: rs =>
    if legacyOk E x h avail then
      match finish E m h h.expected avail with
      | none => .error .other
      | some o => .ok (o, rs)
    else .error .other
  | _, _, _ :: _ => .error .other

/-- The choice by the version of the stream, consensus_pack.rs:966-993. -/
def decode (E : Env) (m : Meta) (v : Nat) (x : Expect) (rs : List (Option Rec)) :
    Except Err (Out × List (Option Rec)) :=
  if v = 0 then decode0 E m x 0 [] rs else decode1 E m x rs

inductive SaveRes where
  | panic
  | err
  | ok (outs : List Out)

/-- `save_consensus_output`, consensus_pack.rs:1038-1088, on the outputs the pack holds (C48). -/
def save (m : Meta) (outs : List Out) (o : Out) : SaveRes :=
  match o.hdr.leaderEpoch with
  | none => .panic
  | some e =>
    if e ≠ m.epoch then .err
    else if o.hdr.number - m.start < outs.length then .ok outs
    else if o.hdr.number - m.start ≠ outs.length then .err
    else .ok (outs ++ [o])

/-- `Inner::stream_import`'s result. -/
inductive Res where
  | panic
  | err
  | ok (m : Meta) (outs : List Out)
deriving DecidableEq, Repr

/-- The loop of `stream_import`, consensus_pack.rs:961-1003. Every output takes at least one record, so the
fuel (records and one) is not exhausted. -/
def loop (E : Env) (m : Meta) (v fin : Nat) : Nat → Expect → List Out → List (Option Rec) → Res
  | 0, _, _, _ => .err
  | fuel + 1, x, outs, rs =>
    match decode E m v x rs with
    | .error .notConsensus => .ok m outs
    | .error .other => .err
    | .ok (o, rest) =>
      if fin < o.hdr.number then .err
      else match save m outs o with
        | .panic => .panic
        | .err => .err
        | .ok outs' => loop E m v fin fuel (.parent (E.dig o.hdr)) outs' rest

/-- `verify_epoch_meta`, consensus_pack.rs:1392-1442. -/
def verifyMeta (epoch : Nat) (prev : Ep.Rec) (m : Meta) : Bool :=
  decide (epoch = m.epoch) && decide ((if epoch = 0 then 1 else prev.finalNum + 1) = m.start) &&
    decide (prev.finalState = m.genState) && decide (prev.finalNum = m.genNum) &&
    decide (prev.finalHash = m.genHash) &&
    decide ((m.members.map (·.1)).toFinset = prev.next.toFinset)

/-- What the first header's parent must be, consensus_pack.rs:950-958. -/
def firstExpect (epoch : Nat) (prev : Ep.Rec) : Expect :=
  if epoch = 0 then .none else .parent prev.finalHash

/-- `Inner::stream_import`, consensus_pack.rs:907-1005. -/
def packImport (E : Env) (epoch : Nat) (prev : Ep.Rec) (v fin : Nat) : List (Option Rec) → Res
  | some (.epoch m) :: rs =>
    if verifyMeta epoch prev m then loop E m v fin (rs.length + 1) (firstExpect epoch prev) [] rs else .err
  | _ => .err

/-- A pack on disk: its first number and its outputs. -/
structure Pack where
  m : Meta
  outs : List Out
deriving DecidableEq, Repr

/-- `consensus_header_by_number`, consensus_pack.rs:1160-1173. -/
def Pack.header (p : Pack) (n : Nat) : Option CHdr :=
  if n < p.m.start then none else (p.outs[n - p.m.start]?).map (·.hdr)

/-- The guard at the start of `ConsensusChain::stream_import`, consensus.rs:491-508. -/
def have_ (E : Env) (rec : Ep.Rec) : Option Pack → Bool
  | none => false
  | some p => match p.header rec.finalNum with
    | none => false
    | some h => decide (E.dig h = rec.finalHash)

/-- The check of the last header, consensus.rs:530-546. -/
def lastOk (E : Env) (rec : Ep.Rec) (outs : List Out) : Bool :=
  match outs.getLast? with
  | none => false
  | some o => decide (rec.finalNum = o.hdr.number) && decide (rec.finalHash = E.dig o.hdr)

inductive Outcome where
  | ok
  | err
  | panic
deriving DecidableEq, Repr

/-- `ConsensusChain::stream_import`, consensus.rs:482-579, of the epoch's pack (`own`: none if it cannot be
opened): result and the pack afterwards. `busy`: this process is importing the epoch already. The installation
is one step (crashes in it and failing system calls are not modelled). -/
def chainImport (E : Env) (rec prev : Ep.Rec) (v : Nat) (busy : Bool) (own : Option Pack)
    (rs : List (Option Rec)) : Outcome × Option Pack :=
  if have_ E rec own then (.ok, own)
  else if busy then (.ok, own)
  else match packImport E rec.epoch prev v rec.finalNum rs with
    | .panic => (.panic, own)
    | .err => (.err, own)
    | .ok m outs => if lastOk E rec outs then (.ok, some ⟨m, outs⟩) else (.err, own)

/-! ### What an honest peer sends -/

/-- The records of an output in a pack file, consensus_pack.rs:1038-1088: batches by digest. -/
def export1 (E : Env) (v : Nat) (o : Out) : List Rec :=
  if v = 0 then (byDigest E (o.certified.flatMap (·.2))).map (fun x => Rec.bat x.2) ++ [.hdr o.hdr]
  else .hdr o.hdr :: (byDigest E (o.certified.flatMap (·.2))).map (fun x => Rec.bat x.2)

/-- The stream of a pack file. -/
def exportAll (E : Env) (v : Nat) (p : Pack) : List (Option Rec) :=
  some (.epoch p.m) :: (p.outs.flatMap (export1 E v)).map some

end Import
end Verif
