import Verif.Archive.Record
import Verif.Util.SMap
/-
Model of the consensus pack of one epoch: `crates/storage/src/consensus_pack.rs` (`Inner`:
`save_consensus_output` 1038-1088, `persist` 1175-1183, `trunc_and_heal` 665-729, `files_consistent`
641-662, `open_append_exists` 819-858, the readers 1090-1345).

A pack is a data file (records, `Archive.Record`), a position index (one entry per output) and two digest
indexes (maps by C46, `Archive.Hdx`), each of which also stores the length of the data file at its last
sync. Not modelled: failing system calls, torn headers of the index files, files that were never persisted
(the pack is created and persisted before its first output is saved, consensus.rs `new_epoch`).
-/
namespace Verif
namespace Pack
open Codec (Bytes)

/-- A consensus output: its header and the batches of its certificates, in order. -/
structure Out where
  hdr : Hdr
  batches : List Bat
deriving DecidableEq

/-- Every record of the output is readable after it was written. -/
def Out.Fits (F : Fmt) (o : Out) : Prop := F.Fits (.hdr o.hdr) ∧ ∀ b ∈ o.batches, F.Fits (.bat b)

/-- `collect_batches`, consensus_pack.rs:1367-1381: by digest, ascending, without repetitions. -/
def collect (F : Fmt) (o : Out) : List (Nat × Bat) := SMap.ofList (o.batches.map (fun b => (F.bdig b, b)))

/-- `IndexPositions`: where the header starts, where the output starts and ends. -/
structure Pos where
  hdr : Nat
  start : Nat
  stop : Nat
deriving DecidableEq, Inhabited

/-- `Inner`, consensus_pack.rs:621-632. `clen`, `blen`: the data length kept in the digest indexes. -/
structure Files where
  data : Bytes
  pos : List Pos
  cidx : Nat → Option Nat
  clen : Nat
  bidx : Nat → Option Nat
  blen : Nat

def upd (m : Nat → Option Nat) (k p x : Nat) : Option Nat := if x = k then some p else m x

/-- `save_consensus_batches`, consensus_pack.rs:1008-1034. -/
def saveBats (F : Fmt) : List (Nat × Bat) → Files → Files
  | [], f => f
  | (d, b) :: bs, f => saveBats F bs { f with
      data := f.data ++ frame F (.bat b),
      bidx := upd f.bidx d f.data.length,
      clen := (f.data ++ frame F (.bat b)).length,
      blen := (f.data ++ frame F (.bat b)).length }

/-- The position of the first batch, consensus_pack.rs:1015-1021. -/
def firstBat (F : Fmt) (o : Out) (f : Files) : Option Nat :=
  if collect F o = [] then none else some f.data.length

/-- The batches before the header in version 0 packs, consensus_pack.rs:1064-1065. -/
def saveBefore (F : Fmt) (v : Nat) (o : Out) (f : Files) : Files :=
  if v = 0 then saveBats F (collect F o) f else f

/-- The batches behind the header in later versions, consensus_pack.rs:1072-1074. -/
def saveAfter (F : Fmt) (v : Nat) (o : Out) (f : Files) : Files :=
  if 0 < v then saveBats F (collect F o) f else f

/-- `batch_pos`, consensus_pack.rs:1064-1065 and 1075. -/
def outStart (F : Fmt) (v : Nat) (o : Out) (f : Files) : Nat :=
  match (if v = 0 then firstBat F o f else none) with
  | some p => p
  | none => (saveBefore F v o f).data.length

/-- The writes of `save_consensus_output`, consensus_pack.rs:1064-1087. -/
def Files.append (F : Fmt) (v : Nat) (o : Out) (f : Files) : Files :=
  let f1 := saveBefore F v o f
  let p := f1.data.length
  let f2 := saveAfter F v o { f1 with data := f1.data ++ frame F (.hdr o.hdr) }
  { f2 with
      cidx := upd f2.cidx (F.hdig o.hdr) p,
      pos := f2.pos ++ [⟨p, outStart F v o f, f2.data.length⟩],
      clen := f2.data.length,
      blen := f2.data.length }

inductive SaveRes where
  | wrongEpoch
  | already
  | wrongNumber
  | saved (f : Files)

/-- `save_consensus_output`, consensus_pack.rs:1038-1088. -/
def Files.save (F : Fmt) (v : Nat) (m : Meta) (o : Out) (f : Files) : SaveRes :=
  if o.hdr.epoch ≠ m.epoch then .wrongEpoch
  else if o.hdr.number - m.start < f.pos.length then .already
  else if o.hdr.number - m.start ≠ f.pos.length then .wrongNumber
  else .saved (f.append F v o)

/-! ### Readers -/

/-- `consensus_header_by_number`, consensus_pack.rs:1160-1173. `none`: an error. -/
def Files.headerByNumber (F : Fmt) (m : Meta) (f : Files) (n : Nat) : Option Hdr :=
  if n < m.start then none
  else if m.start + f.pos.length ≤ n then none
  else
    match f.pos[n - m.start]? with
    | none => none
    | some p => match fetch F f.data p.hdr with
      | some (.hdr h) => some h
      | _ => none

/-- `contains_consensus_header_number`, consensus_pack.rs:1091-1094. -/
def Files.containsNumber (m : Meta) (f : Files) (n : Nat) : Bool :=
  decide (m.start ≤ n) && decide (n < f.pos.length + m.start)

/-- `latest_consensus_header`, consensus_pack.rs:1244-1251: `none` is an error, `some none` no header. -/
def Files.latest (F : Fmt) (m : Meta) (f : Files) : Option (Option Hdr) :=
  if f.pos.length = 0 then some none
  else match f.headerByNumber F m (m.start + f.pos.length - 1) with
    | none => none
    | some h => some (some h)

/-- `bytes_for_consensus`, consensus_pack.rs:1194-1215, with the range check of `read_bytes`. -/
def Files.bytesFor (m : Meta) (f : Files) (n : Nat) : Option Bytes :=
  if n < m.start then none
  else if m.start + f.pos.length ≤ n then none
  else
    match f.pos[n - m.start]? with
    | none => none
    | some p =>
      if p.stop < p.start ∨ f.data.length < p.stop then none
      else readAt f.data p.start (p.stop - p.start)

/-- `consensus_header_by_digest`, consensus_pack.rs:1119-1157. -/
def Files.headerByDigest (F : Fmt) (f : Files) (d : Nat) : Option Hdr :=
  match f.cidx d with
  | none => none
  | some p =>
    if f.data.length ≤ p then none
    else match fetch F f.data p with
      | some (.hdr h) => if F.hdig h = d then some h else none
      | _ => none

/-- `batch`, consensus_pack.rs:1302-1319. -/
def Files.batch (F : Fmt) (f : Files) (d : Nat) : Option Bat :=
  match f.bidx d with
  | none => none
  | some p =>
    if f.data.length ≤ p then none
    else match fetch F f.data p with
      | some (.bat b) => if F.bdig b = d then some b else none
      | _ => none

/-- `count_leaders`, consensus_pack.rs:1322-1345: the leaders counted, newest first; `none`: error. -/
def countLeaders (F : Fmt) (data : Bytes) (last : Nat) : List Pos → Option (List Nat)
  | [] => some []
  | p :: ps => match fetch F data p.hdr with
    | some (.hdr h) => match countLeaders F data last ps with
      | none => none
      | some l => some (if h.round = 0 then l else if last < h.round then l else h.leader :: l)
    | _ => none

def Files.countLeaders (F : Fmt) (f : Files) (last : Nat) : Option (List Nat) :=
  Pack.countLeaders F f.data last f.pos.reverse

/-! ### Opening -/

/-- `files_consistent`, consensus_pack.rs:641-662. -/
def Files.consistent (f : Files) : Bool :=
  if f.data.length ≠ f.clen ∨ f.data.length ≠ f.blen then false
  else match f.pos.getLast? with
    | none => true
    | some p => decide (f.data.length = p.stop)

/-- The first cut of `trunc_and_heal`, consensus_pack.rs:671-685. `DATA_HEADER_BYTES` is 28. -/
def cutLen (len clen blen : Nat) : Nat :=
  if clen < len ∨ blen < len then
    if blen < clen ∧ 28 < blen then blen
    else if 28 < clen then clen
    else len
  else len

/-- `set_len`: shortens (or zero-extends) the data file. -/
def cut (n : Nat) (b : Bytes) : Bytes := b.take n ++ List.replicate (n - b.length) 0

/-- The loop of `trunc_and_heal`, consensus_pack.rs:686-716: from the last entry down to the first that
ends within the data. Result: the index and the data length of the entry it stopped at. -/
def healLoop (len start : Nat) : Nat → List Pos → List Pos × Nat
  | 0, ps => match ps[0]? with
    | some r =>
      if r.stop ≤ len then (if 0 ≠ start then ps.take 1 else ps, r.stop)
      else (if 0 ≠ start then [] else ps, r.stop)
    | none => (if 0 ≠ start then [] else ps, len)
  | idx + 1, ps => match ps[idx + 1]? with
    | some r =>
      if r.stop ≤ len then (if idx + 1 ≠ start then ps.take (idx + 2) else ps, r.stop)
      else healLoop len start idx (if idx + 1 ≠ start then ps.take (idx + 2) else ps)
    | none => healLoop len start idx ps

/-- `trunc_and_heal`, consensus_pack.rs:665-729. -/
def Files.heal (f : Files) : Files :=
  let data := cut (cutLen f.data.length f.clen f.blen) f.data
  if f.pos = [] then { f with data := data, clen := data.length, blen := data.length }
  else
    let r := healLoop data.length (f.pos.length - 1) (f.pos.length - 1) f.pos
    let n := min r.2 data.length
    let data' := cut n data
    { f with data := data', pos := r.1, clen := data'.length, blen := data'.length }

/-! ### Crashes -/

/-- The pack with what is durable: the bytes of the data file, the entries of the position index, and the
data lengths stored in the headers of the two digest indexes. -/
structure St where
  f : Files
  dData : Nat
  dPos : Nat
  dC : Nat
  dB : Nat

/-- The first `j` of the four steps of `persist`, consensus_pack.rs:1175-1183: commit the data, sync the
position index, the consensus digests, the batch digests. -/
def St.persistTo (j : Nat) (s : St) : St :=
  { s with
      dData := if 1 ≤ j then s.f.data.length else s.dData,
      dPos := if 2 ≤ j then s.f.pos.length else s.dPos,
      dC := if 3 ≤ j then s.f.clen else s.dC,
      dB := if 4 ≤ j then s.f.blen else s.dB }

/-- Reopening after a crash that left `d` bytes of data and `p` index entries; the digest indexes hold
whatever maps `ci`, `bi` (see `Hdx.reopened`). `open_append_exists`, consensus_pack.rs:819-858. -/
def St.reopen (s : St) (d p : Nat) (ci bi : Nat → Option Nat) : St :=
  let f := Files.heal { data := s.f.data.take d, pos := s.f.pos.take p, cidx := ci, clen := s.dC,
                        bidx := bi, blen := s.dB }
  { s with f := f, dData := f.data.length, dPos := f.pos.length }

/-- A new pack, opened and persisted, consensus_pack.rs:743-817. -/
def St.new (F : Fmt) (m : Meta) : St :=
  let data := F.fileHeader ++ frame F (.epoch m)
  { f := { data := data, pos := [], cidx := fun _ => none, clen := data.length, bidx := fun _ => none,
           blen := data.length },
    dData := data.length, dPos := 0, dC := data.length, dB := data.length }

/-! ## Specification: what the pack should hold -/

/-- The outputs in the pack, how many of them were persisted, whether a crash happened. -/
structure Abs where
  outs : List Out := []
  kept : Nat := 0
  crashed : Bool := false

/-- The outputs after a crash: those of the last completed persist. -/
def Abs.crash (a : Abs) (completed : Bool) : Abs :=
  if completed then { outs := a.outs, kept := a.outs.length, crashed := true }
  else { outs := a.outs.take a.kept, kept := a.kept, crashed := true }

/-- Runs: saves that the pack accepts (of outputs within the record size limit), persists, and crashes at any step of a persist (`j`; 0: outside a
persist, 4: completed) with any amount of not yet durable data surviving. Excluded (see
`dangling_entry`): a crash that leaves exactly one index entry when nothing was persisted. -/
inductive Run (F : Fmt) (v : Nat) (m : Meta) : St → Abs → Prop
  | new : Run F v m (St.new F m) {}
  | save {s : St} {a : Abs} (o : Out) (f : Files) : Run F v m s a → m.start ≤ o.hdr.number →
      o.Fits F →
      s.f.save F v m o = .saved f →
      Run F v m { s with f := f } { a with outs := a.outs ++ [o] }
  | persist {s : St} {a : Abs} : Run F v m s a → Run F v m (s.persistTo 4) { a with kept := a.outs.length }
  | crash {s : St} {a : Abs} (j d p : Nat) (ci bi : Nat → Option Nat) : Run F v m s a →
      (s.persistTo j).dData ≤ d → d ≤ s.f.data.length →
      (s.persistTo j).dPos ≤ p → p ≤ s.f.pos.length →
      ¬ ((a.crash (decide (4 ≤ j))).outs = [] ∧ p = 1) →
      Run F v m ((s.persistTo j).reopen d p ci bi) (a.crash (decide (4 ≤ j)))

end Pack
end Verif
