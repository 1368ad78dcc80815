import Verif.Snapshot.Transfer
/-
Property C105: how a node publishes its snapshot bundles.

Modelled: `export_epoch_state` (crates/node/src/manager/node/close_epoch.rs:503-745) with the task that completes an
export, `remove_tmp_export` (:103-116) and `sweep_stale_tmp_exports` (:68-93); the exporter's queue and its worker
(crates/node/src/manager/export_exec.rs); the two ways in which the records and certificates of a bundle are written
(crates/storage/src/epoch_records.rs:879-1010, 1535-1650); the scan for missing certificates (epoch_records.rs:1412-1440).

A bundle is a directory of four files. `state_data` is the list of the blocks whose state was written into it one after the
other: one block in a sound file (its contents are the subject of `Verif/Snapshot/Pack.lean`). `consensus_data` is the
closed epoch's pack, whole or torn. The two packs of records and certificates are lists of entries, a damaged one being
`none`. The database of epoch records is what `Verif/Epoch/Disk.lean` shows it to be: records in the order of their epochs,
the first one wins, gaps are rejected; certificates under their digest, the first one wins; a crash loses some. The
placeholder record of epoch 0 is not modelled: `write_epoch_record` has replaced it before the first export.

Each event is one step between two suspensions of one of the tasks; the steps of all tasks interleave in any order. Every
disk operation may fail, and a failed removal may leave anything behind.
-/
namespace Verif
namespace Pub
open Ep (Rec Cert)

/-- A block: its number and its hash. -/
abbrev Block := Nat × Nat

/-- `consensus_data`. -/
inductive Cons where
  | whole (epoch : Nat)
  | torn
deriving DecidableEq, Repr

/-- A bundle's directory. -/
structure Dir where
  state : List Block
  cons : Option Cons
  recs : Option (List (Option Rec))
  certs : Option (List (Option Cert))
deriving DecidableEq, Repr

def Dir.empty : Dir := ⟨[], none, none, none⟩

/-- How far an export is, close_epoch.rs:632-745. -/
inductive Phase where
  | queued
  | walked
  | copied
  | certified
  | bundled
deriving DecidableEq, Repr

/-- An export under way. `tries`: the attempts of `export_once` to find its block at the tip. -/
structure Job where
  phase : Phase
  block : Block
  tries : Nat
deriving DecidableEq, Repr

/-- The node and its disk. `last`: the last epoch closed by this process. `fresh`: the epochs whose bundles were published
by this process. `mark`: the watermark of the certified prefix, epoch_records.rs:1412-1440. -/
structure Sys where
  recs : List Rec
  certs : Nat → Option Cert
  mark : Nat
  tip : Option Block
  last : Option Nat
  queue : List Nat
  busy : Option Nat
  job : Nat → Option Job
  tmp : Nat → Option Dir
  final : Nat → Option Dir
  fresh : List Nat

def Sys.new : Sys := ⟨[], fun _ => none, 0, none, none, [], none, fun _ => none, fun _ => none, fun _ => none, []⟩

/-- The digest of a record, and `check_entry_readiness` on a block. -/
structure Params where
  dig : Rec → Nat
  ready : Block → Bool

def upd {α : Type} (f : Nat → α) (n : Nat) (v : α) : Nat → α := fun k => if k = n then v else f k

/-- `REQUEST_QUEUE`, export_exec.rs:43. -/
def requestQueue : Nat := 4

/-- `MAX_PIN_ATTEMPTS`, export_exec.rs:36. -/
def maxPins : Nat := 8

/-! ### The database -/

/-- `get_epoch_by_number`, epoch_records.rs:835-845, where there is a certificate. -/
def Sys.pair (P : Params) (s : Sys) (e : Nat) : Option (Rec × Cert) :=
  s.recs[e]?.bind fun r => (s.certs (P.dig r)).map fun c => (r, c)

/-- `epoch_certified`. -/
def Sys.certified (P : Params) (s : Sys) (e : Nat) : Bool := (s.pair P e).isSome

/-- The first of `k` epochs from `e` that is not certified, or else `e + k`. -/
def Sys.scan (P : Params) (s : Sys) (e : Nat) : Nat → Nat
  | 0 => e
  | k + 1 => if s.certified P e = true then s.scan P (e + 1) k else e

/-- `first_missing_historical_cert`, epoch_records.rs:1422-1429: the watermark after it, and the answer. -/
def Sys.firstMissing (P : Params) (s : Sys) (n : Nat) : Nat × Option Nat :=
  let m := if s.mark < n then s.scan P s.mark (n - s.mark) else n
  (max s.mark m, if m < n then some m else none)

/-! ### The two packs of a bundle -/

/-- `append_to_copied_pack` with `pack_entry_chain`, epoch_records.rs:1556-1616: every entry is intact, the number is right
and the last one is accepted. -/
def appendPack {α : Type} (prev : Option (List (Option α))) (n : Nat) (ok : α → Bool) (v : α) : Option (List (Option α)) :=
  match prev with
  | none => none
  | some l =>
    if l.all Option.isSome = true then
      match l.getLast? with
      | some (some x) => if l.length = n ∧ ok x = true then some (l ++ [some v]) else none
      | _ => none
    else none

/-- `append_bundle_increment`, epoch_records.rs:1618-1650. -/
def increment (P : Params) (prev : Dir) (r : Rec) (c : Cert) : Option (List (Option Rec) × List (Option Cert)) :=
  match appendPack prev.recs r.epoch (fun x => decide (x.epoch = r.epoch - 1) && decide (P.dig x = r.parent)) r with
  | none => none
  | some rs =>
    match appendPack prev.certs r.epoch (fun x => decide (x.hash = r.parent)) c with
    | none => none
    | some cs => some (rs, cs)

/-- `try_append_previous_bundle`, epoch_records.rs:974-1010. -/
def Sys.tryAppend (P : Params) (s : Sys) (n : Nat) : Option (List (Option Rec) × List (Option Cert)) :=
  match n with
  | 0 => none
  | m + 1 =>
    match s.final m with
    | none => none
    | some prev =>
      match s.pair P (m + 1) with
      | none => none
      | some (r, c) => increment P prev r c

/-- `export_bounded_bundle`, epoch_records.rs:879-925. -/
def Sys.bounded (P : Params) (s : Sys) (n : Nat) : Option (List (Option Rec) × List (Option Cert)) :=
  ((List.range (n + 1)).mapM (s.pair P)).map fun l => (l.map fun p => some p.1, l.map fun p => some p.2)

/-- `export_incremental_bundle`, epoch_records.rs:927-972; `inc` and `full`: the disk works for the one and for the
other. -/
def Sys.writeBundle (P : Params) (s : Sys) (n : Nat) (inc full : Bool) : Option (List (Option Rec) × List (Option Cert)) :=
  match (if inc then s.tryAppend P n else none) with
  | some b => some b
  | none => if full then s.bounded P n else none

/-! ### Steps -/

/-- What happens to the disk operations of an epoch boundary: all work, the consensus pack cannot be synced, or the
leftover directory cannot be removed, whatever is left of it. -/
inductive Out where
  | fine
  | unsynced
  | stuck (left : Option Dir)
deriving DecidableEq, Repr

/-- A crash and the restart behind it: how many records and which certificates are left; which of the bundles published
since the start have their rename undone, or their unsynced `consensus_data` torn; what is left of the temporary
directories after the sweep. -/
structure Crash where
  kept : Nat
  lost : Nat → Bool
  back : Nat → Bool
  tear : Nat → Bool
  left : Nat → Option Dir

inductive Ev where
  /-- a record is saved -/
  | record (r : Rec)
  /-- a certificate is saved; every caller files it under the digest it certifies (epoch_votes.rs:183, and `save` after
  `validate_record_against_anchor`) -/
  | cert (c : Cert)
  /-- the persisted tip of the execution advances -/
  | tip (b : Block)
  /-- epoch `n` is closed with the final block `b` -/
  | boundary (n : Nat) (b : Block) (o : Out)
  /-- the exporter's worker takes a request -/
  | take
  /-- an attempt of the worker -/
  | pin (disk : Bool) (left : Option Dir)
  | copy (n : Nat) (disk : Bool) (left : Option Dir)
  /-- the certificate is looked up; `late`: for the last time -/
  | await (n : Nat) (late : Bool) (left : Option Dir)
  | bundle (n : Nat) (inc full : Bool) (left : Option Dir)
  | rename (n : Nat) (disk : Bool) (left : Option Dir)
  /-- the operator deletes a published bundle -/
  | prune (n : Nat)
  | crash (c : Crash)

/-- An export ends without a bundle: `remove_tmp_export`, which may fail. -/
def Sys.drop (s : Sys) (n : Nat) (left : Option Dir) : Sys :=
  { s with job := upd s.job n none, tmp := upd s.tmp n left }

/-- An export goes on, with its directory as given. -/
def Sys.next (s : Sys) (n : Nat) (j : Job) (d : Dir) : Sys :=
  { s with job := upd s.job n (some j), tmp := upd s.tmp n (some d) }

/-- `export_epoch_state` up to the request, close_epoch.rs:530-634. An epoch is closed once by a process, and epochs are
closed in order. -/
def Sys.boundary (P : Params) (s : Sys) (n : Nat) (b : Block) (o : Out) : Sys :=
  if s.last.all (fun m => decide (m < n)) = false then s
  else
    let s := { s with last := some n }
    if (s.final n).isSome = true then s
    else
      let r := s.firstMissing P n
      let s := { s with mark := r.1 }
      if r.2.isSome = true then s
      else match o with
        | .unsynced => s
        | .stuck left => { s with tmp := upd s.tmp n left }
        | .fine =>
          let s := { s with tmp := upd s.tmp n none }
          if requestQueue ≤ s.queue.length then s
          else { s with queue := s.queue ++ [n], job := upd s.job n (some ⟨.queued, b, 0⟩) }

/-- One attempt of `export_once`, export_exec.rs:205-264, for the request of epoch `n`. The pack is written into the
directory as it is found. -/
def Sys.attempt (P : Params) (s : Sys) (n : Nat) (j : Job) (disk : Bool) (left : Option Dir) : Sys :=
  if s.tip = some j.block then
    if P.ready j.block = true ∧ disk = true then
      { s.next n { j with phase := .walked } { (s.tmp n).getD Dir.empty with
          state := ((s.tmp n).getD Dir.empty).state ++ [j.block] } with busy := none }
    else { s.drop n left with busy := none }
  else if j.tries + 1 < maxPins then { s with job := upd s.job n (some { j with tries := j.tries + 1 }) }
  else { s.drop n left with busy := none }

/-- The copy of the consensus pack, close_epoch.rs:645-667. -/
def Sys.copied (s : Sys) (n : Nat) (j : Job) (disk : Bool) (left : Option Dir) : Sys :=
  if disk then s.next n { j with phase := .copied } { (s.tmp n).getD Dir.empty with cons := some (.whole n) }
  else s.drop n left

/-- The wait for the epoch's certificate, close_epoch.rs:674-696. -/
def Sys.awaited (P : Params) (s : Sys) (n : Nat) (j : Job) (late : Bool) (left : Option Dir) : Sys :=
  match s.recs[n]? with
  | none => s.drop n left
  | some r =>
    if (s.certs (P.dig r)).isSome = true then { s with job := upd s.job n (some { j with phase := .certified }) }
    else if late then s.drop n left
    else s

/-- The records and certificates, close_epoch.rs:698-718. -/
def Sys.bundled (P : Params) (s : Sys) (n : Nat) (j : Job) (inc full : Bool) (left : Option Dir) : Sys :=
  match s.writeBundle P n inc full with
  | some (rs, cs) => s.next n { j with phase := .bundled } { (s.tmp n).getD Dir.empty with recs := some rs, certs := some cs }
  | none => s.drop n left

/-- The rename, close_epoch.rs:720-735; onto a directory that is not empty it fails. -/
def Sys.renamed (s : Sys) (n : Nat) (disk : Bool) (left : Option Dir) : Sys :=
  if disk = true ∧ s.final n = none then
    { s with job := upd s.job n none, tmp := upd s.tmp n none, final := upd s.final n (s.tmp n), fresh := n :: s.fresh }
  else s.drop n left

def tearDir (d : Dir) : Dir := { d with cons := some .torn }

/-- A published bundle after a crash. -/
def Sys.found (s : Sys) (c : Crash) (n : Nat) : Option Dir :=
  if n ∈ s.fresh then
    if c.back n then none else if c.tear n then (s.final n).map tearDir else s.final n
  else s.final n

/-- A crash and the restart: `seed_certified_watermark` (epoch_records.rs:1435-1440) included. -/
def Sys.crash (P : Params) (s : Sys) (c : Crash) : Sys :=
  let s' : Sys :=
    { recs := s.recs.take c.kept, certs := fun k => if c.lost k then none else s.certs k, mark := 0, tip := s.tip,
      last := none, queue := [], busy := none, job := fun _ => none, tmp := c.left, final := s.found c, fresh := [] }
  { s' with mark := (s'.firstMissing P s'.recs.length).1 }

/-- The task of epoch `n` goes on, if it is at the phase `p`. -/
def Sys.at_ (s : Sys) (n : Nat) (p : Phase) (f : Job → Sys) : Sys :=
  match s.job n with
  | some j => if j.phase = p then f j else s
  | none => s

def Sys.step (P : Params) (s : Sys) : Ev → Sys
  | .record r => if r.epoch = s.recs.length then { s with recs := s.recs ++ [r] } else s
  | .cert c => if (s.certs c.hash).isSome = true then s else { s with certs := upd s.certs c.hash (some c) }
  | .tip b => if s.tip.all (fun t => decide (t.1 < b.1)) = true then { s with tip := some b } else s
  | .boundary n b o => s.boundary P n b o
  | .take => match s.busy, s.queue with
    | none, n :: q => { s with busy := some n, queue := q }
    | _, _ => s
  | .pin disk left => match s.busy with
    | some n => match s.job n with
      | some j => s.attempt P n j disk left
      | none => s
    | none => s
  | .copy n disk left => s.at_ n .walked fun j => s.copied n j disk left
  | .await n late left => s.at_ n .copied fun j => s.awaited P n j late left
  | .bundle n inc full left => s.at_ n .certified fun j => s.bundled P n j inc full left
  | .rename n disk left => s.at_ n .bundled fun _ => s.renamed n disk left
  | .prune n => { s with final := upd s.final n none, fresh := s.fresh.filter (· ≠ n) }
  | .crash c => s.crash P c

def Sys.steps (P : Params) (s : Sys) (es : List Ev) : Sys := es.foldl (Sys.step P) s

/-- A run of the node from an empty disk. -/
def run (P : Params) (es : List Ev) : Sys := Sys.new.steps P es

/-! ### What the importer reads -/

/-- `read_bundle_certs`, crates/telcoin-network-cli/src/db.rs:402-412: a map by the digest, a later entry replaces an
earlier one. -/
def certMap (cs : List Cert) (k : Nat) : Option Cert := cs.reverse.find? fun c => decide (c.hash = k)

/-! ### Specification -/

def Ev.isCrash : Ev → Prop
  | .crash _ => True
  | _ => False

/-- A complete bundle of epoch `n` after the events `es`. -/
structure Complete (P : Params) (es : List Ev) (n : Nat) (d : Dir) : Prop where
  /-- the state is one block's: that with which epoch `n` was closed, and which has been the tip -/
  state : ∃ b o, d.state = [b] ∧ Ev.boundary n b o ∈ es ∧ Ev.tip b ∈ es ∧ P.ready b = true
  /-- the consensus pack is epoch `n`'s; it is torn only by a crash -/
  cons : d.cons = some (.whole n) ∨ (d.cons = some .torn ∧ ∃ e ∈ es, e.isCrash)
  /-- the records of the epochs 0 to `n`, and the certificate of each -/
  packs : ∃ (rs : List Rec) (cs : List Cert), d.recs = some (rs.map some) ∧ d.certs = some (cs.map some) ∧
    rs.length = n + 1 ∧ cs.length = n + 1 ∧
    (∀ (i : Nat) (r : Rec), rs[i]? = some r → r.epoch = i ∧ Ev.record r ∈ es) ∧
    (∀ (i : Nat) (r : Rec) (c : Cert), rs[i]? = some r → cs[i]? = some c → c.hash = P.dig r ∧ Ev.cert c ∈ es)

end Pub
end Verif
