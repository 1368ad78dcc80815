import Verif.Storage.CertsProps
import Verif.Codec.Bcs
/-
Property C72: which certificates a primary asks its peers for, and which ones it gets.
`MissingCertificatesRequest` (crates/consensus/primary/src/network/message.rs:82-232) and the responder's
`CertificateCollector` (crates/consensus/primary/src/state_sync/cert_collector.rs).
-/
namespace Verif
namespace Fetch

open Codec (Bytes leNat)
open CertStore (Db nextRoundNumber readByIndex originsAfterRound)

/-! ### The request -/

/-- The roaring bitmap of a set of 32-bit numbers: a dependency, left open. Sets are ascending lists. -/
structure Bitmap where
  ser : List Nat → Bytes
  de : Bytes → Option (List Nat)

/-- Ascending, without repetition. -/
def Asc (s : List Nat) : Prop := s.Pairwise (· < ·)

/-- A `u32` read at `start` (message.rs:219-229). -/
def leU32 (b : Bytes) (start : Nat) : Option Nat :=
  if start + 4 ≤ b.length then some (leNat ((b.drop start).take 4)) else none

/-- `roaring_container_count` (message.rs:218-242). -/
def containerCount (b : Bytes) : Option Nat :=
  match leU32 b 0 with
  | none => none
  | some cookie =>
    if cookie = 12346 then leU32 b 4
    else if cookie % 65536 = 12347 then some (cookie / 65536 + 1)
    else none

/-- What is assumed of the bitmap library: sets come back, what is read is a set of 32-bit numbers, and there are no
more containers than elements. -/
structure Bitmap.Ok (k : Bitmap) : Prop where
  inverse : ∀ s, Asc s → (∀ x ∈ s, x < 2 ^ 32) → k.de (k.ser s) = some s
  asc : ∀ b s, k.de b = some s → Asc s
  count : ∀ s, Asc s → (∀ x ∈ s, x < 2 ^ 32) → ∃ n, containerCount (k.ser s) = some n ∧ n ≤ s.length

/-- One entry of `skip_rounds` read by `get_bounds` (message.rs:131-171). -/
def readEntry (k : Bitmap) (maxSkip lower : Nat) (b : Bytes) : Option (List Round) :=
  match containerCount b with
  | none => none
  | some n =>
    if maxSkip < n then none
    else match k.de b with
      | none => none
      | some s =>
        if maxSkip < s.length then none
        else if s.all (fun r => decide (lower + r < 2 ^ 32)) then some (s.map (lower + ·)) else none

/-- All entries; the first error wins; of two entries for one authority the later one counts (`collect` into a
`BTreeMap`). -/
def readEntries (k : Bitmap) (maxSkip lower : Nat) :
    List (AuthorityId × Bytes) → List (AuthorityId × List Round) → Option (List (AuthorityId × List Round))
  | [], m => some m
  | (o, b) :: rest, m =>
    match readEntry k maxSkip lower b with
    | none => none
    | some s => readEntries k maxSkip lower rest (SMap.insert o s m)

/-- `get_bounds` (message.rs:113-173). -/
def getBounds (k : Bitmap) (maxSkip maxAuth lower : Nat) (entries : List (AuthorityId × Bytes)) :
    Option (List (AuthorityId × List Round)) :=
  if maxAuth < entries.length then none else readEntries k maxSkip lower entries []

/-- `set_bounds` (message.rs:178-200): the skipped rounds relative to the bound. -/
def setBounds (k : Bitmap) (gc : Round) (skip : List (AuthorityId × List Round)) : List (AuthorityId × Bytes) :=
  skip.map (fun e => (e.1, k.ser (e.2.map (· - gc))))

/-- Insertion into a `BTreeSet<Round>`. -/
def sinsert (r : Round) : List Round → List Round
  | [] => [r]
  | x :: s => if r < x then r :: x :: s else if r = x then x :: s else x :: sinsert r s

/-- `written_rounds.entry(origin).or_default().insert(round)` (certificate_fetcher.rs:367). -/
def addWritten (m : List (AuthorityId × List Round)) (x : Round × AuthorityId) : List (AuthorityId × List Round) :=
  SMap.insert x.2 (sinsert x.1 ((SMap.get? x.2 m).getD [])) m

/-- `get_written_rounds` (certificate_fetcher.rs:348-372). -/
def writtenRounds (committee : List AuthorityId) (db : Db) (gc : Round) : List (AuthorityId × List Round) :=
  (originsAfterRound db (gc + 1)).foldl addWritten (SMap.ofList (committee.map (fun o => (o, []))))

/-! ### The responder -/

/-- The `BinaryHeap<Reverse<(Round, AuthorityIdentifier)>>` as the ordered list of its elements. -/
abbrev Queue := List (Round × AuthorityId)

/-- `push`. -/
def qpush (x : Round × AuthorityId) : Queue → Queue
  | [] => [x]
  | y :: q => if x.1 < y.1 ∨ (x.1 = y.1 ∧ x.2 ≤ y.2) then x :: y :: q else y :: qpush x q

/-- `find_next_round` (cert_collector.rs:113-129). `fuel`: the loop visits stored rounds in ascending order. -/
def findNextAux (db : Db) (o : AuthorityId) (skip : List Round) : Nat → Round → Option Round
  | 0, _ => none
  | fuel + 1, cur =>
    match nextRoundNumber db o cur with
    | none => none
    | some r => if skip.contains r then findNextAux db o skip fuel r else some r

def findNext (db : Db) (o : AuthorityId) (cur : Round) (skip : List Round) : Option Round :=
  findNextAux db o skip (db.byOrigin.length + 1) cur

/-- The queue after `new` (cert_collector.rs:84-101); `new` fails on a set that is too large. -/
def initQueue (db : Db) (lower : Round) : List (AuthorityId × List Round) → Queue
  | [] => []
  | (o, s) :: rest =>
    match findNext db o lower s with
    | none => initQueue db lower rest
    | some r => qpush (r, o) (initQueue db lower rest)

/-- `CertificateCollector::new` (cert_collector.rs:56-110): `none` for a malformed request. -/
def newCollector (k : Bitmap) (maxSkip maxAuth : Nat) (db : Db) (lower : Round) (entries : List (AuthorityId × Bytes)) :
    Option (List (AuthorityId × List Round) × Queue) :=
  match getBounds k maxSkip maxAuth lower entries with
  | none => none
  | some skip => if skip.any (fun e => decide (maxSkip < e.2.length)) then none else some (skip, initQueue db lower skip)

inductive Next where
  | finished
  | failed
  | cert (c : Certificate) (q : Queue)

/-- `next_certificate` (cert_collector.rs:132-152). -/
def nextCertificate (db : Db) (skip : List (AuthorityId × List Round)) : Queue → Next
  | [] => .finished
  | (r, o) :: q =>
    match readByIndex db o r with
    | none => nextCertificate db skip q
    | some c =>
      match SMap.get? o skip with
      | none => .failed
      | some s =>
        match findNext db o r s with
        | none => .cert c q
        | some n => .cert c (qpush (n, o) q)

/-- The iterator (cert_collector.rs:170-187): `n` calls are made before the time limit. `none`: an error item. -/
def collect (db : Db) (skip : List (AuthorityId × List Round)) : Nat → Queue → List (Option Certificate)
  | 0, _ => []
  | n + 1, q =>
    match nextCertificate db skip q with
    | .finished => []
    | .failed => [none]
    | .cert c q' => some c :: collect db skip n q'

end Fetch
end Verif
