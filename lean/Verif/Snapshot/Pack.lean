import Mathlib.Tactic.Common
import Mathlib.Data.List.Induction

/-!
# The execution-state pack

Models `crates/storage/src/exec_state_pack.rs`: the file that carries a complete execution state
from one node to another. Addresses, hashes, slot keys and slot values are natural numbers; a file
is the list of the records its container yields, `none` standing for a record that cannot be read
(bad checksum, bad size, undecodable bytes: the container itself is modelled in `Verif.Archive`).
-/
namespace Verif.Snapshot

/-- A block header, reduced to the fields this code reads: `number`, `parent_hash`, `state_root` and
the rest of it. (`ExecHeader`.) -/
structure Header where
  number : Nat
  parent : Nat
  root : Nat
  rest : Nat := 0
deriving DecidableEq, Repr

/-- `exec_state_pack.rs:96-110` (`ExecStateMeta`). -/
structure Meta where
  root : Nat
  number : Nat
  hash : Nat
  count : Nat
deriving DecidableEq, Repr

/-- An account without its storage: `exec_state_pack.rs:140-145` (`AccountRecord`) and `:179-188`
(`ExecStateAccountMeta`), which carry the same fields. -/
structure Acct where
  addr : Nat
  nonce : Nat
  balance : Nat
  code : Option (List Nat)
deriving DecidableEq, Repr

/-- A run of storage slots: key and value. -/
abbrev Slots := List (Nat × Nat)

/-- An account with its storage: `exec_state_pack.rs:116-121` (`ExecStateAccount`, with
`GenesisAccount::{nonce, balance, code, storage}`). `storage` is the map's entries in ascending order of
keys, the order in which a `BTreeMap` is walked. -/
structure Account where
  acct : Acct
  storage : Slots
deriving DecidableEq, Repr

/-- `exec_state_pack.rs:126-133` (`ExecStateStats`). -/
structure Stats where
  accounts : Nat := 0
  slots : Nat := 0
  codes : Nat := 0
deriving DecidableEq, Repr

/-- `exec_state_pack.rs:202-213` (`ExecStateRecord`). A header is stored as bytes; `header none` are
bytes that do not decode (`decode_header`, :223-225). -/
inductive Rec
  | info (m : Meta)
  | header (h : Option Header)
  | account (a : Acct)
  | storage (c : Slots)
  | fin (s : Stats)
deriving DecidableEq, Repr

/-- `exec_state_pack.rs:74` (`STORAGE_CHUNK_SLOTS`). -/
def chunkSlots : Nat := 64 * 1024

/-- `exec_state_pack.rs:82` (`BLOCKHASH_ANCESTORS`). -/
def ancestors : Nat := 256

/-- `exec_state_pack.rs:90` (`MAX_HEADER_COUNT`). -/
def maxHeaders : Nat := 4096

/-- `code.as_ref().is_some_and(|code| !code.is_empty())`, exec_state_pack.rs:344 and :643. -/
def hasCode (a : Acct) : Bool := match a.code with
  | some c => !c.isEmpty
  | none => false

/-! ## Writing -/

/-- `exec_state_pack.rs:255-258` (`ExecStatePackWriter`): the records appended so far and the tallies. The
container's own failures to append (a full disk) are not modelled: they end the export. -/
structure Writer where
  out : List Rec
  stats : Stats
deriving DecidableEq, Repr

/-- What can go wrong (`ExecStatePackError`), as far as it is told apart here. -/
inductive Err
  | missingHeaders | rootMismatch | identityMismatch | metaNotFirst | tooManyHeaders | insufficientHeaders
  | unreadable | headerRlp | corrupt | oversized | missingFooter | countMismatch
deriving DecidableEq, Repr

/-- `exec_state_pack.rs:264-296` (`create`), into a fresh directory. `hash` is `hash_slow`; the count is
cast to 32 bits. -/
def create (hash : Header → Nat) (root : Nat) (headers : List Header) : Except Err Writer :=
  match headers with
  | [] => .error .missingHeaders
  | h :: _ =>
    if h.root ≠ root then .error .rootMismatch
    else .ok ⟨.info ⟨root, h.number, hash h, headers.length % 2 ^ 32⟩ :: headers.map (fun x => .header (some x)), {}⟩

/-- `exec_state_pack.rs:336-354` (`append_account_header`). -/
def Writer.accountHeader (w : Writer) (a : Acct) : Writer :=
  ⟨w.out ++ [.account a],
   { w.stats with accounts := w.stats.accounts + 1
                  codes := if hasCode a then w.stats.codes + 1 else w.stats.codes }⟩

/-- `exec_state_pack.rs:372-382` (`append_storage_chunk_owned`). -/
def Writer.chunk (w : Writer) (c : Slots) : Except Err Writer :=
  if c.isEmpty then .ok w
  else if c.length ≤ chunkSlots then
    .ok ⟨w.out ++ [.storage c], { w.stats with slots := w.stats.slots + c.length }⟩
  else .error .oversized

/-- `exec_state_pack.rs:312-327`: the loop of `append_account` over the storage, `buf` being the chunk that
is being filled. -/
def Writer.fill (w : Writer) (buf : Slots) : Slots → Except Err Writer
  | [] => w.chunk buf
  | s :: l =>
    let buf := buf ++ [s]
    if buf.length = chunkSlots then do
      let w ← w.chunk buf
      w.fill [] l
    else w.fill buf l

/-- `exec_state_pack.rs:305-330` (`append_account`). -/
def Writer.account (w : Writer) (a : Account) : Except Err Writer :=
  (w.accountHeader a.acct).fill [] a.storage

/-- `append_account` for each of a list of accounts. -/
def Writer.accounts (w : Writer) : List Account → Except Err Writer
  | [] => .ok w
  | a :: l => do
    let w ← w.account a
    w.accounts l

/-- `exec_state_pack.rs:386-390` (`finish`): the file and the tallies returned. -/
def Writer.finish (w : Writer) : List Rec × Stats := (w.out ++ [.fin w.stats], w.stats)

/-- A whole export: `create`, `append_account` for each account, `finish`. -/
def writePack (hash : Header → Nat) (root : Nat) (headers : List Header) (l : List Account) :
    Except Err (List Rec × Stats) := do
  let w ← create hash root headers
  let w ← w.accounts l
  return w.finish

/-! ## Reading -/

/-- A file as its container yields it: `none` is a record that cannot be read. -/
abbrev File := List (Option Rec)

/-- The file of records that can all be read. -/
def File.of (l : List Rec) : File := l.map some

/-- `exec_state_pack.rs:406-413` (`ExecStatePackReader`). -/
structure Reader where
  info : Meta
  headers : List Header
  rest : File
  pending : Option Rec := none
  done : Bool := false
deriving DecidableEq, Repr

/-- `exec_state_pack.rs:465-473`: reading `n` headers. -/
def readHeaders : Nat → File → Except Err (List Header × File)
  | 0, f => .ok ([], f)
  | n + 1, some (.header (some h)) :: f => do
    let (l, f) ← readHeaders n f
    return (h :: l, f)
  | _ + 1, some (.header none) :: _ => .error .headerRlp
  | _ + 1, some _ :: _ => .error .corrupt
  | _ + 1, none :: _ => .error .unreadable
  | _ + 1, [] => .error .missingHeaders

/-- `exec_state_pack.rs:421-476` (`open`). -/
def openPack (f : File) : Except Err Reader :=
  match f with
  | some (.info m) :: f =>
    if m.count = 0 then .error .missingHeaders
    else if m.count > maxHeaders then .error .tooManyHeaders
    else if ¬ m.count ≥ min m.number ancestors then .error .insufficientHeaders
    else do
      let (hs, f) ← readHeaders m.count f
      return { info := m, headers := hs, rest := f }
  | none :: _ => .error .unreadable
  | _ => .error .metaNotFirst

/-- `exec_state_pack.rs:501-513` (`pull`): the next record, if any, and the reader behind it. -/
def Reader.pull (r : Reader) : Option (Except Err Rec) × Reader :=
  match r.pending with
  | some x => (some (.ok x), { r with pending := none })
  | none =>
    match r.rest with
    | [] => (none, r)
    | some (.storage c) :: f =>
      (some (if c.length ≤ chunkSlots then .ok (.storage c) else .error .oversized), { r with rest := f })
    | some x :: f => (some (.ok x), { r with rest := f })
    | none :: f => (some (.error .unreadable), { r with rest := f })

/-- `exec_state_pack.rs:545-564`: gathering an account's storage chunks. The lookahead is empty while the
loop runs (it is taken by the first `pull`), so the loop walks the file. -/
def gather (r : Reader) : File → Slots → Except Err Slots × Reader
  | [], _ => (.error .missingFooter, { r with rest := [], done := true })
  | some (.storage c) :: f, acc =>
    if c.length ≤ chunkSlots then gather r f (acc ++ c)
    else (.error .oversized, { r with rest := f, done := true })
  | some x :: f, acc => (.ok acc, { r with rest := f, pending := some x })
  | none :: f, _ => (.error .unreadable, { r with rest := f, done := true })

/-- The map an account's slots are collected into (`BTreeMap::from_iter`, exec_state_pack.rs:151-152): a later
entry for the same key replaces the earlier one; ascending order of keys. -/
def insertSlot (k v : Nat) : Slots → Slots
  | [] => [(k, v)]
  | (k', v') :: l => if k < k' then (k, v) :: (k', v') :: l
    else if k = k' then (k, v) :: l else (k', v') :: insertSlot k v l

def collect (l : Slots) : Slots := l.foldl (fun m s => insertSlot s.1 s.2 m) []

/-- `exec_state_pack.rs:521-566` (`next_account`). -/
def Reader.nextAccount (r : Reader) : Option (Except Err Account) × Reader :=
  if r.done then (none, r)
  else match r.pull with
    | (some (.ok (.account a)), r) =>
      match gather r r.rest [] with
      | (.ok s, r) => (some (.ok ⟨a, collect s⟩), r)
      | (.error e, r) => (some (.error e), r)
    | (some (.ok (.fin _)), r) => (none, { r with done := true })
    | (some (.ok _), r) => (some (.error .corrupt), { r with done := true })
    | (some (.error e), r) => (some (.error e), { r with done := true })
    | (none, r) => (some (.error .missingFooter), { r with done := true })

/-- `exec_state_pack.rs:193-198` (`StateEntry`). -/
inductive Entry
  | account (a : Acct)
  | storage (c : Slots)
deriving DecidableEq, Repr

/-- `exec_state_pack.rs:572-598` (`next_entry`). -/
def Reader.nextEntry (r : Reader) : Option (Except Err Entry) × Reader :=
  if r.done then (none, r)
  else match r.pull with
    | (some (.ok (.account a)), r) => (some (.ok (.account a)), r)
    | (some (.ok (.storage c)), r) => (some (.ok (.storage c)), r)
    | (some (.ok (.fin _)), r) => (none, { r with done := true })
    | (some (.ok _), r) => (some (.error .corrupt), { r with done := true })
    | (some (.error e), r) => (some (.error e), { r with done := true })
    | (none, r) => (some (.error .missingFooter), { r with done := true })

/-- Calling `next_account` until it returns `None` or an error (`accounts`, exec_state_pack.rs:601-605, driven
by a consumer that stops at the first error); `fuel` bounds the calls. `none`: out of fuel. -/
def drainAccounts : Nat → Reader → Option (Except Err (List Account))
  | 0, _ => none
  | n + 1, r => match r.nextAccount with
    | (none, _) => some (.ok [])
    | (some (.error e), _) => some (.error e)
    | (some (.ok a), r) => match drainAccounts n r with
      | some (.ok l) => some (.ok (a :: l))
      | x => x

/-- Calling `next_entry` until it returns `None` or an error. -/
def drainEntries : Nat → Reader → Option (Except Err (List Entry))
  | 0, _ => none
  | n + 1, r => match r.nextEntry with
    | (none, _) => some (.ok [])
    | (some (.error e), _) => some (.error e)
    | (some (.ok a), r) => match drainEntries n r with
      | some (.ok l) => some (.ok (a :: l))
      | x => x

/-- `exec_state_pack.rs:634-662`: the walk of `verify`. The lookahead is never filled on this path, so it walks
the file. -/
def walk : File → Bool → Stats → Except Err (Stats × Stats)
  | [], _, _ => .error .missingFooter
  | some (.account a) :: f, _, t =>
    walk f true { t with accounts := t.accounts + 1, codes := if hasCode a then t.codes + 1 else t.codes }
  | some (.storage c) :: f, saw, t =>
    if c.length ≤ chunkSlots then
      if saw then walk f saw { t with slots := t.slots + c.length } else .error .corrupt
    else .error .oversized
  | some (.fin s) :: _, _, t => .ok (s, t)
  | some (.info _) :: _, _, _ => .error .corrupt
  | some (.header _) :: _, _, _ => .error .corrupt
  | none :: _, _, _ => .error .unreadable

/-- `exec_state_pack.rs:242-251` (`VerifyReport`). -/
structure Report where
  headers : Nat
  stats : Stats
deriving DecidableEq, Repr

/-- `exec_state_pack.rs:619-677` (`verify`). -/
def verify (hash : Header → Nat) (f : File) : Except Err Report := do
  let r ← openPack f
  match r.headers with
  | [] => .error .missingHeaders
  | h :: _ =>
    if h.root ≠ r.info.root then .error .rootMismatch
    else if h.number ≠ r.info.number ∨ hash h ≠ r.info.hash then .error .identityMismatch
    else do
      let (footer, counted) ← walk r.rest false {}
      if footer.accounts ≠ counted.accounts then .error .countMismatch
      else return ⟨r.info.count, counted⟩

end Verif.Snapshot
