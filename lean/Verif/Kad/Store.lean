import Verif.Net.Map

/-!
# The record store of the discovery table

Models `KadStore` (`crates/network-libp2p/src/kad.rs:180-250, 421-520`), the handling of an
inbound record (`consensus.rs:606-643, 1973-2046, 2082-2105`) and the load at start
(`consensus.rs:446-476`).

Simplifications: rows are stored under a hash of the record's key, here under the key itself
(the hash is taken as collision free); the primary and the worker tables are two instances;
a value is an opaque number with its size and its decoding; a stored row may be undecodable
(`Cell.junk`); database operations do not fail; `SystemTime` and `Instant` are one clock.  A
panic is the result `none`.
-/

namespace Verif.Kad

open Verif.Net (get put del keys)

/-- what a node record says: network identity, number of addresses, time stamp
(`NetworkInfo`, `types.rs:970-986`) -/
structure Info where
  pid : Nat
  addrs : Nat
  ts : Nat
deriving DecidableEq, Repr

/-- a record as it travels and as it is stored (`KadRecord`, `kad.rs:26-43`) -/
structure Rec where
  key : Nat
  value : Nat
  publisher : Option Nat
  expires : Option Nat
deriving DecidableEq, Repr

/-- `is_expired` (`kad.rs:57-62`) -/
def Rec.expired (r : Rec) (now : Nat) : Bool :=
  match r.expires with
  | some t => decide (t ≤ now)
  | none => false

/-- codecs and keys: does the key parse as a BLS key, how long is a value, what does it decode
to (`try_decode_compat`), and is it signed by a key (`decode_and_verify`, `types.rs:946-967`;
the two agree on the decoded record, C38) -/
structure Env where
  parse : Nat → Bool
  size : Nat → Nat
  dec : Nat → Option Info
  signed : Nat → Nat → Bool

/-- `MemoryStoreConfig` and `MAX_ADVERTISED_MULTIADDRS` -/
structure Cfg where
  maxRecords : Nat
  maxValue : Nat
  maxAddrs : Nat

/-- a stored row: a record, or bytes that do not decode -/
inductive Cell where
  | good (r : Rec)
  | junk
deriving DecidableEq, Repr

/-- is it a row whose expiry has passed? -/
def Cell.expired (now : Nat) : Cell → Bool
  | .good r => r.expired now
  | .junk => false

/-- is it an undecodable row? -/
def Cell.isJunk : Cell → Bool
  | .good _ => false
  | .junk => true

/-- the table and the counter `num_records` (`kad.rs:195-214`) -/
structure Store where
  rows : List (Nat × Cell)
  num : Nat
deriving DecidableEq, Repr

/-- why the store refuses a record -/
inductive Refusal where
  | tooLarge
  | maxRecords
deriving DecidableEq, Repr

/-- `get` (`kad.rs:429-441`); the outer `none` is a panic of `decode` -/
def Store.lookup (s : Store) (k now : Nat) : Option (Option Rec) :=
  match get k s.rows with
  | none => some none
  | some .junk => none
  | some (.good r) => some (if r.expired now then none else some r)

/-- `evict_expired_records` (`kad.rs:257-291`) -/
def Store.evict (now : Nat) (s : Store) : Option Store :=
  if s.rows.any (fun e => e.2.isJunk) then none
  else some ⟨s.rows.filter (fun e => !e.2.expired now), s.num - s.rows.countP (fun e => e.2.expired now)⟩

/-- the end of `put` -/
def Store.write (s : Store) (r : Rec) (fresh : Bool) : Store :=
  ⟨put r.key (.good r) s.rows, if fresh then s.num + 1 else s.num⟩

/-- `put` (`kad.rs:443-484`): the store after it, and the refusal if there is one -/
def Store.put (c : Cfg) (env : Env) (now : Nat) (r : Rec) (s : Store) : Option (Store × Option Refusal) :=
  if c.maxValue ≤ env.size r.value then some (s, some .tooLarge)
  else match get r.key s.rows with
    | some _ => some (s.write r false, none)
    | none =>
      if c.maxRecords ≤ s.num then
        match s.evict now with
        | none => none
        | some s' =>
          if c.maxRecords ≤ s'.num then some (s', some .maxRecords)
          else some (s'.write r true, none)
      else some (s.write r true, none)

/-- `remove` (`kad.rs:486-505`): the counter goes down whether or not there was a row, since
removing an absent key succeeds in every database -/
def Store.remove (k : Nat) (s : Store) : Store := ⟨del k s.rows, s.num - 1⟩

/-- `peer_record_valid` (`consensus.rs:606-643`) -/
def valid (c : Cfg) (env : Env) (r : Rec) : Option Info :=
  if env.parse r.key then
    match env.dec r.value with
    | none => none
    | some i =>
      if env.signed r.value r.key then
        if c.maxAddrs < i.addrs then none
        else if r.publisher = some i.pid then some i else none
      else none
  else none

/-- `is_newer_record` (`consensus.rs:2082-2105`) -/
def isNewer (env : Env) (now : Nat) (r : Rec) (s : Store) : Option Bool :=
  match s.lookup r.key now with
  | none => none
  | some none => some true
  | some (some e) =>
    match env.dec e.value, env.dec r.value with
    | some a, some b => some (decide (a.ts < b.ts))
    | _, _ => some false

/-- what comes of an inbound record: nothing; a fatal penalty for its sender; nothing, as it is
not newer; the store refused it; it is stored and handed to `add_self_advertised_peer` -/
inductive Out where
  | dropped
  | penalised
  | stale
  | refused
  | learned (i : Info)
deriving DecidableEq, Repr

/-- is the publisher banned, or is there none? (`consensus.rs:1980-1984`) -/
def publisherBanned (banned : Nat → Bool) : Option Nat → Bool
  | none => true
  | some p => banned p

/-- `process_kad_put_request` (`consensus.rs:1973-2046`) -/
def inbound (c : Cfg) (env : Env) (banned : Nat → Bool) (now src : Nat) (r : Rec) (s : Store) :
    Option (Store × Out) :=
  if publisherBanned banned r.publisher || banned src then
    some (s, if r.publisher = none then .penalised else .dropped)
  else match valid c env r with
    | none => some (s, .penalised)
    | some i =>
      match isNewer env now r s with
      | none => none
      | some false => some (s, .stale)
      | some true =>
        match s.put c env now r with
        | none => none
        | some (s', none) => some (s', .learned i)
        | some (s', some _) => some (s', .refused)

/-- is the row removed at start? (`consensus.rs:452-464`: an unexpired row whose key does not
parse or whose value does not decode) -/
def corrupt (env : Env) (now : Nat) : Cell → Bool
  | .good r => !r.expired now && !(env.parse r.key && (env.dec r.value).isSome)
  | .junk => false

/-- the records handed to the address book at start (`consensus.rs:450-457`) -/
def restored (env : Env) (now : Nat) (s : Store) : List (Nat × Info) :=
  s.rows.filterMap fun e =>
    match e.2 with
    | .good r => if r.expired now || !env.parse r.key then none else (env.dec r.value).map (fun i => (r.key, i))
    | .junk => none

/-- a start: the rows are counted, read, and the corrupt ones removed (`kad.rs:216-243`,
`consensus.rs:446-476`); reading an undecodable row panics (`kad.rs:403-417`) -/
def restart (env : Env) (now : Nat) (s : Store) : Option Store :=
  if s.rows.any (fun e => e.2.isJunk) then none
  else some ((s.rows.filter (fun e => corrupt env now e.2)).foldl (fun s e => s.remove e.1) ⟨s.rows, s.rows.length⟩)

/-- what can happen to the store -/
inductive Op where
  /-- a record from a peer; `banned` is the state of the ban list at that time -/
  | inbound (banned : Nat → Bool) (src : Nat) (r : Rec)
  /-- `provide_our_data` (`consensus.rs:645-662`) -/
  | own (r : Rec)
  /-- libp2p's replication job drops a record it finds expired -/
  | remove (k : Nat)
  /-- the node is started again -/
  | restart

/-- one operation at time `now` -/
def Op.run (c : Cfg) (env : Env) (now : Nat) (s : Store) : Op → Option Store
  | .inbound b src r => (Kad.inbound c env b now src r s).map Prod.fst
  | .own r => (s.put c env now r).map Prod.fst
  | .remove k => some (s.remove k)
  | .restart => Kad.restart env now s

/-- a history -/
def runs (c : Cfg) (env : Env) : List (Nat × Op) → Store → Option Store
  | [], s => some s
  | (t, o) :: l, s => (o.run c env t s).bind (runs c env l)

/-- the empty store -/
def Store.empty : Store := ⟨[], 0⟩

end Verif.Kad
