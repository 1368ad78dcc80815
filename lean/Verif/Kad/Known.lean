import Verif.Net.Map

/-!
# The address book of committee members

Models `known_peers` and `pinned_peers` of the peer manager
(`crates/network-libp2p/src/peers/manager.rs:49-85, 160-178, 719-796, 812-987`) and the record
queries that fill it (`consensus.rs:1729-1749, 1843-1886, 2107-2168`).

Simplifications: a record is its network identity, its time stamp and its advertised endpoint;
whether an endpoint is well formed is an arbitrary predicate; the effect on bans and on the peer
table is C57, C58 and C60.
-/

namespace Verif.Kad

open Verif.Net (get put del keys)

/-- a member's network information (`NetworkInfo`) -/
structure Entry where
  pid : Nat
  ts : Nat
  rpc : Option Nat
deriving DecidableEq, Repr

/-- the address book (`manager.rs:74, 85`) and the three committees of the peer table -/
structure Book where
  known : List (Nat × Entry)
  pinned : List Nat
  prev : List Nat
  cur : List Nat
  next : List Nat
deriving DecidableEq, Repr

/-- `is_committee_member` (`all_peers.rs:1150-1165`) -/
def Book.member (s : Book) (b : Nat) : Bool := decide (b ∈ s.prev ∨ b ∈ s.cur ∨ b ∈ s.next)

/-- drop a malformed endpoint (`manager.rs:967-977`) -/
def strip (wf : Nat → Bool) (e : Entry) : Entry :=
  match e.rpc with
  | some u => if wf u then e else { e with rpc := none }
  | none => e

/-- `cache_known_peer` (`manager.rs:963-987`), its effect on the book -/
def Book.cache (wf : Nat → Bool) (b : Nat) (e : Entry) (s : Book) : Book :=
  { s with known := put b (strip wf e) s.known }

/-- `pinned_peers.insert` -/
def Book.pin (b : Nat) (s : Book) : Book := { s with pinned := b :: s.pinned }

/-- is there a cached record at least as new? -/
def Book.atLeast (s : Book) (b t : Nat) : Bool :=
  match get b s.known with
  | some x => decide (t ≤ x.ts)
  | none => false

/-- `kad_record_is_stale` (`manager.rs:950-956`) -/
def Book.stale (s : Book) (b : Nat) (e : Entry) : Bool := !decide (b ∈ s.pinned) && s.atLeast b e.ts

/-- `add_discovered_peer` (`manager.rs:857-875`); `add_self_advertised_peer` has the same effect
on the book (`manager.rs:891-926`) -/
def Book.discovered (wf : Nat → Bool) (b : Nat) (e : Entry) (s : Book) : Book :=
  if s.member b then
    if s.stale b e then s else s.cache wf b e
  else s

/-- `prune_known_peers` (`manager.rs:763-768`) -/
def Book.prune (s : Book) : Book :=
  { s with known := s.known.filter fun e => decide (e.1 ∈ s.pinned) || s.member e.1 }

/-- the keys a lookup is started for (`manager.rs:786-792`) -/
def Book.missing (s : Book) (ks : List Nat) : List Nat := ks.filter fun k => (get k s.known).isNone

/-- `update_committees` (`manager.rs:719-742`): the new book and the keys to look up -/
def Book.update (p c n : List Nat) (s : Book) : Book × List Nat :=
  (Book.prune { s with prev := p, cur := c, next := n }, s.missing c ++ s.missing n)

/-- what happens to the book -/
inductive BookOp where
  /-- `add_known_peer` (`manager.rs:812-815`) -/
  | operator (b : Nat) (e : Entry)
  /-- `add_trusted_peer_and_dial` (`manager.rs:160-178`) -/
  | trusted (b : Nat) (e : Entry)
  /-- `add_bootstrap_peer` (`manager.rs:839-844`) -/
  | bootstrap (b : Nat) (e : Entry)
  /-- `add_restored_peer` (`manager.rs:826-828`) -/
  | restored (b : Nat) (e : Entry)
  /-- a record from the discovery table: a lookup's result or one that a peer pushed -/
  | record (b : Nat) (e : Entry)
  /-- `update_committees` -/
  | committees (p c n : List Nat)

def BookOp.run (wf : Nat → Bool) (s : Book) : BookOp → Book
  | .operator b e => (s.pin b).cache wf b e
  | .trusted b e => { s.pin b with known := put b e s.known }
  | .bootstrap b e => if (get b s.known).isSome then s.pin b else (s.pin b).cache wf b e
  | .restored b e => s.cache wf b e
  | .record b e => s.discovered wf b e
  | .committees p c n => (s.update p c n).1

def bookRuns (wf : Nat → Bool) (l : List BookOp) (s : Book) : Book := l.foldl (BookOp.run wf) s

/-! ## Queries -/

/-- a running lookup (`KadQuery`, `types.rs:988-1001`) -/
structure Query where
  request : Nat
  result : Option Entry
deriving DecidableEq, Repr

/-- the running lookups (`kad_record_queries`), the next query id of libp2p, the book, and the
peers penalised so far -/
structure Lookups where
  queries : List (Nat × Query)
  fresh : Nat
  book : Book
  penalised : List Nat
deriving DecidableEq, Repr

/-- one key of `MissingAuthorities` (`consensus.rs:1740-1748`) -/
def Lookups.ask (s : Lookups) (k : Nat) : Lookups :=
  if s.queries.all (fun q => decide (q.2.request ≠ k)) then
    { s with queries := put s.fresh ⟨k, none⟩ s.queries, fresh := s.fresh + 1 }
  else s

/-- `close_kad_query` (`consensus.rs:2159-2168`) -/
def Lookups.close (wf : Nat → Bool) (q : Nat) (s : Lookups) : Lookups :=
  match get q s.queries with
  | none => s
  | some x =>
    { s with
      queries := del q s.queries
      book := match x.result with
        | some e => s.book.discovered wf x.request e
        | none => s.book }

/-- the better of what is tracked and a new answer (`consensus.rs:2123-2130`) -/
def better (old : Option Entry) (e : Entry) : Option Entry :=
  match old with
  | none => some e
  | some t => if t.ts < e.ts then some e else some t

/-- an answer that passed the checks (`process_kad_query_result`, `consensus.rs:2113-2145`):
`key` is the key in the record, `peer` who gave it -/
def Lookups.answer (wf : Nat → Bool) (q key : Nat) (e : Entry) (peer : Option Nat) (last : Bool) (s : Lookups) : Lookups :=
  match get q s.queries with
  | none => s
  | some x =>
    let s1 : Lookups := if x.request = key then { s with queries := put q { x with result := better x.result e } s.queries }
      else { s with penalised := peer.toList ++ s.penalised }
    if last then s1.close wf q else s1

/-- events -/
inductive LookupEv where
  /-- keys are found to be missing -/
  | missing (ks : List Nat)
  /-- an authentic record arrives for a query -/
  | answer (q key : Nat) (e : Entry) (peer : Option Nat) (last : Bool)
  /-- a record arrives that is not authentic (`consensus.rs:1855-1870`) -/
  | bad (q : Nat) (peer : Option Nat) (last : Bool)
  /-- the query ends without a further record (`consensus.rs:1872-1886`) -/
  | ended (q : Nat)
  /-- the book changes by itself -/
  | book (o : BookOp)

def LookupEv.run (wf : Nat → Bool) (s : Lookups) : LookupEv → Lookups
  | .missing ks => ks.foldl Lookups.ask s
  | .answer q key e peer last => s.answer wf q key e peer last
  | .bad q peer last =>
    let s1 : Lookups := { s with penalised := peer.toList ++ s.penalised }
    if last then s1.close wf q else s1
  | .ended q => s.close wf q
  | .book o => { s with book := o.run wf s.book }

def lookupRuns (wf : Nat → Bool) (l : List LookupEv) (s : Lookups) : Lookups := l.foldl (LookupEv.run wf) s

end Verif.Kad
