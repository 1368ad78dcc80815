import Verif.Cert.Model
import Verif.Storage.Layered
/-
Model of header voting: `RequestHandler::vote` and `vote_inner`
(`crates/consensus/primary/src/network/handler.rs:567-1040`) with the stored vote records
(`crates/storage/src/stores/vote_digest_store.rs`) kept in the layered epoch database.
-/
namespace Verif
namespace Voting

open Layered

/-- `VoteInfo`, `crates/types/src/primary/vote.rs:162`: what is stored per header author. The vote
digest is the header digest (vote.rs:135-141). -/
structure VoteInfo where
  epoch : Epoch
  round : Round
  digest : Digest
deriving DecidableEq, Repr

/-- The record a vote for this header leaves (`VoteInfo::from(&Vote)`, `Vote::new`, vote.rs:31-53). -/
def infoOf (h : Header) : VoteInfo := ⟨h.epoch, h.round, h.digest⟩

/-- A vote as it leaves the node (`Vote`, vote.rs:13-28), without the signature: the header's
digest, round, epoch and author (`origin`). -/
structure CastVote where
  origin : AuthorityId
  epoch : Epoch
  round : Round
  digest : Digest
deriving DecidableEq, Repr

/-- `Vote::new`, vote.rs:31-53. -/
def castOf (h : Header) : CastVote := ⟨h.author, h.epoch, h.round, h.digest⟩

/-- `PrimaryResponse` / error as kept in the cache of last answers. Errors other than the recoverable
one are not told apart. -/
inductive Resp where
  | vote (v : CastVote)
  | missing (ds : List Digest)
  | recoverable
  | other
deriving DecidableEq, Repr

/-- `AuthEquivocationMap` entry: last epoch, round, digest and answer (handler.rs:55-60, 124-133). -/
structure Last where
  epoch : Epoch
  round : Round
  digest : Digest
  resp : Option Resp
deriving DecidableEq, Repr

/-- Everything `vote_inner` looks at besides the header: the round committed so far, the
gc depth, clock and tolerance; the certificates stored under the header's parent digests (genesis
certificates in round 1) as `notify_read_parent_certificates` returns them
(state_sync/header_validator.rs:40-67), represented by their headers; the number of certificates
sent along; whether the seed signature, the execution result and the batches check out
(handler.rs:764-791, 893-896). -/
structure Ctx where
  committedRound : Round
  gcDepth : Nat
  numSent : Nat := 0
  seedOk : Bool
  execOk : Bool
  parents : List Header
  batchesOk : Bool
  now : Nat
  drift : Nat
deriving DecidableEq, Repr

/-- The loop over the parents, handler.rs:840-884: epoch, round, time, distinct authors; returns the
summed voting power. -/
def checkParents (c : Committee) (h : Header) : List Header → List AuthorityId → Nat → Option Nat
  | [], _, stake => some stake
  | p :: ps, seen, stake =>
    if p.epoch ≠ h.epoch then none
    else if p.round + 1 ≠ h.round then none
    else if h.createdAt < p.createdAt then none
    else if p.author ∈ seen then none
    else checkParents c h ps (p.author :: seen) (stake + c.votingPowerById p.author)

/-- The checks of `vote_inner` in their order, up to the look at the stored record
(handler.rs:717-925). `false` = some error is returned. Asking for missing parents is in
`Step.innerAnswer`. -/
def innerChecks (c : Committee) (ctx : Ctx) (h : Header) : Bool :=
  match h.validate c with
  | .error _ => false
  | .ok _ =>
    if h.round = 0 then false
    else if ctx.committedRound + ctx.gcDepth < h.round then false
    else if c.size < ctx.numSent then false
    else if !ctx.seedOk then false
    else if !ctx.execOk then false
    else if ctx.parents.map (·.digest) ≠ h.parents then false
    else match checkParents c h ctx.parents [] 0 with
      | none => false
      | some stake =>
        if stake < c.quorumThreshold then false
        else if !ctx.batchesOk then false
        else if ctx.now < h.createdAt ∧ ctx.drift < h.createdAt - ctx.now then false
        else true

/-- The look at the stored record, handler.rs:944-1012: refuse, send the recorded vote again, or
record a new one. -/
inductive Decision where
  | refuse
  | resend
  | fresh
deriving DecidableEq, Repr

/-- See `Decision`. -/
def decision (stored : Option VoteInfo) (h : Header) : Decision :=
  match stored with
  | none => .fresh
  | some w =>
    if h.epoch < w.epoch then .refuse
    else if h.epoch = w.epoch then
      if h.round < w.round then .refuse
      else if h.round = w.round then
        if h.digest = w.digest then .resend else .refuse
      else .fresh
    else .fresh

/-- Outcome of consulting the cache of the last answer, handler.rs:620-689. -/
inductive CacheRes where
  | reply (r : Resp)
  | reject
  | run
deriving DecidableEq, Repr

/-- The cache is taken; most paths put it back (handler.rs:622-689). Returns the new cache and what
happens next. `ps` are the digests of the certificates sent along. -/
def consultCache (cache : Option Last) (h : Header) (ps : List Digest) : Option Last × CacheRes :=
  match cache with
  | none => (none, .run)
  | some l =>
    if l.digest = h.digest then
      match l.resp with
      | none => (none, .run)
      | some .recoverable => (none, .run)
      | some (.missing ds) =>
        if ps = [] then (some l, .reply (.missing ds))
        else if ps.length = ds.length then
          if ps.all (fun p => decide (p ∈ ds)) then (none, .run) else (some l, .reject)
        else (some l, .reject)
      | some r => (none, .reply r)
    else if h.epoch < l.epoch ∨ (l.epoch = h.epoch ∧ h.round ≤ l.round) then
      (some { l with resp := none }, .reject)
    else (none, .run)

/-- Where a request stands that holds its author's lock: in `vote_inner`, or waiting for its
durability barrier. -/
inductive Slow where
  | inner (h : Header)
  | persist (h : Header) (b : Nat)
deriving DecidableEq, Repr

/-- The node's voting state: its current epoch, the epoch database as the disk content at
process start and the events since (see `Layered.exec`), the locked request and the cache per author,
the requests on the fast path waiting for their barrier. Ghost fields: the votes that left the
node, and the headers that passed all checks with what was seen then. -/
structure Node where
  epoch : Epoch
  disk0 : KV VoteInfo
  evs : List (Ev VoteInfo) := []
  slow : AuthorityId → Option Slow := fun _ => none
  cache : AuthorityId → Option Last := fun _ => none
  fast : List (Header × Nat) := []
  sent : List CastVote := []
  approved : List (Header × Ctx × Epoch) := []

/-- Number of the `Votes` table; the other tables of the epoch database have other numbers
(storage/src/lib.rs:113). -/
def votesTable : Nat := 0

/-- The epoch database now (full-memory, composite_db.rs:33-37). -/
def Node.db (n : Node) : DB VoteInfo := exec (openDb true n.disk0) n.evs

/-- `read_vote_info`, vote_digest_store.rs:23-29. -/
def Node.stored (n : Node) (a : AuthorityId) : Option VoteInfo := n.db.get votesTable a

/-- `Function.update` for the per-author fields. -/
def setAt {β : Type} (f : AuthorityId → β) (a : AuthorityId) (v : β) : AuthorityId → β :=
  fun x => if x = a then v else f x

/-- Events of the epoch database that other parts of the node cause: the background thread, other
tables, transactions and barriers. -/
def foreign : Ev VoteInfo → Prop
  | .write (.ins t _ _) => t ≠ votesTable
  | .write (.rm t _) => t ≠ votesTable
  | .write (.clr t) => t ≠ votesTable
  | _ => True

/-- The headers that exist: digests identify them. -/
structure Headers where
  ok : Header → Prop
  inj : ∀ {a b}, ok a → ok b → a.digest = b.digest → a = b

/-- The first check of `vote`, handler.rs:578-588: the author is a member and the requesting peer is the
author. -/
def peerOk (c : Committee) (peer : AuthorityId) (h : Header) : Bool :=
  match c.authority h.author with
  | none => false
  | some a => decide (peer = a.id)

/-- One step of a node. `C e` is the committee of epoch `e`. Requests of different authors, the
background thread of the database and the fast path interleave freely; a locked request can be
cut off by its timeout at any point (handler.rs:694-698); the process can crash at any point, and
the primary can be restarted within the epoch (`RunEpochMode::ModeChange`) or for the next
epoch, where the `Votes` table is cleared (node/src/manager/node/close_epoch.rs:754-756,
run_epoch.rs:500-525). Epochs never go back: the closing block is executed and recorded first
(run_epoch.rs:430-452). -/
inductive Step (H : Headers) (C : Epoch → Committee) : Node → Node → Prop
  /-- handler.rs:589-601: the stored record has this header's digest:
  the vote will be sent again once the barrier is passed. -/
  | fastStart (n : Node) (h : Header) (w : VoteInfo) (hok : H.ok h)
      (peer : AuthorityId) (hm : peerOk (C n.epoch) peer h = true)
      (hs : n.stored h.author = some w) (hd : w.digest = h.digest) :
      Step H C n { n with evs := n.evs ++ [.persist],
                          fast := (h, persists n.evs) :: n.fast }
  /-- handler.rs:602-615: the barrier reported success. -/
  | fastDone (n : Node) (h : Header) (b : Nat) (hf : (h, b) ∈ n.fast)
      (hack : (b, true) ∈ n.db.acks) :
      Step H C n { n with fast := n.fast.erase (h, b), sent := castOf h :: n.sent }
  /-- The barrier failed, or the request was dropped. -/
  | fastDrop (n : Node) (h : Header) (b : Nat) :
      Step H C n { n with fast := n.fast.erase (h, b) }
  /-- handler.rs:619-689: the author's lock is taken; the cache decides. -/
  | lockRun (n : Node) (h : Header) (ps : List Digest) (c' : Option Last) (hok : H.ok h)
      (peer : AuthorityId) (hm : peerOk (C n.epoch) peer h = true) (hl : n.slow h.author = none)
      (hc : consultCache (n.cache h.author) h ps = (c', .run)) :
      Step H C n { n with cache := setAt n.cache h.author c',
                          slow := setAt n.slow h.author (some (.inner h)) }
  | lockReply (n : Node) (h : Header) (ps : List Digest) (c' : Option Last) (r : Resp) (hok : H.ok h)
      (peer : AuthorityId) (hm : peerOk (C n.epoch) peer h = true) (hl : n.slow h.author = none)
      (hc : consultCache (n.cache h.author) h ps = (c', .reply r)) :
      Step H C n { n with cache := setAt n.cache h.author c',
                          sent := match r with | .vote v => v :: n.sent | _ => n.sent }
  | lockReject (n : Node) (h : Header) (ps : List Digest) (c' : Option Last) (hok : H.ok h)
      (peer : AuthorityId) (hm : peerOk (C n.epoch) peer h = true) (hl : n.slow h.author = none)
      (hc : consultCache (n.cache h.author) h ps = (c', .reject)) :
      Step H C n { n with cache := setAt n.cache h.author c' }
  /-- `vote_inner` answers with something that is not a vote (an error, missing parents). -/
  | innerAnswer (n : Node) (a : AuthorityId) (h : Header) (r : Resp)
      (hl : n.slow a = some (.inner h)) (hr : ∀ v, r ≠ .vote v) :
      Step H C n { n with slow := setAt n.slow a none,
                          cache := setAt n.cache a (some ⟨h.epoch, h.round, h.digest, some r⟩) }
  /-- handler.rs:960-1001: all checks pass and the vote recorded earlier is the same. -/
  | innerResend (n : Node) (a : AuthorityId) (h : Header) (ctx : Ctx)
      (hl : n.slow a = some (.inner h)) (hck : innerChecks (C n.epoch) ctx h = true)
      (hd : decision (n.stored a) h = .resend) :
      Step H C n { n with evs := n.evs ++ [.persist],
                          slow := setAt n.slow a (some (.persist h (persists n.evs))) }
  /-- handler.rs:1006-1037: all checks pass; the vote is recorded (keyed by the header's author) and the
  barrier requested. -/
  | innerFresh (n : Node) (a : AuthorityId) (h : Header) (ctx : Ctx)
      (hl : n.slow a = some (.inner h)) (hck : innerChecks (C n.epoch) ctx h = true)
      (hd : decision (n.stored a) h = .fresh) :
      Step H C n { n with evs := n.evs ++ [.write (.ins votesTable h.author (infoOf h)), .persist],
                          slow := setAt n.slow a (some (.persist h (persists n.evs))),
                          approved := (h, ctx, n.epoch) :: n.approved }
  /-- handler.rs:1031-1040, 706: the barrier reported success; the vote is returned and cached. -/
  | persistDone (n : Node) (a : AuthorityId) (h : Header) (b : Nat)
      (hl : n.slow a = some (.persist h b)) (hack : (b, true) ∈ n.db.acks) :
      Step H C n { n with slow := setAt n.slow a none, sent := castOf h :: n.sent,
                          cache := setAt n.cache a
                            (some ⟨h.epoch, h.round, h.digest, some (.vote (castOf h))⟩) }
  /-- The barrier reported failure: an error is returned (and the node shuts down). -/
  | persistFail (n : Node) (a : AuthorityId) (h : Header) (b : Nat)
      (hl : n.slow a = some (.persist h b)) (hack : (b, false) ∈ n.db.acks) :
      Step H C n { n with slow := setAt n.slow a none,
                          cache := setAt n.cache a (some ⟨h.epoch, h.round, h.digest, some .other⟩) }
  /-- The request times out: it is dropped wherever it is, the cache stays as it was taken. -/
  | timeout (n : Node) (a : AuthorityId) : Step H C n { n with slow := setAt n.slow a none }
  /-- Anything else happens to the database. -/
  | env (n : Node) (e : Ev VoteInfo) (he : foreign e) : Step H C n { n with evs := n.evs ++ [e] }
  /-- The primary is restarted in the same epoch. -/
  | restartPrimary (n : Node) :
      Step H C n { n with slow := fun _ => none, cache := fun _ => none, fast := [] }
  /-- The node enters a later epoch. -/
  | nextEpoch (n : Node) (e : Epoch) (he : n.epoch < e) :
      Step H C n { n with epoch := e, evs := n.evs ++ [.write (.clr votesTable)],
                          slow := fun _ => none, cache := fun _ => none, fast := [] }
  /-- The process dies and starts again, in this epoch or (if the epoch's end was executed but the
  table not cleared) a later one. -/
  | crash (n : Node) (e : Epoch) (he : n.epoch ≤ e) :
      Step H C n { n with epoch := e, disk0 := n.db.disk, evs := [],
                          slow := fun _ => none, cache := fun _ => none, fast := [] }

/-- The states of a node that starts with an empty database. -/
inductive Reachable (H : Headers) (C : Epoch → Committee) : Node → Prop
  | start (e : Epoch) : Reachable H C { epoch := e, disk0 := fun _ _ => none }
  | step {n n' : Node} : Reachable H C n → Step H C n n' → Reachable H C n'

end Voting
end Verif
