import Verif.Cert.Props
/-
Model of the certifier, `crates/consensus/primary/src/certifier.rs`, together with the part of the proposer
that feeds it (`crates/consensus/primary/src/proposer.rs`): one epoch of one validator, over any number of
crashes and in-process restarts. Every suspension point of the asynchronous tasks is a separate step, so the
proposer, any number of proposal tasks, the database writer and a crash may interleave in any order. Not modelled: on start the certifier also publishes the highest own certificate
of the certificate store (certifier.rs:80-98), which left the node before.
-/
namespace Verif.Crt

open Verif

/-- What does not change during the epoch. `sig d` is this validator's signature over a digest; `roundOf`
and `epochOf` read round and epoch back from a digest (digests are taken over the encoded header and are
assumed not to collide). -/
structure Env where
  B : Bls
  c : Committee
  me : AuthorityId
  sig : Digest → Sig
  roundOf : Digest → Round
  epochOf : Digest → Epoch

/-- The two tables of the epoch database written here: `ProposedCertificates` (key: header digest;
certifier.rs:443) and the single-slot `LastProposed` (proposer.rs:394-395). -/
inductive Rec where
  | cert (d : Digest) (x : Certificate)
  | last (h : Header)
deriving DecidableEq, Repr

/-- The certificate a record holds for digest `d`. -/
def Rec.certFor (d : Digest) : Rec → Option Certificate
  | .cert d' x => if d' = d then some x else none
  | .last _ => none

/-- The header a record holds. -/
def Rec.lastOf : Rec → Option Header
  | .cert _ _ => none
  | .last h => some h

/-- `node_storage().get::<ProposedCertificates>(&header_digest)`, certifier.rs:418-419. The log is the list
of all writes; reads see the memory layer, hence also writes that are not on disk. -/
def findCert (log : List Rec) (d : Digest) : Option Certificate := (log.filterMap (Rec.certFor d)).getLast?

/-- The header digests that have a certificate record, in the order of writing. -/
def certKeys (log : List Rec) : List Digest :=
  log.filterMap (fun r => match r with | .cert d _ => some d | .last _ => none)

/-- `get_last_proposed`, proposer.rs:385-387. -/
def lastProposed (log : List Rec) : Option Header := (log.filterMap Rec.lastOf).getLast?

/-- `supersedes_stored`, proposer.rs:388-389. -/
def supersedes (stored : Option Header) (h : Header) : Bool :=
  match stored with
  | none => true
  | some w => decide (w.epoch ≠ h.epoch ∨ w.round ≤ h.round)

/-- Where the proposer's single pending header task is (proposer.rs:825, 880-884: there is at most one):
`storing h pos` waits for the durability barrier requested when the log had length `pos`
(proposer.rs:409-412), `sending h` is about to send to the certifier (proposer.rs:416). -/
inductive Phase where
  | idle
  | storing (h : Header) (pos : Nat)
  | sending (h : Header)
  | failed
deriving DecidableEq, Repr

/-- Where a proposal task is (`spawn_header_proposal`, certifier.rs:410-528): `spawned`, not yet polled;
`waiting`, subscribed to the cancel signal and queued for the lock (412-416); `collecting` votes, lock held
(432-441); `again x`, lock held, the record was found and is being published again (418-430);
`barrier x pos`, record inserted, lock released, waiting for the barrier requested at log length `pos`
(443-488); `durable x`, the barrier was acknowledged (488); `processed x`, handed to the state synchronizer
(491-494), about to be published (497). -/
inductive Stage where
  | spawned
  | waiting
  | collecting (st : VotesAgg)
  | again (x : Certificate)
  | barrier (x : Certificate) (pos : Nat)
  | durable (x : Certificate)
  | processed (x : Certificate)
  | done
deriving DecidableEq, Repr

/-- A proposal task and whether its cancel signal has fired (`Noticer`, notifier.rs:14-17). -/
structure Task where
  h : Header
  stage : Stage := .spawned
  noticed : Bool := false
deriving DecidableEq, Repr

/-- How a certificate leaves the certifier: handed to the state synchronizer (which forwards it to the
consensus protocol), published on the gossip network, or published again from the record. -/
inductive How where
  | own
  | gossip
  | again
deriving DecidableEq, Repr

/-- The state. `durable`: how many writes are on disk. Ghosts: `handed`, the headers the certifier was ever
asked to certify; `ext`, the certificates that ever left the certifier; `early`, whether a certificate was
ever published again from a record that was not on disk. -/
structure S where
  log : List Rec
  durable : Nat
  phase : Phase := .idle
  queue : List Header := []
  round : Round
  primary : Round
  tasks : List Task := []
  handed : List Header := []
  ext : List (How × Certificate) := []
  early : Bool := false

/-- The validator's own vote, certifier.rs:279. -/
def ownVote (E : Env) (h : Header) : Vote :=
  { headerDigest := h.digest, round := h.round, epoch := h.epoch, origin := h.author, author := E.me,
    signature := E.sig h.digest }

/-- The lock is free: nobody is collecting or publishing again (certifier.rs:416). -/
def Stage.locked : Stage → Bool
  | .collecting _ | .again _ => true
  | _ => false

/-- Is the proposal lock free? -/
def lockFree (s : S) : Bool := s.tasks.all (fun t => !t.stage.locked)

/-- Has the task subscribed to the cancel signal? Only its first poll does so (certifier.rs:412). -/
def Stage.subscribed : Stage → Bool
  | .spawned => false
  | _ => true

/-- `new_proposal.notify()`, certifier.rs:543, notifier.rs:46-60: every signal subscribed so far fires;
a later subscription gets a fresh, unfired one. -/
def notice (t : Task) : Task := if t.stage.subscribed then { t with noticed := true } else t

/-- `Proposer::new`, proposer.rs:201-219: the starting round (the read is assumed to succeed; see C08 for
what a failed read does). -/
def recovered (E : Env) (log : List Rec) (p : Round) : Round :=
  match lastProposed log with
  | some h => if h.epoch = E.c.epoch then (if p < h.round then h.round - 1 else 0) else 0
  | none => 0

/-- A vote (or the own vote) is appended, and if a certificate forms it is inserted in
`ProposedCertificates`, the lock is dropped and the barrier is requested (certifier.rs:279-280, 331-347,
443-488). An invalid vote changes only the aggregator (341-345); `insertOk = false`: the insert failed and the
task ends (443-446). -/
def feed (E : Env) (log : List Rec) (h : Header) (st : VotesAgg) (v : Vote) (insertOk : Bool) :
    List Rec × Stage :=
  match VotesAgg.append E.B st v E.c h with
  | (st', .ok none) => (log, .collecting st')
  | (st', .error _) => (log, .collecting st')
  | (_, .ok (some x)) =>
    if insertOk then (log ++ [.cert h.digest x], .barrier x (log.length + 1)) else (log, .done)

/-- The task gets the lock: certifier.rs:416-441, 260-280. A failing own vote ends the task (280). -/
def acquire (E : Env) (log : List Rec) (h : Header) (insertOk : Bool) : List Rec × Stage :=
  match findCert log h.digest with
  | some x => (log, .again x)
  | none =>
    if h.epoch ≠ E.c.epoch then (log, .done)
    else
      match VotesAgg.append E.B {} (ownVote E h) E.c h with
      | (_, .error _) => (log, .done)
      | _ => feed E log h {} (ownVote E h) insertOk

/-- Is the record of `x` on disk? -/
def onDisk (s : S) (x : Certificate) : Bool :=
  decide (Rec.cert x.header.digest x ∈ s.log.take s.durable)

/-- Events. `i` is a task number. -/
inductive Ev where
  /-- `propose_next_header` with header `h` (new, or the stored one of this round) -/
  | propose (h : Header)
  /-- the maximum delay expired without parents: the stored header is proposed again (proposer.rs:952-972) -/
  | repropose
  /-- the proposer's barrier answers -/
  | stored (ok : Bool)
  /-- the proposer's send completes -/
  | send
  /-- the writer makes the first `n` writes durable -/
  | flush (n : Nat)
  /-- the certifier receives a header -/
  | recv
  /-- a proposal task is polled for the first time -/
  | start (i : Nat)
  /-- a waiting task gets the lock -/
  | acquire (i : Nat) (insertOk : Bool)
  /-- a vote reaches a collecting task -/
  | vote (i : Nat) (v : Vote) (insertOk : Bool)
  /-- all vote requests ended without a quorum (certifier.rs:360-362, 376-396) -/
  | exhausted (i : Nat)
  /-- a noticed task stops (certifier.rs:434-437, 367-370) -/
  | cancel (i : Nat)
  /-- the certifier's barrier answers -/
  | ack (i : Nat) (ok : Bool)
  /-- `process_own_certificate` returns -/
  | process (i : Nat) (ok : Bool)
  /-- `publish_certificate` -/
  | publish (i : Nat)
  /-- the primary round watch advances (`process_parents`, proposer.rs:549) -/
  | primary (p : Round)
  /-- the epoch's tasks are stopped and started again in the same process -/
  | restart (p : Round)
  /-- the process dies; the first `k` writes survive -/
  | crash (k : Nat) (p : Round)
deriving DecidableEq, Repr

/-- `propose_next_header` (proposer.rs:689-760) chooses the header: its round is the next one; a stored
header of this round and epoch is used again, otherwise a new one is built. -/
def mayPropose (E : Env) (s : S) (h : Header) : Bool :=
  decide (h.round = max (s.round + 1) (s.primary + 1)) && decide (h.epoch = E.c.epoch) &&
  decide (E.roundOf h.digest = h.round) && decide (E.epochOf h.digest = h.epoch) &&
  (match lastProposed s.log with
    | some w => !(decide (w.round = h.round ∧ w.epoch = E.c.epoch)) || decide (w = h)
    | none => true)

/-- `store_and_send_header`, proposer.rs:379-395, up to the first suspension. -/
def beginStore (s : S) (h : Header) : S :=
  if supersedes (lastProposed s.log) h then
    { s with log := s.log ++ [.last h], phase := .storing h (s.log.length + 1) }
  else { s with phase := .sending h }

/-- Replaces task `i`. -/
def setTask (s : S) (i : Nat) (t : Task) : S := { s with tasks := s.tasks.set i t }

/-- One step; `none` if the event is not possible in this state. -/
def step (E : Env) (s : S) : Ev → Option S
  | .propose h =>
    if s.phase = .idle ∧ mayPropose E s h then
      some (beginStore { s with round := h.round, primary := h.round } h)
    else none
  | .repropose =>
    match lastProposed s.log with
    | some h => if s.phase = .idle then some (beginStore s h) else none
    | none => none
  | .stored ok =>
    match s.phase with
    | .storing h pos =>
      if ok then (if pos ≤ s.durable then some { s with phase := .sending h } else none)
      else some { s with phase := .failed }
    | _ => none
  | .send =>
    match s.phase with
    | .sending h => some { s with phase := .idle, queue := s.queue ++ [h], handed := h :: s.handed }
    | _ => none
  | .flush n => if s.durable ≤ n ∧ n ≤ s.log.length then some { s with durable := n } else none
  | .recv =>
    match s.queue with
    | h :: q => some { s with queue := q, tasks := s.tasks.map notice ++ [{ h := h }] }
    | [] => none
  | .start i =>
    match s.tasks[i]? with
    | some t =>
      if t.stage = .spawned then some (setTask s i { t with stage := .waiting }) else none
    | none => none
  | .acquire i insertOk =>
    match s.tasks[i]? with
    | some t =>
      if t.stage = .waiting ∧ lockFree s then
        let r := acquire E s.log t.h insertOk
        some { setTask s i { t with stage := r.2 } with log := r.1 }
      else none
    | none => none
  | .vote i v insertOk =>
    match s.tasks[i]? with
    | some t =>
      match t.stage with
      | .collecting st =>
        let r := feed E s.log t.h st v insertOk
        some { setTask s i { t with stage := r.2 } with log := r.1 }
      | _ => none
    | none => none
  | .exhausted i =>
    match s.tasks[i]? with
    | some t =>
      match t.stage with
      | .collecting _ => some (setTask s i { t with stage := .done })
      | _ => none
    | none => none
  | .cancel i =>
    match s.tasks[i]? with
    | some t =>
      match t.stage with
      | .collecting _ => if t.noticed then some (setTask s i { t with stage := .done }) else none
      | _ => none
    | none => none
  | .ack i ok =>
    match s.tasks[i]? with
    | some t =>
      match t.stage with
      | .barrier x pos =>
        if ok then (if pos ≤ s.durable then some (setTask s i { t with stage := .durable x }) else none)
        else some (setTask s i { t with stage := .done })
      | _ => none
    | none => none
  | .process i ok =>
    match s.tasks[i]? with
    | some t =>
      match t.stage with
      | .durable x =>
        some { setTask s i { t with stage := if ok then .processed x else .done } with
                 ext := (.own, x) :: s.ext }
      | _ => none
    | none => none
  | .publish i =>
    match s.tasks[i]? with
    | some t =>
      match t.stage with
      | .processed x =>
        some { setTask s i { t with stage := .done } with ext := (.gossip, x) :: s.ext }
      | .again x =>
        some { setTask s i { t with stage := .done } with
                 ext := (.again, x) :: s.ext, early := s.early || !onDisk s x }
      | _ => none
    | none => none
  | .primary p => if s.primary ≤ p then some { s with primary := p } else none
  | .restart p =>
    some { s with phase := .idle, queue := [], tasks := [], round := recovered E s.log p, primary := p }
  | .crash k p =>
    if s.durable ≤ k ∧ k ≤ s.log.length then
      some { s with log := s.log.take k, durable := k, phase := .idle, queue := [], tasks := [],
                    round := recovered E (s.log.take k) p, primary := p }
    else none

/-- A sequence of events. -/
def runs (E : Env) : S → List Ev → Option S
  | s, [] => some s
  | s, e :: es => (step E s e).bind (fun s' => runs E s' es)

/-- A record left over from an earlier epoch (the epoch tables are cleared at a clean epoch end, but not on
every exit path, proposer.rs:196-198). -/
def StaleRec (E : Env) : Rec → Prop
  | .cert d x => x.header.digest = d ∧ x.header.epoch ≠ E.c.epoch ∧ E.epochOf d = x.header.epoch
  | .last h => h.epoch ≠ E.c.epoch ∧ E.epochOf h.digest = h.epoch

/-- The start of the epoch: the database holds nothing, or durable left-overs of earlier epochs with at most
one certificate per header. -/
structure Init (E : Env) (s : S) : Prop where
  stale : ∀ r ∈ s.log, StaleRec E r
  uniq : (certKeys s.log).Nodup
  durable : s.durable = s.log.length
  phase : s.phase = .idle
  queue : s.queue = []
  tasks : s.tasks = []
  handed : s.handed = []
  ext : s.ext = []
  early : s.early = false

/-- Reachable states. -/
def Reach (E : Env) (s : S) : Prop := ∃ s0 es, Init E s0 ∧ runs E s0 es = some s

end Verif.Crt
