/-!
# When the proposer proposes (C109)

The loop of the header proposer with its two intervals, the flags they raise, the pending header and
the `advance_round` flag. What is proposed, stored and sent is C08 and C09; here it is when.

Time is a natural number. Handling an event takes no time, and time does not pass a deadline before the
tick is taken (a `select!` over ready branches takes one of them at once; the order is arbitrary).

Sources: `crates/consensus/primary/src/proposer.rs` 183-245 (`new`), 420-452 (delays), 454-523
(`update_leader`, `enough_votes`, `ready`), 525-603 (`process_parents`), 675-747
(`propose_next_header`), 766-783 (`handle_proposal_result`), 813-975 (`run`);
`crates/types/src/committee.rs` 247-259; `state_sync/cert_validator.rs` 138-158.
-/

namespace Verif.Ptm

/-- The constants: own id, ids of the committee, leader of a round in each version of the schedule,
`header_num_of_batches_threshold`, `max_header_num_of_batches`, the two delays. -/
structure Cfg where
  me : Nat
  members : List Nat
  leader : Nat → Nat → Nat
  threshold : Nat
  maxBatches : Nat
  minD : Nat
  maxD : Nat

/-- `committee.rs` 247-259. -/
def Cfg.quorum (c : Cfg) : Nat := 2 * c.members.length / 3 + 1
def Cfg.validity (c : Cfg) : Nat := max 1 ((c.members.length + 2) / 3)

/-- A certificate: author, digest, the digests of its header's parents. -/
structure Cert where
  origin : Nat
  digest : Nat
  parents : List Nat
  deriving DecidableEq, Repr

inductive Kind where
  | create
  | reuse
  | again
  deriving DecidableEq, Repr

/-- A header given to the task that stores and sends it. `base` is the proposer's round before, `parents`
its parents then; `timeout` says that the maximal delay was up; `eval` is the version of the schedule at
the last evaluation of `ready` (none: never evaluated), `votesFor` the leader voted on. -/
structure Made where
  at' : Nat
  kind : Kind
  round : Nat
  base : Nat
  parents : List Cert
  timeout : Bool
  minUp : Bool
  digests : Nat
  eval : Option Nat
  votesFor : Option Nat
  deriving DecidableEq, Repr

/-- The proposer. `stored` is the round of the last proposal in the store, of this epoch (a record left
from an earlier epoch is not modelled); `digests` counts the waiting batch digests; `ver` is the version
of the leader schedule. `eval` and `log` are ghosts. -/
structure Sys where
  now : Nat
  round : Nat
  pr : Nat
  parents : List Cert
  lastLeader : Option Nat
  digests : Nat
  advance : Bool
  pending : Option Nat
  maxFlag : Bool
  minFlag : Bool
  nextMax : Nat
  nextMin : Nat
  stored : Option Nat
  ver : Nat
  eval : Option Nat
  log : List Made
  deriving DecidableEq, Repr

/-- `new`, 183-245: `round` is the recovered round, `pr` the watch of the primary's round; the first
parents are the genesis certificates; both intervals tick at once. -/
def Cfg.start (_c : Cfg) (genesis : List Cert) (now round pr : Nat) (stored : Option Nat) : Sys :=
  { now, round, pr, parents := genesis, lastLeader := none, digests := 0, advance := true,
    pending := none, maxFlag := false, minFlag := false, nextMax := now, nextMin := now, stored,
    ver := 0, eval := none, log := [] }

/-- Leads this node the next round, an even one? (428-431, 447-449) -/
def Cfg.leadsNext (c : Cfg) (s : Sys) : Bool :=
  decide ((s.round + 1) % 2 = 0) && decide (c.leader s.ver (s.round + 1) = c.me)

/-- `calc_max_delay`, 424-434. -/
def Cfg.calcMax (c : Cfg) (s : Sys) : Nat := if c.leadsNext s then c.maxD / 2 else c.maxD

/-- `calc_min_delay`, 445-455. -/
def Cfg.calcMin (c : Cfg) (s : Sys) : Nat := if c.leadsNext s then 0 else c.minD

/-- The certificate of the leader of the round among the parents (`update_leader`, 461-469). -/
def Cfg.leaderCert (c : Cfg) (s : Sys) : Option Cert :=
  s.parents.find? fun x => decide (x.origin = c.leader s.ver s.round)

def Cfg.stake (c : Cfg) (x : Cert) : Nat := if x.origin ∈ c.members then 1 else 0

/-- Voting power among the parents for and against a leader certificate (`enough_votes`, 493-503). -/
def Cfg.votes (c : Cfg) (ps : List Cert) (d : Nat) : Nat :=
  (ps.filter fun x => decide (d ∈ x.parents)).foldr (fun x n => c.stake x + n) 0
def Cfg.noVotes (c : Cfg) (ps : List Cert) (d : Nat) : Nat :=
  (ps.filter fun x => decide (d ∉ x.parents)).foldr (fun x n => c.stake x + n) 0

/-- `enough_votes`, 480-509. -/
def Cfg.enoughVotes (c : Cfg) (s : Sys) : Bool :=
  if c.leader s.ver (s.round + 1) = c.me then true
  else
    match s.lastLeader with
    | none => true
    | some d =>
        decide (c.validity ≤ c.votes s.parents d) || decide (c.quorum ≤ c.noVotes s.parents d)

/-- `self.advance_round = self.ready()`, 518-523 and 599. -/
def Cfg.evaluate (c : Cfg) (s : Sys) : Sys :=
  if s.round % 2 = 0 then
    { s with lastLeader := (c.leaderCert s).map (·.digest), advance := (c.leaderCert s).isSome,
             eval := some s.ver }
  else { s with advance := c.enoughVotes s, eval := some s.ver }

/-- The state after the jump to a later round, before the evaluation (544-575). -/
def Cfg.jump (c : Cfg) (s : Sys) (cs : List Cert) (r : Nat) : Sys :=
  { s with round := r, pr := r, parents := cs, advance := false, nextMin := s.now,
           nextMax := s.now + c.calcMax { s with round := r } }

/-- More parents for the round (586-600). -/
def Cfg.extend (c : Cfg) (s : Sys) (cs : List Cert) : Sys :=
  { s with parents := s.parents ++ cs,
           nextMin := if c.calcMin s = 0 then s.now else s.nextMin }

/-- `process_parents`, 525-603. -/
def Cfg.takeParents (c : Cfg) (s : Sys) (cs : List Cert) (r : Nat) : Sys :=
  if s.round < r then c.evaluate (c.jump s cs r)
  else if r < s.round then c.evaluate s
  else c.evaluate (c.extend s cs)

/-- `propose_next_header`, 675-681. -/
def Sys.nextRound (s : Sys) : Nat := max (s.round + 1) (s.pr + 1)

def Sys.made (s : Sys) (k : Kind) (r : Nat) : Made :=
  { at' := s.now, kind := k, round := r, base := s.round, parents := s.parents,
    timeout := s.maxFlag, minUp := s.minFlag, digests := s.digests, eval := s.eval,
    votesFor := s.lastLeader }

/-- `propose_next_header`, 675-747, and the flags (944-945). -/
def Cfg.propose (c : Cfg) (s : Sys) : Sys :=
  let r := s.nextRound
  if s.stored = some r then
    { s with round := r, pr := r, parents := [], pending := some r, maxFlag := false,
             minFlag := false, log := s.log ++ [s.made .reuse r] }
  else
    { s with round := r, pr := r, parents := [], digests := s.digests - c.maxBatches,
             pending := some r, maxFlag := false, minFlag := false,
             log := s.log ++ [s.made .create r] }

/-- The last proposal is sent again, 946-970. -/
def Sys.again (s : Sys) (r : Nat) : Sys :=
  { s with pending := some r, maxFlag := false, minFlag := false, log := s.log ++ [s.made .again r] }

/-- `should_create_header`, 906-908. -/
def Cfg.shouldCreate (c : Cfg) (s : Sys) : Bool :=
  !s.parents.isEmpty && (s.maxFlag || (s.advance && (decide (c.threshold ≤ s.digests) || s.minFlag)))

/-- The end of the loop, 880-973. -/
def Cfg.act (c : Cfg) (s : Sys) : Sys :=
  if s.pending.isSome then s
  else if c.shouldCreate s then c.propose s
  else if s.maxFlag then
    match s.stored with
    | some r => s.again r
    | none => s
  else s

/-- `handle_proposal_result`, 766-783; the header was stored (unless a later one was). -/
def Cfg.result (c : Cfg) (s : Sys) (r : Nat) : Sys :=
  { s with pending := none, advance := false, nextMin := s.now + c.calcMin s,
           nextMax := s.now + c.calcMax s,
           stored := some (match s.stored with | some q => max q r | none => r) }

inductive Ev where
  /-- time passes -/
  | pass (d : Nat)
  | digest
  | parents (cs : List Cert) (r : Nat)
  /-- own headers were committed; the batches of `k` digests are to be proposed again -/
  | requeue (k : Nat)
  /-- the task has stored and sent the header -/
  | done
  | tickMax
  | tickMin
  /-- the leader schedule changes -/
  | schedule (v : Nat)
  deriving DecidableEq, Repr

/-- One turn of the loop, or the passing of time. -/
def Cfg.step (c : Cfg) (s : Sys) : Ev → Sys
  | .pass d =>
      if s.now + d ≤ s.nextMax ∧ s.now + d ≤ s.nextMin then { s with now := s.now + d } else s
  | .digest => c.act { s with digests := s.digests + 1 }
  | .parents cs r => c.act (c.takeParents s cs r)
  | .requeue k => c.act { s with digests := s.digests + k }
  | .done =>
      match s.pending with
      | some r => c.act (c.result s r)
      | none => s
  -- an interval goes on with its period
  | .tickMax =>
      if s.nextMax ≤ s.now then c.act { s with maxFlag := true, nextMax := s.nextMax + c.maxD } else s
  | .tickMin =>
      if s.nextMin ≤ s.now then c.act { s with minFlag := true, nextMin := s.nextMin + c.minD } else s
  | .schedule v => { s with ver := v }

def Cfg.exec (c : Cfg) (s : Sys) (es : List Ev) : Sys := es.foldl c.step s

/-- The states of a proposer. -/
def Cfg.Reach (c : Cfg) (s : Sys) : Prop :=
  ∃ (g : List Cert) (t r p : Nat) (w : Option Nat) (es : List Ev), s = c.exec (c.start g t r p w) es

end Verif.Ptm
