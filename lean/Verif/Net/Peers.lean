import Verif.Net.Map
import Mathlib.Algebra.Order.Field.Rat

/-!
# The peer table of the network layer

Models `crates/network-libp2p/src/peers/{all_peers,peer,banned,score,status}.rs`.

Simplifications, common to the whole file:
* a libp2p `PeerId` is a function of the network key (`peer.rs:189-196`), so both are one
  number; BLS keys and IP addresses are numbers;
* `Instant` is a number, and every call receives the reading of the clock;
* scores are rational numbers; the exponential decay of a score over a time span is an
  arbitrary function (`ScoreCfg.decay`) about which the theorems assume only what they
  state, so its floating point rounding is covered;
* `telcoin_score` and `aggregate_score` are one number: every writer of the first ends in
  `update_score`, which copies it to the second (`score.rs:98-101, 132-136, 141-148`);
* the counters `num_in/num_out`, the connection direction, the routability flag, the
  advertised multiaddrs (which never feed the ban accounting), the reply channels of
  pending dials and log output are left out.
-/

namespace Verif.Net

abbrev Pid := Nat
abbrev Bls := Nat
abbrev Ip := Nat

/-- `PeerIdentity` (`types.rs`): a confirmed BLS identity, or the bare libp2p id. -/
inductive Ident where
  | conf (b : Bls)
  | anon (p : Pid)
  deriving DecidableEq, Repr

/-- `ConnectionStatus` (`status.rs:11-42`) -/
inductive Status where
  | connected
  | disconnecting (banned : Bool)
  | disconnected (t : Nat)
  | banned (t : Nat)
  | dialing (t : Nat)
  | unknown
  deriving DecidableEq, Repr

/-- `Penalty` (`types.rs`) -/
inductive Penalty where
  | mild | medium | severe | fatal
  deriving DecidableEq, Repr

/-- `Reputation` (`score.rs:211-221`) -/
inductive Reputation where
  | trusted | disconnected | banned
  deriving DecidableEq, Repr

/-- `ScoreConfig` (`crates/config/src/network.rs`) -/
structure ScoreCfg where
  dflt : ℚ
  maxScore : ℚ
  minScore : ℚ
  /-- `min_score_before_disconnect` -/
  discAt : ℚ
  /-- `min_score_before_ban` -/
  banAt : ℚ
  /-- `banned_before_decay` -/
  lockout : Nat
  /-- `score * exp(halflife_decay * dt)` -/
  decay : Nat → ℚ → ℚ

/-- `Score` (`score.rs:39-52`) -/
structure Score where
  val : ℚ
  last : Nat
  deriving DecidableEq, Repr

namespace Score

/-- `Score::default` (`score.rs:54-64`) -/
def dflt (c : ScoreCfg) (now : Nat) : Score := ⟨c.dflt, now⟩

/-- `Score::new_max` (`score.rs:68-76`) -/
def newMax (c : ScoreCfg) (now : Nat) : Score := ⟨c.maxScore, now⟩

/-- `Score::is_banned` (`score.rs:160-163`), on the value -/
def isBanned (c : ScoreCfg) (v : ℚ) : Bool := decide (v ≤ c.banAt)

/-- `reputation_for` (`score.rs:181-187`) -/
def reputation (c : ScoreCfg) (s : Score) : Reputation :=
  if s.val ≤ c.banAt then .banned
  else if s.val ≤ c.discAt then .disconnected
  else .trusted

/-- `update_score` (`score.rs:141-157`): `old` is the aggregate before, `v` the new value;
becoming banned pushes `last_updated` into the future. -/
def updateScore (c : ScoreCfg) (old v : ℚ) (last : Nat) : Score :=
  ⟨v, if !isBanned c old && isBanned c v then last + c.lockout else last⟩

/-- `f64::clamp` -/
def clamp (lo hi v : ℚ) : ℚ := if v < lo then lo else if hi < v then hi else v

/-- the score after the penalty, before `update_score` (`score.rs:89-94, 104-108`) -/
def penalised (c : ScoreCfg) (v : ℚ) : Penalty → ℚ
  | .mild => clamp c.minScore c.maxScore (v + (-1))
  | .medium => clamp c.minScore c.maxScore (v + (-5))
  | .severe => clamp c.minScore c.maxScore (v + (-10))
  | .fatal => c.minScore

/-- `Score::apply_penalty` (`score.rs:84-101`) -/
def applyPenalty (c : ScoreCfg) (p : Penalty) (s : Score) : Score :=
  updateScore c s.val (penalised c s.val p) s.last

/-- `Score::update_at` (`score.rs:123-138`): nothing while `last_updated` is in the future -/
def updateAt (c : ScoreCfg) (now : Nat) (s : Score) : Score :=
  if s.last ≤ now then updateScore c s.val (c.decay (now - s.last) s.val) now else s

end Score

/-- `Peer` (`peer.rs:40-95`) -/
structure Peer where
  /-- `network_key`; set together with the BLS key -/
  key : Option Pid
  score : Score
  /-- `observed_ip_addresses` (a set) -/
  ips : List Ip
  status : Status
  /-- `operator_allowlisted` -/
  allow : Bool
  deriving DecidableEq, Repr

/-- `PeerAction` (`types.rs`) -/
inductive Action where
  | none
  | ban
  | disconnect
  | disconnectPx
  | unban
  deriving DecidableEq, Repr

/-- The status counters: `disconnected_peers` and `BannedPeers { total, banned_peers_by_ip }`
(`all_peers.rs:66-69`, `banned.rs:23-30`).  An address without an entry counts 0; an entry
that reaches 0 is dropped (`banned.rs:56-60`), so a function is the same as the map. -/
structure Counters where
  disc : Nat
  total : Nat
  byIp : Ip → Nat

namespace Counters

/-- `add_banned_peer` (`banned.rs:92-98`) -/
def addBanned (ips : List Ip) (c : Counters) : Counters :=
  { c with total := c.total + 1, byIp := fun ip => if ip ∈ ips then c.byIp ip + 1 else c.byIp ip }

/-- `remove_banned_peer` (`banned.rs:39-66`) -/
def removeBanned (ips : List Ip) (c : Counters) : Counters :=
  { c with total := c.total - 1, byIp := fun ip => if ip ∈ ips then c.byIp ip - 1 else c.byIp ip }

/-- `remove_validator_ip` (`banned.rs:77-89`) -/
def removeValidatorIp (ips : List Ip) (c : Counters) : Counters :=
  { c with byIp := fun ip => if ip ∈ ips then 0 else c.byIp ip }

/-- `disconnected_peers.saturating_sub(1)` -/
def decDisc (c : Counters) : Counters := { c with disc := c.disc - 1 }

/-- `disconnected_peers + 1` -/
def incDisc (c : Counters) : Counters := { c with disc := c.disc + 1 }

/-- `ip_banned` (`banned.rs:125-127`): more than `BANNED_PEERS_PER_IP_THRESHOLD = 1` -/
def ipBanned (c : Counters) (ip : Ip) : Bool := decide (1 < c.byIp ip)

end Counters

/-- configuration of `AllPeers` -/
structure Cfg extends ScoreCfg where
  dialTimeout : Nat
  maxBanned : Nat
  maxDisc : Nat

/-- `AllPeers` (`all_peers.rs:39-80`) -/
structure State where
  peers : List (Ident × Peer)
  /-- `bls_by_peer_id` -/
  index : List (Pid × Bls)
  prevC : List Bls
  curC : List Bls
  nextC : List Bls
  ctr : Counters

/-- `AllPeers::new` (`all_peers.rs:83-102`) -/
def State.init : State := ⟨[], [], [], [], [], ⟨0, 0, fun _ => 0⟩⟩

/-- `NewConnectionStatus` (`status.rs`) -/
inductive NewStatus where
  | connected (ip : Option Ip)
  | dialing
  | disconnected
  | disconnecting (banned : Bool)
  | banned
  | unbanned
  deriving DecidableEq, Repr

/-! ## One record -/

namespace Peer

/-- `Peer::default` (`peer.rs:40`, derived): the record of an unidentified peer -/
def dflt (c : ScoreCfg) (now : Nat) : Peer := ⟨none, Score.dflt c now, [], .unknown, false⟩

/-- `Peer::new_trusted` (`peer.rs:98-110`) -/
def newTrusted (c : ScoreCfg) (k : Pid) (now : Nat) : Peer :=
  ⟨some k, Score.newMax c now, [], .unknown, true⟩

/-- `Peer::new` (`peer.rs:113-129`) -/
def new (c : ScoreCfg) (k : Pid) (now : Nat) : Peer :=
  ⟨some k, Score.dflt c now, [], .unknown, false⟩

/-- `Peer::reputation` (`peer.rs:199-201`) -/
def reputation (c : ScoreCfg) (p : Peer) : Reputation := p.score.reputation c

/-- `Peer::apply_penalty` (`peer.rs:233-258`) without its return value -/
def applyPenalty (c : ScoreCfg) (pen : Penalty) (exempt : Bool) (p : Peer) : Peer :=
  if exempt then p else { p with score := p.score.applyPenalty c pen }

/-- `Peer::ensure_banned` (`peer.rs:264-273`) -/
def ensureBanned (c : ScoreCfg) (exempt : Bool) (p : Peer) : Peer :=
  if p.reputation c = .banned then p else p.applyPenalty c .fatal exempt

/-- `Peer::retain_worse_reputation` (`peer.rs:303-307`) -/
def retainWorse (p other : Peer) : Peer :=
  if other.score.val < p.score.val then { p with score := other.score } else p

/-- insertion into the set of observed addresses (`peer.rs:313-317`) -/
def addIp (ip : Option Ip) (ips : List Ip) : List Ip :=
  match ip with
  | some i => if i ∈ ips then ips else i :: ips
  | none => ips

/-- `Peer::register_incoming` / `register_outgoing` (`peer.rs:312-359`) -/
def register (ip : Option Ip) (p : Peer) : Peer :=
  { p with ips := addIp ip p.ips, status := .connected }

/-- `Peer::register_dialing` (`peer.rs:363-375`): refused for a live connection -/
def registerDialing (now : Nat) (p : Peer) : Peer :=
  match p.status with
  | .connected => p
  | .dialing _ => p
  | .disconnecting _ => p
  | .disconnected _ => { p with status := .dialing now }
  | .banned _ => { p with status := .dialing now }
  | .unknown => { p with status := .dialing now }

/-- `Peer::can_dial` (`peer.rs:380-389`) -/
def canDial (p : Peer) : Bool :=
  match p.status with
  | .disconnecting banned => !banned
  | .connected => false
  | .dialing _ => false
  | .banned _ => false
  | .disconnected _ => true
  | .unknown => true

/-- `Peer::heartbeat` (`peer.rs:403-438`), the record after it -/
def heartbeat (c : ScoreCfg) (exempt : Bool) (now : Nat) (p : Peer) : Peer :=
  if exempt then p else { p with score := p.score.updateAt c now }

/-- `Peer::heartbeat` (`peer.rs:403-438`): does it return `ReputationUpdate::Unbanned`? -/
def heartbeatUnbans (c : ScoreCfg) (exempt : Bool) (now : Nat) (p : Peer) : Bool :=
  !exempt && decide (p.reputation c = .banned)
    && !decide ((p.heartbeat c exempt now).reputation c = .banned)

end Peer

/-! ## Transitions of one record and the counters

Each handler below is the body of the Rust handler with the record it looked up; the
`else` branches for a missing record are unreachable behind `ensure_peer_exists`. -/

/-- `handle_connected_transition` (`all_peers.rs:538-572`) -/
def handleConnected (ip : Option Ip) (p : Peer) (c : Counters) : Peer × Counters × Action :=
  let c' := match p.status with
    | .disconnected _ => c.decDisc
    | .banned _ => c.removeBanned p.ips
    | _ => c
  (p.register ip, c', .none)

/-- `handle_dialing_transition` (`all_peers.rs:575-608`) -/
def handleDialing (now : Nat) (p : Peer) (c : Counters) : Peer × Counters × Action :=
  let c' := match p.status with
    | .banned _ => c.removeBanned p.ips
    | .disconnected _ => c.decDisc
    | _ => c
  (p.registerDialing now, c', .none)

/-- `handle_disconnected_transition` (`all_peers.rs:611-681`) with
`handle_disconnected_and_banned` and `handle_disconnected_normal` -/
def handleDisconnected (now : Nat) (p : Peer) (c : Counters) : Peer × Counters × Action :=
  match p.status with
  | .banned _ => (p, c, .none)
  | .disconnected _ => (p, c, .none)
  | .disconnecting true => ({ p with status := .banned now }, c.addBanned p.ips, .ban)
  | .disconnecting false => ({ p with status := .disconnected now }, c.incDisc, .none)
  | .unknown => ({ p with status := .disconnected now }, c.incDisc, .none)
  | .connected => ({ p with status := .disconnected now }, c.incDisc, .none)
  | .dialing _ => ({ p with status := .disconnected now }, c.incDisc, .none)

/-- `handle_disconnecting_transition` (`all_peers.rs:684-716`) -/
def handleDisconnecting (banned : Bool) (p : Peer) (c : Counters) : Peer × Counters × Action :=
  let p' := { p with status := .disconnecting banned }
  match p.status with
  | .disconnected _ => (p', c.decDisc, .none)
  | .banned _ => (p', c, .none)
  | .connected => (p', c, if banned then .disconnect else .disconnectPx)
  | .dialing _ => (p', c, if banned then .disconnect else .disconnectPx)
  | .disconnecting _ => (p', c, .none)
  | .unknown => (p', c, .none)

/-- `handle_banned_transition` (`all_peers.rs:719-769`) -/
def handleBanned (now : Nat) (p : Peer) (c : Counters) : Peer × Counters × Action :=
  match p.status with
  | .disconnected _ => ({ p with status := .banned now }, (c.addBanned p.ips).decDisc, .ban)
  | .disconnecting _ => ({ p with status := .disconnecting true }, c, .none)
  | .banned _ => (p, c, .ban)
  | .connected => ({ p with status := .disconnecting true }, c, .disconnect)
  | .dialing _ => ({ p with status := .disconnecting true }, c, .disconnect)
  | .unknown => ({ p with status := .banned now }, c.addBanned p.ips, .ban)

/-- `handle_unbanned_transition` (`all_peers.rs:772-820`) -/
def handleUnbanned (p : Peer) (c : Counters) : Peer × Counters × Action :=
  match p.status with
  | .banned t => ({ p with status := .disconnected t }, (c.removeBanned p.ips).incDisc, .unban)
  | .disconnecting true => ({ p with status := .disconnecting false }, c, .none)
  | .disconnecting false => (p, c, .none)
  | .disconnected _ => (p, c, .none)
  | .dialing _ => (p, c, .none)
  | .unknown => (p, c, .none)
  | .connected => (p, c, .none)

/-- `handle_status_transition` (`all_peers.rs:500-535`) -/
def transition (now : Nat) (n : NewStatus) (p : Peer) (c : Counters) :
    Peer × Counters × Action :=
  match n with
  | .connected ip => handleConnected ip p c
  | .dialing => handleDialing now p c
  | .disconnected => handleDisconnected now p c
  | .disconnecting b => handleDisconnecting b p c
  | .banned => handleBanned now p c
  | .unbanned => handleUnbanned p c

/-! ## The table -/

namespace State

/-- `identity_for` (`all_peers.rs:106-113`) -/
def identityFor (s : State) (pid : Pid) : Ident :=
  match get pid s.index with
  | some b => .conf b
  | none => .anon pid

/-- `peer_id_for` (`all_peers.rs:119-124`) -/
def peerIdFor (id : Ident) (p : Peer) : Option Pid :=
  match id with
  | .anon pid => some pid
  | .conf _ => p.key

/-- the index entry dropped by `evict` for a removed record (`all_peers.rs:128-132`) -/
def unindex (id : Ident) (p : Peer) (index : List (Pid × Bls)) : List (Pid × Bls) :=
  match id, p.key with
  | .conf _, some k => del k index
  | _, _ => index

/-- `evict` (`all_peers.rs:127-135`): the state after it (the removed record is
`get id s.peers`) -/
def evict (s : State) (id : Ident) : State :=
  match get id s.peers with
  | some p => { s with peers := del id s.peers, index := unindex id p s.index }
  | none => s

/-- `release_displaced_record` (`all_peers.rs:143-156`) -/
def release (p : Peer) (c : Counters) : Counters :=
  match p.status with
  | .disconnected _ => c.decDisc
  | .banned _ => c.removeBanned p.ips
  | _ => c

/-- release of an optional displaced record -/
def releaseOpt (p : Option Peer) (c : Counters) : Counters :=
  match p with
  | some p => release p c
  | none => c

/-- `normalize_carried_status` (`all_peers.rs:168-187`) -/
def normalize (now : Nat) (p : Peer) (c : Counters) : Peer × Counters :=
  match p.status with
  | .connected => ({ p with status := .disconnected now }, c.incDisc)
  | .dialing _ => ({ p with status := .disconnected now }, c.incDisc)
  | .disconnecting false => ({ p with status := .disconnected now }, c.incDisc)
  | .disconnecting true => ({ p with status := .banned now }, c.addBanned p.ips)
  | .disconnected _ => (p, c)
  | .banned _ => (p, c)
  | .unknown => (p, c)

/-- `add_trusted_peer` (`all_peers.rs:192-211`) -/
def addTrusted (c : Cfg) (b : Bls) (k : Pid) (now : Nat) (s : State) : State :=
  let current := s.identityFor k
  -- the record stored under the peer id, unless it is the confirmed one
  let d1 := if current = .conf b then none else get current s.peers
  let s1 := if current = .conf b then s else s.evict current
  -- the record stored under the confirmed identity
  let d2 := get (.conf b) s1.peers
  let s2 := s1.evict (.conf b)
  { s2 with
    peers := put (.conf b) (Peer.newTrusted c.toScoreCfg k now) s2.peers
    index := put k b s2.index
    ctr := releaseOpt d2 (releaseOpt d1 s.ctr) }

/-- The record `upsert_peer` will store, and the counters (`all_peers.rs:229-257`):
`migrated` is the record found under the peer id, `rotated` the one displaced from the
confirmed identity. -/
def merge (c : Cfg) (k : Pid) (now : Nat) (migrated rotated : Option Peer) (ctr : Counters) :
    Peer × Counters :=
  match migrated, rotated with
  | some m, some r => ({ m.retainWorse r with key := some k }, release r ctr)
  | some m, none => ({ m with key := some k }, ctr)
  | none, some r => normalize now { r with key := some k } ctr
  | none, none => normalize now (Peer.new c.toScoreCfg k now) ctr

/-- `upsert_peer` (`all_peers.rs:214-261`) -/
def upsert (c : Cfg) (b : Bls) (k : Pid) (now : Nat) (s : State) : State :=
  let current := s.identityFor k
  let rotated := if current = .conf b then none else get (.conf b) s.peers
  let s1 := if current = .conf b then s else s.evict (.conf b)
  let migrated := get current s1.peers
  let m := merge c k now migrated rotated s.ctr
  { s1 with
    peers := put (.conf b) m.1 (del current s1.peers)
    index := put k b s1.index
    ctr := m.2 }

/-- is the BLS key in one of the three committees? (`is_committee_member`,
`all_peers.rs:1153-1160`) -/
def isMember (s : State) (b : Bls) : Bool :=
  decide (b ∈ s.prevC) || decide (b ∈ s.curC) || decide (b ∈ s.nextC)

/-- `exemption` (`all_peers.rs:857-880`) as a Boolean -/
def exemption (s : State) (id : Ident) (p : Peer) : Bool :=
  match id with
  | .conf b => s.isMember b || p.allow
  | .anon _ => p.allow

/-- `trust_basis_for` (`all_peers.rs:892-902`) as a Boolean -/
def trustBasisFor (s : State) (id : Ident) : Bool :=
  match get id s.peers with
  | some p => s.exemption id p
  | none => false

/-- the identity `ensure_peer_exists` settles on (`all_peers.rs:319-333`): an index entry
without a record is repaired -/
def healed (s : State) (pid : Pid) : State × Ident :=
  match s.identityFor pid with
  | .conf b =>
    match get (.conf b) s.peers with
    | some _ => (s, .conf b)
    | none => ({ s with index := del pid s.index }, .anon pid)
  | .anon q => (s, .anon q)

/-- the record `ensure_peer_exists` leaves under `id` (`all_peers.rs:334-357`), with the
forced ban of `ensure_banned` -/
def ensured (c : Cfg) (s : State) (id : Ident) (n : NewStatus) (now : Nat) : Peer :=
  let p := (get id s.peers).getD (Peer.dflt c.toScoreCfg now)
  match n with
  | .banned => p.ensureBanned c.toScoreCfg (s.exemption id p)
  | _ => p

/-- `update_connection_status` (`all_peers.rs:453-466`): `ensure_peer_exists` and then the
transition of the record.  (After `ensure_peer_exists` the id resolves to the same identity,
so the handlers' lookups find this record.) -/
def updateStatus (c : Cfg) (pid : Pid) (n : NewStatus) (now : Nat) (s : State) :
    State × Action :=
  let h := s.healed pid
  let p := ensured c h.1 h.2 n now
  let r := transition now n p s.ctr
  ({ h.1 with peers := put h.2 r.1 h.1.peers, ctr := r.2.1 }, r.2.2)

/-- the status requested by `process_penalty` for a changed reputation
(`all_peers.rs:277-303`) -/
def penaltyStatus (p : Peer) : Reputation → Option NewStatus
  | .banned => some .banned
  | .disconnected =>
    match p.status with
    | .connected => some (.disconnecting true)
    | .dialing _ => some (.disconnecting true)
    | _ => some .disconnected
  | .trusted => none

/-- `process_penalty` (`all_peers.rs:266-309`) -/
def penalty (c : Cfg) (pid : Pid) (pen : Penalty) (now : Nat) (s : State) : State × Action :=
  let id := s.identityFor pid
  match get id s.peers with
  | none => (s, .none)
  | some p =>
    let p' := p.applyPenalty c.toScoreCfg pen (s.exemption id p)
    let s' := { s with peers := put id p' s.peers }
    if p'.reputation c.toScoreCfg = p.reputation c.toScoreCfg then (s', .none)
    else
      match penaltyStatus p' (p'.reputation c.toScoreCfg) with
      | some n => updateStatus c pid n now s'
      | none => (s', .none)

/-- has the dial of this record timed out? (`all_peers.rs:378-386`) -/
def dialExpired (c : Cfg) (now : Nat) (p : Peer) : Bool :=
  match p.status with
  | .dialing t => decide (t + c.dialTimeout < now)
  | _ => false

/-- the peers whose dial timed out (`all_peers.rs:375-388`) -/
def expiredDials (c : Cfg) (now : Nat) (s : State) : List Pid :=
  s.peers.filterMap fun e => if dialExpired c now e.2 then peerIdFor e.1 e.2 else none

/-- score decay of all records (`all_peers.rs:418-423`) -/
def decayAll (c : Cfg) (now : Nat) (s : State) : State :=
  { s with peers :=
      s.peers.map fun e => (e.1, e.2.heartbeat c.toScoreCfg (s.exemption e.1 e.2) now) }

/-- the peers whose ban decays in this heartbeat (`all_peers.rs:418-440`) -/
def unbannedBy (c : Cfg) (now : Nat) (s : State) : List Pid :=
  s.peers.filterMap fun e =>
    if e.2.heartbeatUnbans c.toScoreCfg (s.exemption e.1 e.2) now then peerIdFor e.1 e.2 else none

/-- the same status for several peers -/
def updateMany (c : Cfg) (n : NewStatus) (now : Nat) (pids : List Pid) (s : State) : State :=
  pids.foldl (fun s pid => (updateStatus c pid n now s).1) s

/-- `heartbeat_maintenance` (`all_peers.rs:374-405`) with `update_peer_scores`
(`all_peers.rs:413-451`) -/
def heartbeat (c : Cfg) (now : Nat) (s : State) : State :=
  let s1 := updateMany c .disconnected now (expiredDials c now s) s
  updateMany c .unbanned now (unbannedBy c now s1) (decayAll c now s1)

/-! ### Pruning -/

/-- insertion into the heap of `collect_excess_peers`, newest first.  (Ties are broken by
identity in the code; here by order of arrival.) -/
def heapInsert (e : Nat × Ident × List Ip) :
    List (Nat × Ident × List Ip) → List (Nat × Ident × List Ip)
  | [] => [e]
  | x :: l => if x.1 ≤ e.1 then e :: x :: l else x :: heapInsert e l

/-- one candidate of `collect_excess_peers` (`all_peers.rs:1020-1035`) -/
def heapStep (excess : Nat) (h : List (Nat × Ident × List Ip)) (e : Nat × Ident × List Ip) :
    List (Nat × Ident × List Ip) :=
  if h.length < excess then heapInsert e h
  else
    match h with
    | [] => []
    | newest :: rest => if e.1 < newest.1 then heapInsert e rest else h

/-- the candidates: records whose status passes the filter (`all_peers.rs:1019-1022`) -/
def candidates (f : Status → Option Nat) (s : State) : List (Nat × Ident × List Ip) :=
  s.peers.filterMap fun e => (f e.2.status).map fun t => (t, e.1, e.2.ips)

/-- `collect_excess_peers` (`all_peers.rs:1006-1039`) -/
def collectExcess (excess : Nat) (f : Status → Option Nat) (s : State) :
    List (Nat × Ident × List Ip) :=
  (candidates f s).foldl (heapStep excess) []

/-- the instant of a ban -/
def bannedAt : Status → Option Nat
  | .banned t => some t
  | _ => none

/-- the instant of a disconnect -/
def disconnectedAt : Status → Option Nat
  | .disconnected t => some t
  | _ => none

/-- one victim of `prune_disconnected_peers` (`all_peers.rs:1082-1085`) -/
def dropDisc (s : State) (e : Nat × Ident × List Ip) : State :=
  { s.evict e.2.1 with ctr := s.ctr.decDisc }

/-- `prune_disconnected_peers` (`all_peers.rs:1068-1087`) -/
def pruneDisconnected (c : Cfg) (s : State) : State :=
  (collectExcess (s.ctr.disc - c.maxDisc) disconnectedAt s).foldl dropDisc s

/-- one victim of `prune_banned_peers` (`all_peers.rs:1055-1061`) -/
def dropBanned (s : State) (e : Nat × Ident × List Ip) : State :=
  { s.evict e.2.1 with ctr := s.ctr.removeBanned e.2.2 }

/-- `prune_banned_peers` (`all_peers.rs:1042-1065`) -/
def pruneBanned (c : Cfg) (s : State) : State :=
  (collectExcess (s.ctr.total - c.maxBanned) bannedAt s).foldl dropBanned s

/-- `register_disconnected` (`all_peers.rs:988-999`) -/
def registerDisconnected (c : Cfg) (pid : Pid) (now : Nat) (s : State) : State × Action :=
  let r := updateStatus c pid .disconnected now s
  (pruneBanned c (pruneDisconnected c r.1), r.2)

/-! ### Committees -/

/-- prime a committee member (`all_peers.rs:1238-1242`) -/
def prime (c : Cfg) (b : Bls) (now : Nat) (s : State) : State :=
  match get (.conf b) s.peers with
  | none => s
  | some p => { s with
      peers := put (.conf b) { p with score := Score.newMax c.toScoreCfg now } s.peers
      ctr := s.ctr.removeValidatorIp p.ips }

/-- does the status need an unban? (`all_peers.rs:1216-1236`) -/
def pendingBan : Status → Bool
  | .disconnecting b => b
  | .banned _ => true
  | _ => false

/-- one member of `apply_committee_membership` (`all_peers.rs:1200-1243`).  (The call of
`ensure_peer_exists` there finds the record just looked up.) -/
def applyMember (c : Cfg) (now : Nat) (s : State) (b : Bls) : State :=
  match get (.conf b) s.peers with
  | none => s
  | some p =>
    match p.key with
    | none => s
    | some pid =>
      let s1 := if pendingBan p.status then (updateStatus c pid .unbanned now s).1 else s
      prime c b now s1

/-- `apply_committee_membership` (`all_peers.rs:1194-1247`) -/
def applyMembers (c : Cfg) (ms : List Bls) (now : Nat) (s : State) : State :=
  ms.foldl (applyMember c now) s

/-- `update_committees` (`all_peers.rs:1108-1130`) -/
def updateCommittees (c : Cfg) (prev cur next : List Bls) (now : Nat) (s : State) : State :=
  applyMembers c (prev ++ cur ++ next) now { s with prevC := prev, curC := cur, nextC := next }

/-- `apply_membership_if_committee` (`all_peers.rs:1172-1181`) -/
def applyIfMember (c : Cfg) (b : Bls) (now : Nat) (s : State) : State :=
  if s.isMember b then applyMembers c [b] now s else s

/-! ### Entry points of the peer manager that record identities -/

/-- `cache_known_peer` (`manager.rs:963-987`), its effect on the table -/
def cacheKnown (c : Cfg) (b : Bls) (k : Pid) (now : Nat) (s : State) : State :=
  applyIfMember c b now (upsert c b k now s)

/-- `add_self_advertised_peer` (`manager.rs:891-926`): `stale` is the verdict of
`kad_record_is_stale` on the cached record -/
def selfAdvertised (c : Cfg) (source : Pid) (b : Bls) (k : Pid) (stale : Bool) (now : Nat)
    (s : State) : State :=
  if s.isMember b then
    if stale then s else cacheKnown c b k now s
  else if source = k then upsert c b k now s
  else s

/-- `add_discovered_peer` (`manager.rs:857-875`) -/
def discovered (c : Cfg) (b : Bls) (k : Pid) (stale : Bool) (now : Nat) (s : State) : State :=
  if s.isMember b then
    if stale then s else cacheKnown c b k now s
  else s

/-! ### Queries -/

/-- `get_peer` (`all_peers.rs:823-825`) -/
def getPeer (s : State) (pid : Pid) : Option Peer := get (s.identityFor pid) s.peers

/-- `peer_banned` (`all_peers.rs:914-918`) -/
def peerBanned (c : Cfg) (s : State) (pid : Pid) : Bool :=
  match s.getPeer pid with
  | some p => decide (p.reputation c.toScoreCfg = .banned) || p.ips.any fun ip => s.ctr.ipBanned ip
  | none => false

/-- `can_dial` (`all_peers.rs:1252-1255`) -/
def canDial (s : State) (pid : Pid) : Bool :=
  match s.getPeer pid with
  | some p => p.canDial
  | none => true

end State

/-! ## Histories -/

/-- The calls the peer manager makes.  `reorder` lets the iteration order of the map change
at any time. -/
inductive Op where
  /-- `register_peer_connection` (`manager.rs:534-575`) -/
  | connected (pid : Pid) (ip : Option Ip)
  /-- `register_dial_attempt` (`all_peers.rs:471-483`) -/
  | dialing (pid : Pid)
  /-- `disconnect_peer` (`manager.rs:511-531`) -/
  | disconnect (pid : Pid)
  /-- `register_disconnected` -/
  | closed (pid : Pid)
  /-- `process_penalty` -/
  | penalty (pid : Pid) (p : Penalty)
  /-- `heartbeat_maintenance` -/
  | heartbeat
  /-- `add_trusted_peer` -/
  | trusted (b : Bls) (k : Pid)
  /-- `add_known_peer`, `add_restored_peer`, `add_bootstrap_peer` -/
  | known (b : Bls) (k : Pid)
  /-- `add_self_advertised_peer` -/
  | advertised (source : Pid) (b : Bls) (k : Pid) (stale : Bool)
  /-- `add_discovered_peer` -/
  | discovered (b : Bls) (k : Pid) (stale : Bool)
  /-- `update_committees` -/
  | committees (prev cur next : List Bls)
  /-- `mark_committee_for_dial` -/
  | forDial (ms : List Bls)
  /-- another iteration order of the peer map -/
  | reorder (peers : List (Ident × Peer))

open State in
/-- one call at time `now` -/
def Op.run (c : Cfg) (now : Nat) (s : State) : Op → State
  | .connected pid ip => (updateStatus c pid (.connected ip) now s).1
  | .dialing pid => (updateStatus c pid .dialing now s).1
  | .disconnect pid => (updateStatus c pid (.disconnecting false) now s).1
  | .closed pid => (registerDisconnected c pid now s).1
  | .penalty pid p => (State.penalty c pid p now s).1
  | .heartbeat => State.heartbeat c now s
  | .trusted b k => addTrusted c b k now s
  | .known b k => cacheKnown c b k now s
  | .advertised src b k stale => selfAdvertised c src b k stale now s
  | .discovered b k stale => State.discovered c b k stale now s
  | .committees p cu n => updateCommittees c p cu n now s
  | .forDial ms => applyMembers c ms now s
  | .reorder peers => if peers.Perm s.peers then { s with peers := peers } else s

/-- a history: calls with the times at which they are made -/
def runOps (c : Cfg) : List (Nat × Op) → State → State
  | [], s => s
  | (t, o) :: l, s => runOps c l (o.run c t s)

end Verif.Net
