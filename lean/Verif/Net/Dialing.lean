import Verif.Net.Peers

/-!
# Dialing and peer discovery

Models `crates/network-libp2p/src/peers/manager.rs` (182-287, 534-593, 647-690, 1053-1178),
`crates/network-libp2p/src/peers/behavior.rs` (20-55, 178-208, 245-328) and
`crates/network-libp2p/src/peers/all_peers.rs` (374-400, 470-520, 575-681).

Simplifications:
* a multiaddr is its first ip component, if it has one (`manager.rs:1079-1087`); nothing else
  of it is looked at;
* of a peer's record only the connection status is kept; whatever else changes a status
  (penalties, bans, decays, merged identities, evictions, other disconnects) is the event
  `env`, which may set any status of any peer at any time; so is the set of banned ips;
* the verdict `peer_banned` about a connection is given by the environment with the event;
* the manager's queue of events is its length, and other parts push events at any time;
* reply channels are numbers, handed out in the order of the calls; a sender that is
  overwritten in `pending_dials` is dropped, which is the output `dropped`;
* a random choice is an arbitrary permutation, given with the event;
* the swarm and libp2p's own behaviours are the environment: they report what they want.
-/

namespace Verif.Dial

open Verif.Net (Pid Ip Status)

/-- a multiaddr: the ip of its first ip component, if any -/
abbrev Addr := Option Ip

/-- a peer with its addresses -/
abbrev Entry := Pid × List Addr

/-- the answer to a call of `dial` (`manager.rs:197-245`, `behavior.rs:324`,
`all_peers.rs:395-398, 519`) -/
inductive Ans where
  | ok | banned | dialing | connected | timeout | failed
  deriving DecidableEq, Repr

/-- what can be seen -/
inductive Out where
  /-- a caller asked for a dial of `p` -/
  | asked (r : Nat) (p : Pid)
  /-- the caller got its answer -/
  | answered (r : Nat) (p : Pid) (a : Ans)
  /-- the caller's channel was dropped without an answer -/
  | dropped (r : Nat) (p : Pid)
  /-- the swarm was told to dial -/
  | swarm (p : Pid) (addrs : List Addr)
  /-- an outbound connection was let through, or refused -/
  | allowed (p : Pid)
  | denied (p : Pid)
  /-- a search for more peers was asked for (`PeerEvent::Discovery`) -/
  | search
  deriving DecidableEq, Repr

/-- `DialRequest` (`types.rs:128-138`); only discovery has no reply channel -/
structure Req where
  peer : Pid
  addrs : List Addr
  reply : Option Nat
  deriving DecidableEq, Repr

/-- this node's id, `target_num_peers` and `dial_timeout` -/
structure Par where
  me : Pid
  target : Nat
  timeout : Nat

/-- `MAX_MULTIADDRS_PER_PEER` (`peer.rs`) -/
def maxAddrs : Nat := 1

/-- `max_discovery_peers` (`crates/config/src/network.rs:445-447`) -/
def Par.maxDisc (P : Par) : Nat := P.target * 2

structure St where
  /-- the status in the records of `AllPeers` -/
  peers : List (Pid × Status) := []
  /-- `discovery_peers` -/
  disc : List Entry := []
  /-- `dial_requests` -/
  queue : List Req := []
  /-- `pending_dials` -/
  pend : List (Pid × Nat) := []
  ipban : Ip → Bool := fun _ => false
  now : Nat := 0
  /-- how many `PeerEvent`s are queued -/
  evs : Nat := 0
  /-- the next reply channel -/
  next : Nat := 0
  /-- ghost: everything that was seen -/
  log : List Out := []

/-- the status of a peer; no record is as good as an unknown one (`all_peers.rs:1248-1251`) -/
def St.status (s : St) (p : Pid) : Status := (Net.get p s.peers).getD .unknown

/-- `Peer::can_dial` (`peer.rs:380-389`) -/
def canDial : Status → Bool
  | .disconnecting b => !b
  | .connected => false
  | .dialing _ => false
  | .banned _ => false
  | .disconnected _ => true
  | .unknown => true

/-- the status after `handle_dialing_transition` (`all_peers.rs:575-608`,
`peer.rs:363-375`) -/
def toDialing (now : Nat) : Status → Status
  | .connected => .connected
  | .dialing t => .dialing t
  | .disconnecting b => .disconnecting b
  | .disconnected _ => .dialing now
  | .banned _ => .dialing now
  | .unknown => .dialing now

/-- the status after `handle_disconnected_transition` (`all_peers.rs:611-681`) -/
def toDisconnected (now : Nat) : Status → Status
  | .banned t => .banned t
  | .disconnected t => .disconnected t
  | .disconnecting true => .banned now
  | .disconnecting false => .disconnected now
  | .unknown => .disconnected now
  | .connected => .disconnected now
  | .dialing _ => .disconnected now

/-- is a dial under way, or a connection? (`status.rs`) -/
def isDialing : Status → Bool
  | .dialing _ => true
  | _ => false

/-- connected or dialing (`all_peers.rs:925-935`) -/
def isLive : Status → Bool
  | .dialing _ => true
  | .connected => true
  | _ => false

/-- `connected_or_dialing_peers().len()` (`all_peers.rs:925-935`) -/
def St.live (s : St) : Nat := Net.cnt isLive s.peers

/-- write a status into the record of a peer, creating it if need be
(`update_connection_status`, `all_peers.rs:453-464`) -/
def St.setStatus (s : St) (p : Pid) (st : Status) : St := { s with peers := Net.put p st s.peers }

/-- `has_valid_unbanned_ips` (`manager.rs:1059-1072`) -/
def goodIps (ipban : Ip → Bool) (l : List Addr) : Bool :=
  l.any (fun a => a.isSome) && l.all (fun a => match a with
    | some ip => !ipban ip
    | none => true)

/-- `eligible_for_discovery` (`manager.rs:1097-1116`) -/
def eligible (P : Par) (s : St) (e : Entry) : Bool :=
  !decide (e.1 = P.me) && decide (e.2.length ≤ maxAddrs) && goodIps s.ipban e.2
    && canDial (s.status e.1)

/-- send an answer into a reply channel, if there is one -/
def St.reply (s : St) (p : Pid) (r : Option Nat) (a : Ans) : St :=
  match r with
  | some r => { s with log := s.log ++ [.answered r p a] }
  | none => s

/-- `notify_dial_result` (`all_peers.rs:483-496`) -/
def St.notify (s : St) (p : Pid) (a : Ans) : St :=
  match Net.get p s.pend with
  | some r => { s with pend := Net.del p s.pend, log := s.log ++ [.answered r p a] }
  | none => s

/-- `pending_dials.insert` (`all_peers.rs:477-479`): the sender that was there is dropped -/
def St.hold (s : St) (p : Pid) (r : Nat) : St :=
  match Net.get p s.pend with
  | some old => { s with pend := Net.put p r s.pend, log := s.log ++ [.dropped old p] }
  | none => { s with pend := Net.put p r s.pend }

/-- `dial_requests.push_back` (`manager.rs:250-251`) -/
def St.enqueue (s : St) (q : Req) : St := { s with queue := s.queue ++ [q] }

/-- `dial_peer` (`manager.rs:182-252`) -/
def dialPeer (P : Par) (p : Pid) (addrs : List Addr) (r : Option Nat) (s : St) : St :=
  if p = P.me then s.reply p r .ok
  else
    match s.status p with
    | .banned _ => s.reply p r .banned
    | .dialing _ => s.reply p r .dialing
    | .connected => s.reply p r .connected
    | .disconnected _ => s.enqueue ⟨p, addrs, r⟩
    | .disconnecting _ => s.enqueue ⟨p, addrs, r⟩
    | .unknown => s.enqueue ⟨p, addrs, r⟩

/-- `register_dial_attempt` (`all_peers.rs:470-480`) -/
def register (p : Pid) (r : Option Nat) (s : St) : St :=
  let s1 := s.setStatus p (toDialing s.now (s.status p))
  match r with
  | some r => s1.hold p r
  | none => s1

/-- a random choice: any order of what there is -/
structure Choice where
  f : List Entry → List Entry
  perm : ∀ l, (f l).Perm l

/-- the dials that timed out (`all_peers.rs:375-388`) -/
def isExpired (P : Par) (now : Nat) : Status → Bool
  | .dialing t => decide (t + P.timeout < now)
  | _ => false

def expired (P : Par) (s : St) : List Pid :=
  (Net.keys s.peers).filter fun p => isExpired P s.now (s.status p)

/-- one of them is given up and its caller told (`all_peers.rs:390-400`) -/
def giveUp (s : St) (p : Pid) : St :=
  (s.setStatus p (toDisconnected s.now (s.status p))).notify p .timeout

/-- the first part of the heartbeat (`all_peers.rs:374-400`) -/
def expire (P : Par) (s : St) : St := (expired P s).foldl giveUp s

/-- whatever else happens to the records and the event queue within a heartbeat
(`manager.rs:317-343`, `all_peers.rs:402-451`) -/
def others (acts : List (Pid × Status)) (n : Nat) (s : St) : St :=
  { s with peers := acts.foldl (fun l a => Net.put a.1 a.2 l) s.peers, evs := s.evs + n }

/-- the peers of the discovery map without some -/
def without (l gone : List Entry) : List Entry :=
  l.filter fun e => !decide (e.1 ∈ gone.map Prod.fst)

/-- which peers discovery dials in this heartbeat (`manager.rs:1128-1147`) -/
def picks (P : Par) (c : Choice) (s : St) : List Entry :=
  (c.f (s.disc.filter (eligible P s))).take (P.target - s.live)

/-- `discovery_heartbeat` (`manager.rs:1128-1178`).  The code removes the peers one by one;
here at once. -/
def discBeat (P : Par) (c1 c2 : Choice) (s : St) : St :=
  let pick := picks P c1 s
  let rest := without (s.disc.filter (eligible P s)) pick
  let s1 := pick.foldl (fun s e => dialPeer P e.1 e.2 none s) s
  if P.maxDisc < rest.length then
    { s1 with disc := without rest ((c2.f rest).take (rest.length - P.maxDisc)) }
  else if rest.length < P.maxDisc then
    { s1 with disc := rest, evs := s1.evs + 1, log := s1.log ++ [.search] }
  else { s1 with disc := rest }

/-- store peers in the discovery map -/
def addAll (l : List Entry) (d : List Entry) : List Entry := l.foldl (fun d e => Net.put e.1 e.2 d) d

/-- `process_peers_for_discovery` (`manager.rs:1121-1126`) -/
def kad (P : Par) (c : Choice) (l : List Entry) (s : St) : St :=
  { s with disc := addAll (c.f (l.filter (eligible P s))) s.disc }

/-- `process_peer_exchange` (`manager.rs:651-690`) -/
def exchange (P : Par) (c : Choice) (l : List Entry) (s : St) : St :=
  if s.disc.length < P.maxDisc then
    { s with disc := addAll ((c.f (l.filter (eligible P s))).take (P.maxDisc - s.disc.length)) s.disc }
  else s

/-- `poll` without the heartbeat (`behavior.rs:183-208`): one event, or else one dial -/
def poll (s : St) : St :=
  if 0 < s.evs then { s with evs := s.evs - 1 }
  else
    match s.queue with
    | [] => s
    | q :: rest =>
      let s1 := register q.peer q.reply { s with queue := rest }
      { s1 with log := s1.log ++ [.swarm q.peer q.addrs] }

def St.say (s : St) (o : Out) : St := { s with log := s.log ++ [o] }

/-- `handle_pending_outbound_connection` (`behavior.rs:23-74`); `banned` is the verdict of
`peer_banned` -/
def outbound (P : Par) (p : Pid) (banned : Bool) (s : St) : St :=
  if p = P.me then s.say (.denied p)
  else if isDialing (s.status p) then
    if banned then s.say (.denied p) else s.say (.allowed p)
  else if !banned && canDial (s.status p) then (register p none s).say (.allowed p)
  else s.say (.denied p)

/-- `register_peer_connection` (`manager.rs:534-569`) with `handle_connected_transition`
(`all_peers.rs:508-522`); `banned` is the verdict of `peer_banned` -/
def established (p : Pid) (out banned : Bool) (s : St) : St :=
  if banned then s
  else
    let s1 := s.setStatus p .connected
    let s2 := if isDialing (s.status p) then s1.notify p .ok else s1
    if out then s2.notify p .ok else s2

/-- `on_dial_failure` (`behavior.rs:315-327`) -/
def failed (p : Pid) (s : St) : St :=
  let s1 := if s.status p = .connected then s
    else s.setStatus p (toDisconnected s.now (s.status p))
  s1.notify p .failed

inductive Ev where
  /-- a caller asks for a dial (`consensus.rs:838-859`, `manager.rs:160-179`) -/
  | dial (p : Pid) (addrs : List Addr)
  /-- any other part of the node sets a status, or removes the record -/
  | env (p : Pid) (st : Option Status)
  | ips (ipban : Ip → Bool)
  | event
  | tick (d : Nat)
  | heartbeat (acts : List (Pid × Status)) (n : Nat) (c1 c2 : Choice)
  | poll
  | outbound (p : Pid) (banned : Bool)
  | established (p : Pid) (out banned : Bool)
  | failed (p : Pid)
  /-- the last connection to a peer closed (`behavior.rs:288-310`) -/
  | closed (p : Pid)
  | kad (c : Choice) (l : List Entry)
  | exchange (c : Choice) (l : List Entry)

/-- what a heartbeat's discovery starts from -/
def beatStart (P : Par) (acts : List (Pid × Status)) (n : Nat) (s : St) : St :=
  others acts n (expire P s)

def ask (P : Par) (p : Pid) (addrs : List Addr) (s : St) : St :=
  dialPeer P p addrs (some s.next) { s with next := s.next + 1, log := s.log ++ [.asked s.next p] }

def setEnv (p : Pid) (st : Option Status) (s : St) : St :=
  match st with
  | some x => s.setStatus p x
  | none => { s with peers := Net.del p s.peers }

def step (P : Par) (s : St) : Ev → St
  | .dial p addrs => ask P p addrs s
  | .env p st => setEnv p st s
  | .ips b => { s with ipban := b }
  | .event => { s with evs := s.evs + 1 }
  | .tick d => { s with now := s.now + d }
  | .heartbeat acts n c1 c2 => discBeat P c1 c2 (beatStart P acts n s)
  | .poll => poll s
  | .outbound p b => outbound P p b s
  | .established p o b => established p o b s
  | .failed p => failed p s
  | .closed p => s.setStatus p (toDisconnected s.now (s.status p))
  | .kad c l => kad P c l s
  | .exchange c l => exchange P c l s

/-- a run of the node's peer manager from its start -/
def exec (P : Par) (es : List Ev) : St := es.foldl (step P) {}

end Verif.Dial
