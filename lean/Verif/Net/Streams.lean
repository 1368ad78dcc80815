import Verif.Net.Map

/-!
# Outbound stream opens

Model of `crates/network-libp2p/src/stream/behavior.rs` and `handler.rs`: a caller asks for a stream to a
peer; the behaviour holds the request until the peer is connected (dialing it on demand), hands it to the
handler of one of the peer's connections, and the handler negotiates the substream.  The caller waits on a
one-shot channel.  The swarm, the transport and the other behaviours (which dial and accept connections
too) are the environment: connections appear and disappear, dials fail, negotiations end at any time.

Not modelled: the streams themselves, addresses (numbers), the handler's own event buffer (an inbound
stream or a failure it sheds is one the environment does not deliver), keep-alive, wakers.
Time is in milliseconds.
-/

namespace Verif.Strm

open Verif.Net (get put del)

/-- `MAX_PENDING_OPENS` (behavior.rs:28). -/
def maxPending : Nat := 1024

/-- `MAX_EVENTS` (behavior.rs:31). -/
def maxEvents : Nat := 1024

/-- `OPEN_DEADLINE` (behavior.rs:35). -/
def openDeadline : Nat := 15000

/-- `SWEEP_INTERVAL` (behavior.rs:38). -/
def sweepInterval : Nat := 1000

/-- `INBOUND_RATE_WINDOW` (behavior.rs:41). -/
def rateWindow : Nat := 1000

/-- `MAX_INBOUND_PER_WINDOW` (behavior.rs:44). -/
def maxInbound : Nat := 256

/-- `MAX_PENDING_OUTBOUND` (handler.rs:32). -/
def maxOutbound : Nat := 256

/-- `STREAM_OPEN_TIMEOUT` (handler.rs:27). -/
def negotiationTimeout : Nat := 10000

/-- `OpenPhase` (behavior.rs:75-82). -/
inductive Phase
  | connected
  | needsDial
  | awaiting
  deriving DecidableEq

/-- `PendingOpen` (behavior.rs:85-96); the reply channel is the number of the call. -/
structure Open where
  id : Nat
  peer : Nat
  addrs : List Nat
  deadline : Nat
  phase : Phase
  deriving DecidableEq

/-- What the caller's channel delivers: a stream, a `StreamError` (upgrade.rs:59-77), or nothing because
the other end was dropped. -/
inductive Answer
  | stream
  | upgradeFailed
  | upgradeIo
  | notConnected
  | timeout
  | tooMany
  | dropped
  deriving DecidableEq

/-- `StreamFailure` (upgrade.rs:98-109); the kinds of `Io` are told apart only by whether they are in the
list of `penalty`. -/
inductive Failure
  | dial
  | timeout
  | unsupported
  | io (flap : Bool)
  | inboundRate
  deriving DecidableEq

/-- `StreamEvent` (behavior.rs:48-72). -/
inductive SEv
  | inbound (peer : Nat)
  | outboundFailure (peer : Nat) (f : Failure)
  | inboundFailure (peer : Nat) (f : Failure)
  deriving DecidableEq

/-- `InboundWindow` (behavior.rs:99-104). -/
structure Window where
  count : Nat
  started : Nat

/-- One established connection with its handler: the opens it holds, and those being negotiated with the
time the negotiation began. -/
structure Conn where
  peer : Nat
  queue : List Nat
  nego : List (Nat × Nat)

/-- The behaviour, the connections, and what has happened.  `calls` has the time of each call and the peer asked for, `answers`
what each caller got and when, `dials` the dials under way that this behaviour asked for. -/
structure S where
  now : Nat
  calls : List (Nat × Nat)
  pending : List Open
  connected : List Nat
  conns : List Conn
  dials : List (Nat × List Nat)
  events : List SEv
  inbound : List (Nat × Window)
  answers : List (Nat × Answer × Nat)

/-- `StreamBehavior::new` (behavior.rs:138-147). -/
def S.init : S :=
  { now := 0, calls := [], pending := [], connected := [], conns := [], dials := [], events := [],
    inbound := [], answers := [] }

/-- `push_event` (behavior.rs:196-200). -/
def S.push (s : S) (e : SEv) : S :=
  if s.events.length < maxEvents then { s with events := s.events ++ [e] } else s

/-- A reply to call `id`. -/
def S.reply (s : S) (id : Nat) (a : Answer) : S := { s with answers := s.answers ++ [(id, a, s.now)] }

/-- `queue_open` (behavior.rs:179-193). -/
def S.queue (s : S) (id peer : Nat) (addrs : List Nat) (ph : Phase) : S :=
  { s with pending := s.pending ++ [⟨id, peer, addrs, s.now + openDeadline, ph⟩] }

/-- `open_stream` (behavior.rs:158-176), called with a fresh channel. -/
def S.openStream (s : S) (peer : Nat) (addrs : List Nat) : S :=
  let id := s.calls.length
  let s := { s with calls := s.calls ++ [(s.now, peer)] }
  if maxPending ≤ s.pending.length then s.reply id .tooMany
  else if peer ∈ s.connected then s.queue id peer addrs .connected
  else if addrs = [] then s.reply id .notConnected
  else s.queue id peer addrs .needsDial

/-- Answer the given opens with `a` and report `f` for each (behavior.rs:208-214, 253-259). -/
def S.failAll (a : Answer) (f : Failure) (s : S) (os : List Open) : S :=
  os.foldl (fun s o => (s.reply o.id a).push (.outboundFailure o.peer f)) s

/-- Whether an open has expired (behavior.rs:206). -/
def Open.stale (now : Nat) (o : Open) : Bool := decide (o.deadline ≤ now)

/-- `expire_stale` (behavior.rs:203-215). -/
def S.expire (s : S) : S :=
  S.failAll .timeout .timeout { s with pending := s.pending.filter fun o => !o.stale s.now }
    (s.pending.filter fun o => o.stale s.now)

/-- The opens `on_connected` makes ready (behavior.rs:225-228). -/
def Open.ready (peer : Nat) (o : Open) : Open :=
  if o.peer = peer then { o with phase := .connected } else o

/-- `on_connected` (behavior.rs:223-229). -/
def S.onConnected (s : S) (peer : Nat) : S :=
  { s with connected := if peer ∈ s.connected then s.connected else s.connected ++ [peer]
           pending := s.pending.map (Open.ready peer) }

/-- The opens `on_disconnected` sends back to dialing (behavior.rs:240-243). -/
def Open.back (peer : Nat) (o : Open) : Open :=
  if o.peer = peer ∧ o.phase = .connected then { o with phase := .needsDial } else o

/-- `on_disconnected` (behavior.rs:237-244). -/
def S.onDisconnected (s : S) (peer : Nat) : S :=
  { s with connected := s.connected.filter fun p => !decide (p = peer)
           inbound := del peer s.inbound
           pending := s.pending.map (Open.back peer) }

/-- Whether a failed dial fails the open (behavior.rs:251). -/
def Open.hit (peer : Nat) (o : Open) : Bool := decide (o.peer = peer) && decide (o.phase = .awaiting)

/-- `on_dial_failed` (behavior.rs:247-260). -/
def S.onDialFailed (s : S) (peer : Nat) : S :=
  S.failAll .notConnected .dial { s with pending := s.pending.filter fun o => !o.hit peer }
    (s.pending.filter fun o => o.hit peer)

/-- The window of a peer at an inbound stream (behavior.rs:265-270). -/
def Window.roll (w : Window) (now : Nat) : Window :=
  if rateWindow ≤ now - w.started then ⟨0, now⟩ else w

/-- The window after counting a stream (behavior.rs:271). -/
def Window.take (w : Window) (now : Nat) : Window :=
  { w.roll now with count := (w.roll now).count + 1 }

/-- `inbound_rate_limited` (behavior.rs:263-273): the verdict is `true` when it exceeds the rate. -/
def S.rateLimited (s : S) (peer : Nat) : Bool × S :=
  let w := ((get peer s.inbound).getD ⟨0, s.now⟩).take s.now
  (decide (maxInbound < w.count), { s with inbound := put peer w s.inbound })

/-- An inbound stream reaches the behaviour (behavior.rs:327-337). -/
def S.onInbound (s : S) (peer : Nat) : S :=
  let r := s.rateLimited peer
  if r.1 then r.2.push (.inboundFailure peer .inboundRate) else r.2.push (.inbound peer)

/-- What a poll of the behaviour hands to the swarm. -/
inductive Out
  | event (e : SEv)
  | notify (o : Open)
  | dial (peer : Nat) (addrs : List Nat)

/-- The opens that go with a dial (behavior.rs:378-381). -/
def Open.dialed (peer : Nat) (o : Open) : Open :=
  if o.peer = peer ∧ o.phase = .needsDial then { o with phase := .awaiting } else o

def Open.isConnected (o : Open) : Bool := decide (o.phase = .connected)

def Open.isNeedsDial (o : Open) : Bool := decide (o.phase = .needsDial)

/-- `poll` without the sweep (behavior.rs:353-391); `none` is `Pending`. -/
def S.poll (s : S) : Option (Out × S) :=
  match s.events with
  | e :: es => some (.event e, { s with events := es })
  | [] =>
    match s.pending.find? Open.isConnected with
    | some o => some (.notify o, { s with pending := s.pending.erase o })
    | none =>
      match s.pending.find? Open.isNeedsDial with
      | some o =>
        some (.dial o.peer o.addrs, { s with
          pending := s.pending.map (Open.dialed o.peer)
          dials := s.dials ++ [(o.peer, o.addrs)] })
      | none => none

/-- `on_behaviour_event` of the handler of connection `c` (handler.rs:144-153). -/
def S.toHandler (s : S) (c : Nat) (id : Nat) : S :=
  match s.conns[c]? with
  | some k =>
    if maxOutbound ≤ k.queue.length then s.reply id .tooMany
    else { s with conns := s.conns.set c { k with queue := k.queue ++ [id] } }
  | none => s.reply id .dropped

/-- The swarm acts on a poll's result; `c` is the connection it chooses for `NotifyHandler::Any`.  A
command for a peer without a connection is dropped, its channel with it. -/
def S.act (s : S) (c : Nat) : Out → Option S
  | .event _ => some s
  | .dial _ _ => some s
  | .notify o =>
    if s.conns.any fun k => decide (k.peer = o.peer) then
      match s.conns[c]? with
      | some k => if k.peer = o.peer then some (s.toHandler c o.id) else none
      | none => none
    else some (s.reply o.id .dropped)

/-- How a negotiation fails (`classify_outbound`, handler.rs:119-130). -/
inductive NegoErr
  | timeout
  | negotiation
  | io (flap : Bool)
  deriving DecidableEq

/-- `classify_outbound` (handler.rs:119-130). -/
def classify : NegoErr → Failure × Answer
  | .timeout => (.timeout, .timeout)
  | .negotiation => (.unsupported, .upgradeFailed)
  | .io flap => (.io flap, .upgradeIo)

/-- The failure the handler reports to the behaviour, if any (handler.rs:189-193). -/
def reported (f : Failure) : Bool := !decide (f = .unsupported)

/-- All opens a connection still holds are dropped with it. -/
def S.dropAll (s : S) (k : Conn) : S :=
  (k.queue ++ k.nego.map Prod.fst).foldl (fun s id => s.reply id .dropped) s

inductive Ev
  /-- Time passes. -/
  | tick (d : Nat)
  /-- A caller's command (consensus.rs:1033-1058). -/
  | call (peer : Nat) (addrs : List Nat)
  /-- The sweep timer fires (behavior.rs:348-350). -/
  | sweep
  /-- The swarm polls the behaviour and acts on the result. -/
  | poll (c : Nat)
  /-- A connection to `peer` is established: inbound, by a dial of another behaviour, or by ours. -/
  | established (peer : Nat) (ours : Bool)
  /-- The `c`-th connection is closed. -/
  | closed (c : Nat)
  /-- A dial of `peer` fails: ours or another behaviour's. -/
  | dialFailed (peer : Nat) (ours : Bool)
  /-- The handler of connection `c` asks for its next substream (handler.rs:219-224). -/
  | request (c : Nat)
  /-- Call `id` gets its stream on connection `c` (handler.rs:172-180). -/
  | negotiated (c id : Nat)
  /-- The negotiation of call `id` fails (handler.rs:181-194). -/
  | upgradeError (c id : Nat) (e : NegoErr)
  /-- A peer opens a stream on connection `c`. -/
  | inbound (c : Nat)

/-- One step; `none` when it is not enabled. -/
def S.step (s : S) : Ev → Option S
  | .tick d => some { s with now := s.now + d }
  | .call peer addrs => some (s.openStream peer addrs)
  | .sweep => some s.expire
  | .poll c =>
    match s.poll with
    | some (o, s') => s'.act c o
    | none => none
  | .established peer ours =>
    if ours && !(s.dials.any fun d => decide (d.1 = peer)) then none
    else
      let dials := if ours then s.dials.eraseP fun d => decide (d.1 = peer) else s.dials
      some (S.onConnected { s with dials := dials, conns := s.conns ++ [⟨peer, [], []⟩] } peer)
  | .closed c =>
    match s.conns[c]? with
    | some k =>
      let s' := { s.dropAll k with conns := s.conns.eraseIdx c }
      if s'.conns.any fun k' => decide (k'.peer = k.peer) then some s'
      else some (s'.onDisconnected k.peer)
    | none => none
  | .dialFailed peer ours =>
    if ours && !(s.dials.any fun d => decide (d.1 = peer)) then none
    else
      let dials := if ours then s.dials.eraseP fun d => decide (d.1 = peer) else s.dials
      some (S.onDialFailed { s with dials := dials } peer)
  | .request c =>
    match s.conns[c]? with
    | some k =>
      match k.queue with
      | id :: q => some { s with conns := s.conns.set c { k with queue := q, nego := k.nego ++ [(id, s.now)] } }
      | [] => none
    | none => none
  | .negotiated c id =>
    match s.conns[c]? with
    | some k =>
      match k.nego.find? fun e => decide (e.1 = id) with
      | some e =>
        some (S.reply { s with conns := s.conns.set c { k with nego := k.nego.erase e } } id .stream)
      | none => none
    | none => none
  | .upgradeError c id err =>
    match s.conns[c]? with
    | some k =>
      match k.nego.find? fun e => decide (e.1 = id) with
      | some e =>
        let s' := S.reply { s with conns := s.conns.set c { k with nego := k.nego.erase e } } id
          (classify err).2
        some (if reported (classify err).1 then s'.push (.outboundFailure k.peer (classify err).1) else s')
      | none => none
    | none => none
  | .inbound c =>
    match s.conns[c]? with
    | some k => some (s.onInbound k.peer)
    | none => none

def S.runs : S → List Ev → Option S
  | s, [] => some s
  | s, e :: es => (s.step e).bind fun s' => s'.runs es

/-- Reachable under some schedule. -/
def Reach (s : S) : Prop := ∃ es, S.init.runs es = some s

end Verif.Strm
