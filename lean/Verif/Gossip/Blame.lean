/-!
# Gossip: what is taken, passed on and charged to whom (C107)

A network of nodes that gossip. An honest node takes a message exactly as `verify_gossip` decides,
passes on only what it took, and charges penalties as the reject path and the two application layers
do. Dishonest peers send what they like, under any source that is not an honest node's (messages are
signed by their source), and replay what honest nodes have published.

Sources:
* `crates/network-libp2p/src/consensus.rs` 396-400 (strict validation, `validate_messages`),
  862-897 (publish, subscribe, unsubscribe), 1078-1190 (`process_gossip_event`), 1583-1608
  (`verify_gossip`), 2172-2240 (reasons and penalties)
* `crates/consensus/primary/src/network/mod.rs` 1387-1418, `error/network.rs` 72-250,
  `network/handler.rs` 297-560
* `crates/consensus/worker/src/network/mod.rs` 265-290, `network/error.rs` 78-190,
  `network/handler.rs` 145-268
* `crates/network-libp2p/src/peers/manager.rs` 468-482, `peers/all_peers.rs` 264-306, 839-870,
  1105-1125
* `crates/node/src/manager/node/start_epoch.rs` 573-640, 820-845
-/

namespace Verif.Gsp

/-- `crates/config/src/network.rs` 117. -/
def maxSize : Nat := 12000

inductive Topic where
  | primary
  | votes
  | outputs
  | batches
  deriving DecidableEq, Repr

/-- What the payload decodes to; `junk` does not decode. `handler.rs` (primary) 300-305, (worker)
150-153. -/
inductive Body where
  | junk
  | cert
  | result
  | vote
  | batch
  deriving DecidableEq, Repr

/-- A message. `source` is the peer that signed it (absent only in messages that strict validation
drops before; kept as in the code). `epoch` is the epoch in whose committee an honest source was when
it made the message; of others it means nothing. -/
structure Msg where
  id : Nat
  source : Option Nat
  topic : Topic
  size : Nat
  epoch : Nat
  body : Body
  deriving DecidableEq, Repr

inductive Penalty where
  | mild
  | medium
  | severe
  | fatal
  deriving DecidableEq, Repr

/-- `consensus.rs` 2189-2208 `RejectReason`, and acceptance. -/
inductive Verdict where
  | accept
  | tooLarge
  | unauthorized
  deriving DecidableEq, Repr

/-- `consensus.rs` 1583-1608 `verify_gossip`: `entry` is the entry of the topic in
`authorized_publishers`, `author` the identity the source has resolved to. -/
def verify (m : Msg) (entry : Option (Option (List Nat))) (author : Option Nat) : Verdict :=
  if maxSize < m.size then .tooLarge
  else
    match m.source, entry with
    | some _, some none => .accept
    | some _, some (some l) =>
        match author with
        | some k => if k ∈ l then .accept else .unauthorized
        | none => .unauthorized
    | _, _ => .unauthorized

inductive Role where
  | relayer
  | author
  deriving DecidableEq, Repr

/-- `consensus.rs` 2233-2239 `RejectReason::penalty`: whom a rejection is charged to. -/
def Verdict.blames : Verdict → (relayerKnown authorKnown : Bool) → Option Role
  | .accept, _, _ => none
  | .tooLarge, true, _ => some .relayer
  | .tooLarge, false, _ => none
  | .unauthorized, _, true => some .author
  | .unauthorized, _, false => none

/-! ## The application layers -/

/-- What `process_peer_certificate` fails with (`cert_validator.rs` 88-130): the certificate is
below the garbage collection round; its header is at fault, with the penalty of the fault; its
signatures are; or anything that is not the certificate's fault. -/
inductive CertFault where
  | old
  | header (p : Option Penalty)
  | signatures
  | local
  deriving DecidableEq, Repr

/-- The outcome of the checks on the way, which depend on the state of the node. -/
structure Checks where
  /-- the aggregate signature is readable (`validate_received`) -/
  aggregate : Bool
  /-- the committee of the epoch is known; the certificate verifies against it -/
  committee : Bool
  verified : Bool
  /-- the node is a validator; it is found behind -/
  cvv : Bool
  behind : Bool
  process : Option CertFault
  /-- results and votes: already dealt with (or no open record held); counted before; from a member;
  signed well; the digest is ours -/
  past : Bool
  dup : Bool
  member : Bool
  signed : Bool
  digest : Bool
  /-- batches: the epoch is ours; the write to the store fails -/
  sameEpoch : Bool
  storeFails : Bool
  deriving DecidableEq, Repr

/-- The errors that leave the two `process_gossip` functions. -/
inductive Fault where
  | decode
  | topic
  | aggregate
  | cert (f : CertFault)
  | notMember
  | resultSignature
  | voteDigest
  | voteSignature
  | batchEpoch
  | store
  deriving DecidableEq, Repr

/-- `handler.rs` (primary) 297-560 `process_gossip`, errors only. -/
def primaryFault (m : Msg) (k : Checks) : Option Fault :=
  match m.body with
  | .cert =>
      if m.topic ≠ .primary then some .topic
      else if k.aggregate = false then some .aggregate
      else if k.committee && k.verified && k.cvv && !k.behind then k.process.map .cert
      else none
  | .result =>
      if m.topic ≠ .outputs then some .topic
      else if k.past then none
      else if k.committee = false then none
      else if k.member = false then some .notMember
      else if k.dup then none
      else if k.signed = false then some .resultSignature
      else none
  | .vote =>
      if m.topic ≠ .votes then some .topic
      else if k.past then none
      else if k.digest = false then some .voteDigest
      else if k.member = false then some .notMember
      else if k.dup then none
      else if k.signed = false then some .voteSignature
      else none
  | _ => some .decode

/-- `handler.rs` (worker) 145-268 `process_gossip`, errors only. -/
def workerFault (m : Msg) (k : Checks) : Option Fault :=
  match m.body with
  | .batch =>
      if m.topic ≠ .batches then some .topic
      else if k.sameEpoch = false then some .batchEpoch
      else if k.storeFails then some .store
      else none
  | _ => some .decode

/-- `error/network.rs` (primary) 117-138 and `error.rs` (worker) 160-188
`is_author_content_fault`. -/
def Fault.ofAuthor : Fault → Bool
  | .decode => true
  | .topic => true
  | .aggregate => true
  | .cert _ => true
  | .resultSignature => true
  | .voteDigest => true
  | .voteSignature => true
  | .notMember => false
  | .batchEpoch => false
  | .store => false

/-- `error/network.rs` (primary) 141-207 and `error.rs` (worker) 78-133: the penalty of a fault. -/
def Fault.penalty : Fault → Option Penalty
  | .decode => some .fatal
  | .topic => some .fatal
  | .aggregate => some .fatal
  | .cert .old => some .mild
  | .cert (.header p) => p
  | .cert .signatures => some .fatal
  | .cert .local => none
  | .resultSignature => some .mild
  | .voteDigest => some .mild
  | .voteSignature => some .fatal
  | .notMember => none
  | .batchEpoch => none
  | .store => none

/-! ## The network -/

/-- The world: who is honest, whose key is whose, which swarm is a worker's, and the committees. -/
structure World where
  honest : Nat → Bool
  key : Nat → Nat
  worker : Nat → Bool
  committee : Nat → List Nat

/-- The three committee slots after `update_committees` for epoch `e`
(`run_epoch.rs` 305-330: epoch 0 has no committee before it). -/
def World.window (W : World) : Option Nat → List Nat
  | none => []
  | some 0 => W.committee 0 ++ W.committee 1
  | some (e + 1) => W.committee e ++ W.committee (e + 1) ++ W.committee (e + 2)

/-- The publishers of a topic in epoch `e` (`start_epoch.rs` 587-592, 616-640, 833-838). -/
def World.publishers (W : World) (e : Nat) : Topic → List Nat
  | .primary => W.committee e
  | .batches => W.committee e
  | .votes => W.window (some e)
  | .outputs => W.window (some e)

/-- An accepted message as the application gets it, with the identities as known then. -/
structure Item where
  msg : Msg
  relayer : Option Nat
  author : Option Nat
  deriving DecidableEq, Repr

/-- A penalty reported to the peer manager: by whom, on which peer, in which role and for which
message; `app` if by an application layer. `slot` is the epoch of the committee slots of `by` at that
moment, and `effective` says that the peer was neither the node itself (`manager.rs` 473) nor in the
slots (`all_peers.rs` 839-848; a penalty on such a peer changes nothing, C57). The operator's
allow-list, which spares more, is left out. -/
structure Charge where
  by' : Nat
  whom : Nat
  role : Role
  app : Bool
  pen : Penalty
  msg : Msg
  slot : Option Nat
  effective : Bool
  deriving DecidableEq, Repr

/-- The state of all nodes. -/
structure Net where
  /-- the epoch of the committee slots of a node's peer manager -/
  slot : Nat → Option Nat
  /-- `authorized_publishers` -/
  allow : Nat → Topic → Option (Option (List Nat))
  /-- the identities a node has resolved (they are right, C60) -/
  known : Nat → Nat → Bool
  /-- ids in a node's cache of seen messages -/
  seen : Nat → List Nat
  /-- messages a node passes on: its own and those it took -/
  have' : Nat → List Msg
  published : Nat → List Msg
  /-- what the application of a node was handed -/
  items : Nat → List Item
  charges : List Charge

/-- Nobody has joined. -/
def Net.init : Net :=
  { slot := fun _ => none, allow := fun _ _ => none, known := fun _ _ => false,
    seen := fun _ => [], have' := fun _ => [], published := fun _ => [], items := fun _ => [],
    charges := [] }

def upd {α : Type} (f : Nat → α) (n : Nat) (x : α) : Nat → α := fun i => if i = n then x else f i

inductive Ev where
  /-- node `n` sets its committee slots to epoch `e` -/
  | slots (n e : Nat)
  /-- node `n` subscribes to a topic with the publishers of epoch `e`, or unsubscribes -/
  | subscribe (n : Nat) (t : Topic) (e : Nat)
  | unsubscribe (n : Nat) (t : Topic)
  /-- node `n` resolves the identity of peer `p`, or loses it -/
  | resolve (n p : Nat)
  | unresolve (n p : Nat)
  /-- an honest node publishes -/
  | publish (a : Nat) (m : Msg)
  /-- peer `p` passes message `m` to node `n` -/
  | deliver (p n : Nat) (m : Msg)
  /-- the application of node `n` processes an item -/
  | app (n : Nat) (i : Item) (k : Checks)
  /-- the cache of seen messages expires -/
  | forget (n : Nat)
  deriving DecidableEq, Repr

/-- The identity of a peer as node `n` has it. -/
def Net.ident (W : World) (s : Net) (n p : Nat) : Option Nat :=
  if s.known n p then some (W.key p) else none

/-- The topic a kind of content belongs on. -/
def Body.topic : Body → Option Topic
  | .junk => none
  | .cert => some .primary
  | .result => some .outputs
  | .vote => some .votes
  | .batch => some .batches

/-- What an honest node publishes (`publish_certificate`, `publish_consensus`, `publish_epoch_vote`,
the worker's `publish_batch`): under its own name, as a member of the committee of the message's
epoch, content that belongs on the topic. -/
def World.proper (W : World) (a : Nat) (m : Msg) : Prop :=
  W.honest a = true ∧ m.source = some a ∧ W.key a ∈ W.committee m.epoch ∧
    m.body.topic = some m.topic

instance (W : World) (a : Nat) (m : Msg) : Decidable (W.proper a m) := by
  unfold World.proper; infer_instance

/-- What a peer can pass on: an honest one what it has, another one anything but a message under the
name of an honest node that this node has not published. -/
def Net.canSend (W : World) (s : Net) (p : Nat) (m : Msg) : Prop :=
  if W.honest p = true then m ∈ s.have' p
  else ∀ a ∈ m.source, W.honest a = true → m ∈ s.published a

instance (W : World) (s : Net) (p : Nat) (m : Msg) : Decidable (s.canSend W p m) := by
  unfold Net.canSend; infer_instance

/-- A penalty is reported (`manager.rs` 468-482). -/
def Net.charge (W : World) (s : Net) (n whom : Nat) (r : Role) (app : Bool) (p : Penalty)
    (m : Msg) : Net :=
  let c : Charge :=
    { by' := n, whom := whom, role := r, app := app, pen := p, msg := m, slot := s.slot n,
      effective := decide (whom ≠ n ∧ W.key whom ∉ W.window (s.slot n)) }
  { s with charges := s.charges ++ [c] }

/-- `consensus.rs` 1080-1190: the verdict on a message from `p`. (The application's queue may be full,
1131-1139; then the item is dropped, which is the item never being processed.) -/
def Net.handle (W : World) (s : Net) (p n : Nat) (m : Msg) : Net :=
  let author := m.source.bind (s.ident W n)
  let v := verify m (s.allow n m.topic) author
  match v with
  | .accept =>
      { s with
        have' := upd s.have' n (s.have' n ++ [m])
        items := upd s.items n
          (s.items n ++ [{ msg := m, relayer := if s.known n p then some p else none,
                           author := m.source.filter (s.known n) }]) }
  | _ =>
      match v.blames (s.known n p) author.isSome with
      | some .relayer => s.charge W n p .relayer false .fatal m
      | some .author =>
          match m.source with
          | some a => s.charge W n a .author false .fatal m
          | none => s
      | none => s

/-- The application layers: `process_gossip` of the primary and of the worker
(`network/mod.rs` 1399-1418 and 277-290). -/
def Net.process (W : World) (s : Net) (n : Nat) (i : Item) (k : Checks) : Net :=
  match (if W.worker n then workerFault i.msg k else primaryFault i.msg k) with
  | none => s
  | some f =>
      match (if f.ofAuthor then i.author else i.relayer), f.penalty with
      | some q, some p => s.charge W n q (if f.ofAuthor then .author else .relayer) true p i.msg
      | _, _ => s

/-- One event. -/
def Net.step (W : World) (s : Net) : Ev → Net
  | .slots n e => { s with slot := upd s.slot n (some e) }
  | .subscribe n t e =>
      { s with allow := upd s.allow n fun t' =>
                 if t' = t then some (some (W.publishers e t)) else s.allow n t' }
  | .unsubscribe n t =>
      { s with allow := upd s.allow n fun t' => if t' = t then none else s.allow n t' }
  | .resolve n p => { s with known := upd s.known n (upd (s.known n) p true) }
  | .unresolve n p => { s with known := upd s.known n (upd (s.known n) p false) }
  -- `consensus.rs` 862-880: oversized messages are refused
  | .publish a m =>
      if W.proper a m ∧ m.size ≤ maxSize then
        { s with have' := upd s.have' a (s.have' a ++ [m]),
                 published := upd s.published a (s.published a ++ [m]),
                 seen := upd s.seen a (s.seen a ++ [m.id]) }
      else s
  -- a duplicate is dropped by gossipsub before it is validated
  | .deliver p n m =>
      if s.canSend W p m ∧ m.id ∉ s.seen n then
        ({ s with seen := upd s.seen n (s.seen n ++ [m.id]) }).handle W p n m
      else s
  | .app n i k => if i ∈ s.items n then s.process W n i k else s
  | .forget n => { s with seen := upd s.seen n [] }

/-- A history. -/
def World.exec (W : World) (es : List Ev) : Net := es.foldl (Net.step W) Net.init

end Verif.Gsp
