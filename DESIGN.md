# Design of the Lean 4 model of telcoin-network

## How to read this

* `properties.jsonl` – the English properties (C01, ...).
* `lean/Verif/<Area>/` – executable models (each definition cites the Rust file and lines it models and says what
  is simplified), helper lemmas, and property theorems marked **Cnn** in their doc comment, with their
  specification definitions and non-vacuity examples beside them.
* `MANIFEST.json` – property → theorem names and status.
* `seeded/LOG.jsonl` – wrong programs (edits of the model in a scratch copy) and the theorems that caught them.

## Trusted base

* Lean 4.33.0's kernel. The theorems depend on at most `propext`, `Classical.choice` and `Quot.sound`
  (`#print axioms`); no axioms are added, `native_decide` and `bv_decide` are not used.
* The reading of the Rust source. The code is not run here; the tie is the citations. Golden byte vectors in the
  repository's tests are reproduced where they exist (C27).
* Cryptography is abstract. Signature checks, aggregation and hashes are parameters. Unforgeability and absence of
  collisions are explicit hypotheses, restricted to the messages that occur.
* Dependencies are modelled from their documentation: revm's journal and upfront charge, reth's database
  transactions (an output's blocks are one transaction), redb/MDBX transactions (atomic, ordered keys), roaring
  bitmaps (ascending sets), tokio channels (reliable FIFO until closed), the file system (a completed `sync_all`
  is durable; unsynced writes may survive in any combination unless a comment says otherwise).
* Machine integers are `Nat` where overflow cannot happen (stated in the comment) and explicit wrap-around or
  saturation where arithmetic is the property (C22–C25, C29).
* Hash-map and hash-set iteration order is arbitrary wherever it matters (C20), concurrent tasks interleave at
  every await or lock release (C06, C08, C21, C33, C34, C49), crashes may happen at every step.

## Where property and code disagree

When the model showed a property false of the code, the negation is proved with a concrete witness, kept as a
theorem, and the property is either partial or carries the hypothesis that excludes the case. The list is in the
section *Findings*.


## Properties: what is modelled and how each is proved

### C01 Quorums intersect in an honest node, and stay reachable — proved

* Modules: Committee/*
* Model and proof: thresholds as functions of N, authority sets as duplicate-free lists; arithmetic (`omega`) and cardinality of list intersections, for every N

### C02 A certificate can only be assembled from a quorum of distinct committee votes, and its signer list is exactly the voters — proved

* Modules: Cert/Model, Cert/Props
* Model and proof: votes as a sorted key/signature list, committee walk with ascending bitmap; induction on the walk; the assembled certificate has exactly the voters as signers and verifies
* Assumptions and notes: signature scheme abstract

### C03 Vote aggregation never double counts and certifies exactly at quorum — proved

* Modules: Cert/Props (VotesAgg)
* Model and proof: vote aggregator as a state machine over arbitrary vote lists; invariant by induction

### C04 Parent aggregation releases a round exactly when a quorum of distinct authors certified it — proved

* Modules: Cert/Props (CertsAgg, CertsAggMgr)
* Model and proof: parent aggregator and its per-round manager with garbage collection; released groups equal a specification over the arrival list

### C05 At most one header per author, round and epoch can be certified — proved

* Modules: System/Certified, System/Joint, System/JointExample
* Model and proof: composition: the joint transition system of all members (voters, proposers, certificate acceptance, consensus) in any interleaving with faulty members sending anything; quorum intersection + vote-once gives uniqueness; `Joint` derives what `Bull` assumes about certificates
* Assumptions and notes: at most f faulty members; signature unforgeability as World.NotForged

### C06 A node never signs two different votes for one author, round and epoch — proved

* Modules: Voting/Model, Voting/Safety
* Model and proof: vote handler with per-author in-memory cache, durable record in the layered database, concurrent requests, timeouts and crashes at every await; invariant linking the durable record and every vote that ever left

### C07 A vote is only given to a fully checked header — proved

* Modules: Voting/Props
* Model and proof: `vote_inner` as a decision function; soundness and exactness against an independent predicate listing the checks

### C08 An honest proposer never signs two different headers for one round of one epoch — proved

* Modules: Proposer/Model, Proposer/Safety
* Model and proof: proposer state machine with stored last proposal and crashes; general lemma on guard records (`Storage/Guard`)
* Assumptions and notes: assumptions in Act.Assumed; both are needed (witnesses)

### C09 Batches of own headers skipped by consensus are proposed again, in order — proved

* Modules: Proposer/Props
* Model and proof: `process_committed_headers` on sorted maps; conservation of acknowledged batches as an invariant of the proposer's runs
* Assumptions and notes: committed_batch_requeued: a max-delay re-proposal of an already committed header makes its batches be queued again (duplicate inclusion, no loss)

### C10 Agreement: honest nodes commit prefixes of one and the same sequence — proved

* Modules: Bullshark/*
* Model and proof: Bullshark commit rule: dag by rounds, `order_leaders`, `order_dag`, reputation, schedule changes, garbage collection, restart from the stored log and certificate store. Safety: the committed sequence of every node is a prefix of one canonical chain (invariant over all interleavings of certificate arrivals and restarts)
* Assumptions and notes: certificates as in structure Universe (one per author and round, quorum of parents). A restart must find the last final scores within the 1000 sub-dags recovery reads (FinalInWindow): restart_can_fork shows (scaled down) that agreement fails without it. A restart must also find the certificates above the horizon: store_recoverable proves it while certificates are at most 64 rounds above the horizon, retention_can_fork (real constants) shows that a restart during a stall of 18 rounds can fork. Before the seed-signature fork agreement holds for all but the randomness (agreement_any_epoch, legacy_randomness)

### C11 Integrity: no certificate is committed twice — proved

* Modules: Bullshark/*
* Model and proof: invariant on last-committed rounds

### C12 Causal order: a committed sub-dag is the not yet committed causal history of its leader, in round order, leader last — proved

* Modules: Bullshark/OrderDag
* Model and proof: `order_dag` traversal against a reachability specification
* Assumptions and notes: reachable means through certificates newer than their author's last committed one, which is what the code walks

### C13 Leaders are committed in strictly increasing even rounds — proved

* Modules: Bullshark/*
* Model and proof: invariant

### C14 Commit timestamps never go backwards — proved

* Modules: Bullshark/*
* Model and proof: sub-dag construction; induction on the committed sequence

### C15 Leader election is total, deterministic and stays inside the committee — proved

* Modules: Schedule/*
* Model and proof: leader choice and swap table for every committee and table
* Assumptions and notes: the draw among the good nodes is an arbitrary function of the round

### C16 The swap table never demotes more than the configured share of the committee — partial

* Modules: Schedule/Props
* Model and proof: swap table construction over arbitrary scores. Full statement: at most the given share is demoted; false of the code with many zero scores (witness)
* Assumptions and notes: the bound on the number of demoted members is false when more members than that have zero points (bad_count_exceeded); proved: it holds unless all demoted have zero points

### C17 Reputation score windows restart at the configured number of sub-dags — partial

* Modules: Schedule/Props
* Model and proof: score computation over the committed sequence. Full statement: every schedule window has its own scores; false of the code when the boundary leader is skipped (witness)
* Assumptions and notes: exact counting, monotonicity and reset at a committed window start are proved; that windows always restart on time is false when the leader of the boundary slot is not committed (schedule_change_skipped)

### C18 The randomness chain survives restarts and epoch changes and fails closed — proved

* Modules: Bullshark/* (seed chain)
* Model and proof: seed chain anchored in the stored log, abstract hash; restart refines an uninterrupted run
* Assumptions and notes: keccak fold abstract

### C19 Bulk-fetched certificates are accepted only under the umbrella of verified signatures — proved

* Modules: Sync/Fetch
* Model and proof: classification of fetched certificates into directly and indirectly verified; well-founded induction on rounds
* Assumptions and notes: digest acyclicity as a rank function; Joint.batch_cert: with at most f faulty members every certificate of an accepted batch is genesis or certified. Observation indirect_signature_unchecked: the aggregate signature of an indirectly verified certificate is never looked at

### C20 Certificates are accepted in causal order and none is stranded — proved

* Modules: Sync/Pending*
* Model and proof: pending manager with missing-parent counts and garbage collection, every hash-set iteration order; invariant
* Assumptions and notes: garbage collection rounds read are assumed not to decrease; storage and channel errors not modelled; hash set iteration order arbitrary. A certificate that arrives again after acceptance is handed over again (Sync.Example.repeat_handed_over_again)

### C21 A gossiped consensus result is trusted only with more than one third of the committee behind it — proved

* Modules: Gossip/*
* Model and proof: tally table with messages handled by concurrent tasks interleaving at each lock release; invariant
* Assumptions and notes: handlers interleave at every lock release; no_eviction: equivocation about one number never evicts an honest tally. Known residual reproduced (future_numbers_evict): one faulty member signing made-up results for many future numbers evicts honest tallies (liveness of gossip only)

### C22 The gas penalty is bounded, targeted and monotone — proved

* Modules: Gas/Model, Gas/PenaltyProps
* Model and proof: integer arithmetic with explicit wrap-around; nonlinear arithmetic
* Assumptions and notes: observation burning_gas_can_be_cheaper: usage plus penalty is not monotone in usage

### C23 Transaction fees are conserved — proved

* Modules: Gas/PenaltyProps
* Model and proof: settlement of one transaction over balances
* Assumptions and notes: revm's upfront charge and balance increment are modelled from their documented behaviour

### C24 The next base fee moves by at most one eighth and never falls below the floor — proved

* Modules: Gas/FeeProps
* Model and proof: base fee step with saturating 128-bit arithmetic against the mathematical adjustment
* Assumptions and notes: the step bound is fee/8 below a target of 2^63 gas and fee/8+1 above; the code comment's claim for the saturating regime is refuted by saturated_step_exceeds_eighth (harmless)

### C25 Leader rewards count every committed leader exactly once — proved

* Modules: Gas/RewardsModel, Gas/RewardsProps
* Model and proof: leader counts as sorted maps; induction over outputs
* Assumptions and notes: fewer than 2^32 outputs per epoch

### C26 Native token supply changes only by governance mint-claims after the timelock and burns — proved

* Modules: Token/*
* Model and proof: precompile as a state machine over calls with revm's journal; invariants over arbitrary call sequences
* Assumptions and notes: keccak without collisions on the slots in use; revm's journal from its documentation. Caller means the frame's msg.sender (a DELEGATECALL by a contract governance called counts as governance). coins_backed needs the supply slot to cover the coins at the start, which no shipped genesis does: burn_needs_seed, overflow_unbacked. Faucet builds: supply_accounted and governance_or_role hold, the timelock does not apply

### C27 Every header has exactly one wire form per epoch and decodes to itself — proved

* Modules: Codec/*
* Model and proof: byte-level BCS codec of headers, both layouts; round trip, prefix-freeness, injectivity; golden vectors of the repository reproduced
* Assumptions and notes: the model reproduces the repository's golden vectors byte for byte; the hash is any function without a collision on the two inputs. The reader accepts parents in any order (parents_malleable): the digest is of the canonical form

### C28 An epoch's closing block is produced exactly once, as the last block of the epoch's last output — proved

* Modules: Exec/Build*, Exec/StateProps
* Model and proof: block loop of an output with an arbitrary EVM
* Assumptions and notes: for outputs with as many batches as digests (assemble_even: every output built outside early adiri epochs). adiri_dup_never_closes: under the early-adiri duplicate rule a closing output with a repeated batch closes nothing

### C48 The archive of an epoch holds exactly the saved outputs, also after a crash — partial

* Modules: Archive/Record, Pack*
* Model and proof: pack of an epoch (data file + position index + two digest indexes + epoch meta) refines a list of outputs; crash between any two syncs and repair on reopening. Full statement false in one window (dangling_entry)
* Assumptions and notes: holds for every crash except one window, where it is false of the code (finding dangling_entry): nothing persisted yet, the first output being persisted, crash between the sync of the position index and the sync of the batch digests. Then the repaired pack keeps an index entry without data: the latest header is an error and saving that output again is silently ignored. Records over the size limit are written but unreadable (fetch_too_large)

### C49 A restarted node continues the archive where it ends — partial

* Modules: Archive/Chain*
* Model and proof: latest-slot files written by a background thread, packs of several epochs, restart. Full statement false in two windows (stuck, renumbered)
* Assumptions and notes: false of the code in two crash windows, both proved: (stuck) the slot file is written when the output is saved, before the pack is persisted; a crash in between leaves the slots ahead of the pack and no output of that epoch can ever be saved again, through any restarts; (renumbered) the pack with the first output of an epoch is persisted but its slot is not: the node finds the number of an output the pack already has, and the next output saved under it is silently dropped from the archive while it is executed. resume_partial: every other crash is fine

### C50 Every consensus output is executed exactly once, across crashes and epoch changes — partial

* Modules: Exec/Pipeline*, Exec/Handoff*
* Model and proof: delivery of outputs from archive to engine with the three sources (live, replay, leftover), mode changes, epoch closes, crashes; invariant: chain = executed prefix of the archive; Handoff adds the broadcast buffer, the output waiting for the engine, its cancellation and the two phases of the leftovers, and refines the coarse model unless phase 1 skips
* Assumptions and notes: the full statement is false of the code: lost_output - when a change of mode or the shutdown of the node cancels the wait for room in the channel to the engine, the output received is gone, and phase 1 of send_leftover_consensus_output_to_engine forwards what follows without the check of continuity; the skipped output is never executed, also after a restart (the same after a phase 2 that could not read an entry: lost_output_after_failed_read). Proved: exactly-once for every history in which phase 1 forwards only the next output (exactly_once_partial), and for every history without such a cancellation and early end (exactly_once_smooth). The Pipe theorems are about the coarser model in which the hand-over is one step, which Handoff refines. Recovery needs that a re-entry within an epoch never overlooks a boundary output already in the archive (recovers_clean); if it does, the node commits one more output of the ended epoch and no restart ever gets past it (stuck_forever, boundary_missed_stuck). The archive is taken as a list (C48, C49), execution of one output as one step (C42)

### C51 An accepted epoch record was signed by an honest member of the committee the previous record announced — proved

* Modules: Epoch/Record
* Model and proof: acceptance of a downloaded record; counting in finite sets
* Assumptions and notes: BLS unforgeability as hypothesis (SoundFor). Findings: the documented claim that the overlap of two certificates at the floor of a tolerated shrink meets the fault bound holds up to 18 members and fails at 19 -> 13 (overlap_below_bound), without limit (overlap_gap_unbounded); two tolerated shrinks can have disjoint quorums (disjoint_quorums)

### C52 The epoch record store of a correct node holds the true chain of records — proved

* Modules: Epoch/Store, Epoch/Example
* Model and proof: record database with closes, quorums, downloads from arbitrary peers and crashes; invariant: the stored records are those of the true chain
* Assumptions and notes: correct validators sign only true records, at most a third of each announced committee faulty, digests injective. Findings (outside the assumption that the node's own record is true): overwrite_keeps_old: the recovery path says it overwrote the node's differing record but the first record stays, and next_refused: then no later record is ever accepted

### C53 Votes on an epoch record lead to a certificate and nobody can suppress them — proved

* Modules: Epoch/Votes, Epoch/Example
* Model and proof: gossip gate and collector as state machines over arbitrary events
* Assumptions and notes: solo_never_certifies is a finding: the only member of a committee never certifies. The routing of a forwarded vote to its collector (handle_new_vote) is not modelled

### C54 Importing an epoch's pack from any peer gives the epoch's consensus chain or changes nothing — proved

* Modules: Archive/Import*, Archive/StreamImport
* Model and proof: decoder and import loop over an arbitrary list of records; backward induction along the hash chain from the certified final header
* Assumptions and notes: for epochs after the first; digests without collisions among the headers involved. Findings: in epoch 0 the first header's parent is not checked and a peer can put the header before genesis in place of header 1, for good (genesis_content, genesis_poisoned); the execution addresses in the meta data are checked against nothing, so blocks built from an imported pack can pay whomever the peer names (addresses_unchecked, redirected); a header with an empty sub-dag panics the import (empty_subdag_panics). bytes_*: the same for the stream of bytes the peer sends, through the framing of C115 (compression, message encoding as a lossless coding); the adiri rule for old epochs is not modelled

### C55 The next committee is drawn fairly from the validators eligible after the slashes — proved

* Modules: Epoch/Shuffle*
* Model and proof: Fisher-Yates and reservoir sampling over lists of draws; counting by induction on the draws: every committee has the same number of draw sequences
* Assumptions and notes: validators have different addresses (hypothesis). The generator is the list of its draws; rand's choose_multiple is modelled from its documentation (reservoir sampling) as it is not in the repository. Equal likelihood is over uniform independent draws; the generator's quality and the seed are not modelled. The registry contract is arbitrary

### C56 Connection counts, IP blocks and table limits are exact — proved

* Modules: Net/Map, Net/Peers, PeersInv, PeersIdx, PeersPrune, PeersMain, PeersMore, PeersExample
* Model and proof: peer table as association lists with an arbitrary iteration order; invariants over all histories: counters equal counts of records, index equals the keys of the records; heap selection shown to pick the oldest
* Assumptions and notes: for histories in which no graceful disconnect is requested for a record already marked banned (the code logs that as an error; disconnect_of_banned_leaks shows the counter then stays one too high). Scores are rationals, ties in the pruning order are broken by arrival

### C57 A committee member is never penalised or banned by its own score — proved

* Modules: Net/PeersTrust
* Model and proof: invariant: records of members have the maximal score and no ban status
* Assumptions and notes: finding rotation_drops_allowlist: an operator's peer that rotates its key while already connected under the new one loses its exemption

### C58 A ban begins at the threshold, lasts for its term, follows the identity and ends — proved

* Modules: Net/PeersBan, PeersBanLast, PeersBanTerm, PeersMore
* Model and proof: score and status of one record through arbitrary histories; frame lemmas for calls about other peers
* Assumptions and notes: findings: stuck_forever: a peer that crossed only the disconnect threshold while connected is marked banned after the close and no heartbeat ever releases it; two of them block their address for good (Ex.stuck). Examples: a validator that left the committees is freed by the heartbeat after a fatal penalty, since the lockout counts from its last update (Ex.exValidator); a banned identity that connects under a new key before publishing its record keeps that connection (Ex.carried)

### C59 A reconnection time-out holds, ends on time and is bounded — proved

* Modules: Net/Cache, CacheMain, Blacklist, BlacklistMore
* Model and proof: set + queue with explicit panics; invariant; position argument for the overflow
* Assumptions and notes: findings: trusted_stays_blacklisted: a peer added by the operator is forgiven everywhere except on the gossip blacklist; timeout_end_clears_blacklist: the end of the time-out (10 minutes by default) emits Unbanned and takes a peer off the gossip blacklist while it is still banned (at least 30 minutes)

### C60 A network id stands for one identity, and outsiders cannot change whose — proved

* Modules: Net/PeersIdx, PeersIdent
* Model and proof: index invariant of C56 read as a statement about resolution; frame lemmas for records
* Assumptions and notes: finding member_takes_key: records carry no proof of possession of the network key, so a committee member can publish a record naming another validator's network key; the node then attributes that validator's connection to the member and drops the validator's record. Signature checks are not modelled: a record of key b is one whose BLS signature by b verified

### C61 A built batch takes the pool's offer in order, within the limits, without nonce gaps, and is acceptable — proved

* Modules: Tx/Build, BuildProps, BuildMain
* Model and proof: fold over the pool's offer with an invariant relating the accumulator to the list of selected transactions; the acceptance uses the batch validator of C43
* Assumptions and notes: the pool's order is an input (reth's BestTransactions with mark_invalid is modelled by skipping the sender). Findings: the builder measures the size in memory, the validators the encoded length, so a single transaction can be selected again and again and every such batch refused (built_refused); an empty batch is refused (empty_refused)

### C62 A forwarded transaction is delivered, judged, or returned; one validator cannot suppress it — proved

* Modules: Tx/Forward, ForwardProps, ForwardMain, ForwardBatch, ForwardMore
* Model and proof: the walk by recursion over the list of validators with arbitrary answers; end states of a walk characterised inductively; batches by induction; forwarder state as transition system
* Assumptions and notes: answers and budgets are arbitrary inputs per call. Findings: shared_endpoint: two keys that advertise one URL make one server's word count as two verdicts; the lift of a demotion after a delivery is unreachable (walk_effects, batch_effects)

### C63 An advertised RPC endpoint is dialled only if its host is public — proved

* Modules: Tx/Target
* Model and proof: bit masks as prefix arithmetic on the 32- and 128-bit value; names as character lists
* Assumptions and notes: the URL parser is not modelled: a URL is its host. Finding dialled_though_local: 198.18/15, fec0::/10 and the local NAT64 prefix of RFC 8215 are dialled

### C64 An accepted transaction is not lost inside the node — proved

* Modules: Tx/Life, LifeMain, LifeProps
* Model and proof: transition system over pool, batch under way, own batches, forward and recovery tasks; invariant: what the builder is about to prune is held elsewhere; concrete runs for the windows
* Assumptions and notes: the conditions of the statement are needed: for each a run that loses transactions without it is proved (lost_in_forward, lost_in_recovery, lost_at_start, lost_before_prune). What reth's pool does on its own is an input, recorded as dropped

### C65 The builder proposes one batch at a time and backs off while nobody takes its batches — proved

* Modules: Tx/Loop, LoopMain
* Model and proof: the loop as a state machine with explicit times; invariants over lists of turns; closed form of the delay by induction over the refusals
* Assumptions and notes: consecutive: no pruned batch between them and each within the shorter of delay and cap plus one cap of the one before; the first delay is not capped in the code. Errors that end the loop end a history

### C66 An ExEx never loses a notification silently, and cannot hurt another ExEx — proved

* Modules: Exex/Channel, Router
* Model and proof: invariant relating received, queued and dropped to the list of sent values, by induction over the schedule; the router projected to one ExEx
* Assumptions and notes: finding capacity_one_never_recovers: with capacity one (also what capacity zero is clamped to), after a single overflow nothing but Lagged markers ever reaches that ExEx again. The tokio channel is modelled as a bounded queue

### C67 Replay followed by live delivery has no silent hole and no repetition — proved

* Modules: Exex/Replay, Seam, SeamProof, SeamMain, SeamProps, SeamTheorems
* Model and proof: transition system from commit to consumer; invariant: the stream still under way, walked from the reader's position behind the height filter, has no silent hole; second invariant for order and repetition
* Assumptions and notes: no silent hole: unless the manager's broadcast receiver overflowed before the manager had handled its first chain (first_announcement_lost shows the hole then is silent). Findings: repeats_after_error (after a replay error the live part may repeat replayed blocks), start_beyond_tip (blocks below a start beyond the tip are delivered)

### C68 The pruning floor never passes what every ExEx has finished — proved

* Modules: Exex/Router
* Model and proof: the published floor as a function of the latest reports, by induction over the history
* Assumptions and notes: reports lost on a full event channel do not occur in the history

### C69 No input of the ExEx manager is starved and each keeps its order — proved

* Modules: Exex/Merge
* Model and proof: rank of a source in the three turn bits, decreasing at every poll that does not serve it
* Assumptions and notes: select_with_strategy is modelled as: flip the turn, poll that side, then the other

### C70 A message arrives exactly as sent or as an error, and no peer can make the reader hold more than its limit — proved

* Modules: Wire/Snap, Message, MessageProps, Frame, Demo
* Model and proof: the reader as a transition system over arbitrary reads of at least one byte; invariant: its state is a function of the bytes consumed; codec inverses; well-founded measure for termination
* Assumptions and notes: snappy's block compressor is arbitrary with an inverse and its documented worst case (demo_ok: this can be met); the frame format around it is modelled. Limits such that the worst case fits 32 bits. Finding trailing_ignored: anything may follow the compressed data within the body, so a message has many wire forms

### C71 Packs and certificates are transferred whole, or the requester is told — proved

* Modules: Wire/Pack, CertStream
* Model and proof: lists of frames over C70's sequence theorem; the batcher by a loop invariant; readers as inductive relations over the stream
* Assumptions and notes: certificates of at most 262133 encoded bytes (a larger one would make a frame over the limit). Timeouts end a reading at any point

### C72 A request for missing certificates is answered with exactly those the requester lacks — proved

* Modules: Fetch/Collector, CollectorProps, Answer, Demo
* Model and proof: refinement against C33's certificate store: the queue holds for each author the least round asked for and not yet delivered; a merge of ascending lists by induction
* Assumptions and notes: the roaring bitmap is arbitrary with an inverse (Bitmap.Ok, met by Demo.bitmap_ok); answer_exact needs that no author has more rounds above the bound than the limit (1000). Finding own_request_refused: otherwise every peer refuses the request, since set_bounds does not observe the limit get_bounds enforces

### C73 A certificate whose ancestors are missing is fetched for until they are there — proved

* Modules: Fetch/Fetcher, Demo
* Model and proof: state machine, invariants over histories of events with arbitrary reachable stores

### C74 A fetch round tries every peer before giving up — proved

* Modules: Fetch/Fan
* Model and proof: transition system, counting invariant over asked and answered peers, decreasing measure
* Assumptions and notes: finding any_answer_ends: an answer with one signed but useless certificate ends the round. The outer time limit (delay times peers plus two) may end a round earlier; then it reports an error and the fetcher starts over (C73)

### C75 A peer that can serve what is asked for is eventually asked — partial

* Modules: Probe/Probe
* Model and proof: exact characterisation of one call by induction over the list of peers, then of repeated calls; counterexample for every number of calls; decreasing count of unmarked peers
* Assumptions and notes: the last sentence is false of the code: starved shows that three peers that deny each time, listed first, shut out every other peer, since the list is in the order of a hash map and denials are neither remembered nor penalised. served_partial proves it when fewer than three such peers are listed before the one that serves

### C76 Admission limits hold in all and for each peer, and every slot is given back — proved

* Modules: Probe/Admit
* Model and proof: transition system of tasks with separate steps for counter, semaphore and drop; counting invariants
* Assumptions and notes: counters and semaphore are separate steps of each task; a drop happens at whatever end

### C77 A follower delivers the signed chain in order, each output once, and can always catch up — proved

* Modules: Follow/Ledger, Drain, DrainInv, DrainProps
* Model and proof: transition system with any number of walks, arbitrary answers and restarts; one inductive invariant; sweep over sorted ranges equals coverage; possibility of recovery by constructing the run
* Assumptions and notes: the header digest is collision free (World.Ok, met by toy_ok). hole_needs_pack shows the exception in the last sentence is real: a walk ends at the first height found in a pack, so a gap request cannot fill a hole below it

### C29 The recorded, the live and the re-read base fee are the same number — proved

* Modules: Gas/RestartProps
* Model and proof: three derivations of the next base fee; equality
* Assumptions and notes: hypothesis: an epoch's gas per worker fits in u64

### C30 A restart at any point rebuilds the epoch's gas totals and leader counts exactly — proved

* Modules: Gas/RestartProps
* Model and proof: restart catch-up against an uninterrupted run
* Assumptions and notes: an output's blocks are persisted atomically (database transaction); output numbers and rounds strictly increase (C13)

### C78 A task that waits for a signal is told, whenever it waits — proved

* Modules: Loop/Notice
* Model and proof: transition system with one step for each lock taken; inductive invariant over flags, wakers and the call under way
* Assumptions and notes: a noticer has one poller at a time, as its comment demands: of two tasks polling the same noticer only the last is woken

### C79 The channels of consensus have one reader at a time, lose nothing it should hear and block nobody when there is none — proved

* Modules: Loop/Channel
* Model and proof: transition system with one step for each atomic access; inductive invariant on who has the receiver
* Assumptions and notes: leftovers: what one subscription leaves unread is delivered to the next; of the channels that live longer than an epoch this concerns epoch votes and requests for outputs

### C80 The engine executes what it is handed in order, one at a time, and ends only when it should — partial

* Modules: Loop/Engine, EngineProps
* Model and proof: transition system with the loop's turn split where the signal can come between; inductive invariant; decreasing weight; analysis of all states in which nothing can act
* Assumptions and notes: the last clause is false of the code: missed_notice shows that a signal between the check at the top of the loop and the conditions of the select leaves the engine waiting for the next output only; never_stuck_partial proves that this is the only case, missed_until that the next output or the end of the channel ends it

### C81 Committed sub-dags become one unbroken chain of saved outputs — proved

* Modules: Loop/Sequencer, SequencerProps
* Model and proof: transition system with fetches ending in any order and an abort at any step; invariant against a recursive chain specification
* Assumptions and notes: what a fetch gives is C40, what saving does C44 - C49; that consensus gives the sub-dags behind the last saved one after a restart is C49, C13

### C82 A state pack is read back as it was written, and a damaged or cut one is never taken for whole — proved

* Modules: Snapshot/Pack, PackProps, Export
* Model and proof: writer and reader as functions on record lists; induction over groups of records and over the rows of the merge join
* Assumptions and notes: the container below (checksums, sizes) is C47, C48: here a record that cannot be read is one. Findings: tail_ignored (anything may follow the footer), footer_tallies_ignored (of the footer's tallies only the number of accounts is compared)

### C83 A restored node reads the block hashes of the chain — proved

* Modules: Snapshot/Restore, Window
* Model and proof: induction down the parent links from the certified hash; uniqueness of a sorted permutation
* Assumptions and notes: the EVM's rule (256 ancestors) is in the statement; that reth's BLOCKHASH reads the static header files is not modelled

### C84 A restored node has the certified state, and only that — proved

* Modules: Snapshot/Restore, Import, Transfer
* Model and proof: invariant of the import loop for arbitrary entries; exact result of the loop for exported entries; induction along the record chain with the honest-signer theorem of C51
* Assumptions and notes: the state root is a function of the view without collisions on finite states (noCollision_exists). The plain table, which the node reads, equals the hashed one, over which the root is computed, if no record repeats a slot or reth's history index refuses a repeated entry; plain_diverges shows that this code itself does not refuse it. reth's table writers are modelled from their documentation; the entry-readiness check is a predicate on state and block

### C85 A restore is safe to interrupt and does not touch a node's data — partial

* Modules: Snapshot/Datadir
* Model and proof: transition system of durable writes with failure and crash at each; invariant per program point; counterexample runs
* Assumptions and notes: the last clause is false of the code: rerun_loses_floor shows that a second `db load-state` on a restored datadir, though refused, removes the floor marker. used_kept_partial proves the rest of the clause. failed_import_left, half_restored, stale_marker and stuck_unfloored show what the property does not cover: a datadir with only the genesis block, a crash between scaffold and import, a crash right after the marker, a removal that fails

### C86 The discovery table holds only records their owners signed, the newest within their life, and never more than its limit — proved

* Modules: Kad/Store, StoreProps
* Model and proof: store operations as functions, invariant over every list of operations; exact characterisation of each verdict
* Assumptions and notes: signatures are a predicate on value and key. table_bounded: beyond the limit by at most the number of removals of keys that are not there (absent_removal_overfills shows this is needed). Findings: replay_after_expiry, full_hides_newcomer, one_peer_fills, junk_stops_start

### C87 The address book of the committee is bounded, keeps its members and takes the newest answer — proved

* Modules: Kad/Known, KnownProps
* Model and proof: address book and lookups as functions on a state; invariants over every list of events
* Assumptions and notes: finding pinned_set_back: for members the operator provisioned time stamps are not compared, so any older record its owner signed that passes the record store sets its address back

### C88 The provider table is bounded and keeps the node's own announcement — proved

* Modules: Kad/Providers
* Model and proof: provider table as functions; invariant over every list of operations
* Assumptions and notes: finding key_taken: anybody may provide any key, so before the node has announced itself (or after an expiry) others can take its key

### C89 Offline validation of a pack reports every defect and only defects, and agrees with the import — proved

* Modules: Archive/Validate, ValidateProps, ValidateImport, ValidateMain
* Model and proof: both walks as functions on the record list; membership of an issue characterised by an inductive list of defects; import and validation compared over the decomposition of a file into groups
* Assumptions and notes: the documentation's `Valid: would import cleanly`, `Invalid: the importer would reject it` is false of the code (findings VEx.valid_not_importable, VEx.invalid_imported); `Importable` is what only the import looks at, and imported_valid needs headers numbered by their place (the import skips a repeated number)

### C90 The gas and receipts of every block are those of the transactions that ran, and an accepted batch never stops the chain by its gas — proved

* Modules: Exec/Executor, ExecutorGas
* Model and proof: the executor as an instance of the execution layer of Exec/Build; induction over the transactions against a relation of the interpreter alone; combined with the validation theorem of Worker/Quorum
* Assumptions and notes: the interpreter is a parameter; GasLaw: it uses no more gas than a transaction's limit. `oversized_stops`: without validation one transaction over the block limit makes the output impossible to execute

### C91 Epochs are closed by a fixed sequence of system calls, and the contract forks run once, at their epoch, over the pinned code only — proved

* Modules: Exec/Executor, ExecutorProps
* Model and proof: the closing code proved equivalent to a relational sequence of calls; invariant over all chain histories for the fork
* Assumptions and notes: KeepsCode: a system call does not replace the code of the two system contracts. An adiri build on a chain whose registry is not the pinned one stops for good at the close of epoch 406 (fork_fails_closed)

### C92 Every node enters an epoch with the view of the block that closed the epoch before — proved

* Modules: Epoch/Entry, EntryProps, EntryExample
* Model and proof: registry histories as chains with two kinds of blocks; the entry reads as functions of chain, tip and a fault schedule; the pin characterised as the first block whose state reports the epoch; uniqueness gives agreement
* Assumptions and notes: the contract's documented behaviour (scalars written once, at the boundary) is the assumption `Valid`. Findings: arrays of unequal length are cut without an error (members_truncates), equal keys merge (members_merges); in epoch 0 the committee is whatever the local file says

### C93 Shutdown notices reach everybody, and the end of a critical task is never missed — proved

* Modules: Loop/Tasks, TasksProps
* Model and proof: notifiers and the manager as event systems; invariants over all histories; every branch of the select decreases a measure
* Assumptions and notes: findings: an exit signal that arrives together with another ready branch is lost if the select takes that one (signal_lost_to_task, signal_lost_to_recv), and between two iterations nobody listens (signal_lost_unarmed); with 1000 tasks in the channel a critical task runs unwatched for good (untracked_forever); abort does not see the channel (abort_misses_queue); tasks on the blocking pool outlive the manager (blocking_survives)

### C94 A flush of the certificate pack that reports success has kept every certificate handed over before it — proved

* Modules: Archive/CertPack, CertPackProps, CertPackExample
* Model and proof: data file as a list of records and damaged stretches, index as a map with filter, disk as the versions of the index that may be found; the thread as an event system with failures chosen by the environment; invariants over all histories; counterexample runs
* Assumptions and notes: the exceptions named in the statement are real: index_ahead and cut_below_index reach, in two ways, an index entry that leads to nothing, and stuck shows that a save of that digest then reports success and stores nothing while the pack is open; the split of a bucket is C46's finding

### C95 The worker gateway's rate limits hold over every stretch of requests and refuse only what exceeds them — proved

* Modules: Gateway/Limiter, LimiterProps, LimiterMain, LimiterKey, LimiterExample
* Model and proof: clock readings and lock acquisitions as separate events; a bucket's history as an inductive relation, the bound by induction over its stretches, refusals justified by the stretch since the bucket was last full; prefixes on bit vectors
* Assumptions and notes: token arithmetic exact, where the code uses f64. Findings: requests refused per IP still spend global tokens, so one client starves all (flood_starves); the clock is read before the lock, so readings out of order credit the same interval again (skew_unbounded); a full table leaves new clients unlimited (full_table_unlimited)

### C96 The worker gateway forwards a request at most once, only to an upstream whose latest poll said ready, never round a loop, and answers everything else itself — proved

* Modules: Gateway/Proxy, ProxyProps, ProxyExample, Server
* Model and proof: poller, requests, deadlines and disconnects as one event system with histories of what was sent and counted; invariant over all runs; the accept loop as a second event system with permits
* Assumptions and notes: JSON and HTTP bytes, the streaming of a response and the HTTP client's redirects are not modelled. Findings: an upstream's 408 is counted as forwarded and as rejected; a gateway for a worker other than 0 is never ready against this node; a listener on [::] lets localhost on its own port through

### C97 Every outbound stream open is answered exactly once, with a stream to the peer asked for or the true reason — proved

* Modules: Net/Streams, StreamsProps, StreamsMain, StreamsTime, StreamsBlame, StreamsExample
* Model and proof: behaviour, handlers and swarm as one event system with the environment's connections, dials and clock; each call counted over all places; invariant over all runs; quota potential for the inbound rate; counterexample runs
* Assumptions and notes: the swarm and the transport are the environment. Findings: the fifteen seconds end at dispatch, not at the negotiation's end as documented (deadline_stops_at_dispatch); a call during a dial starts another (second_dial); anybody's dial failure fails opens whose own dial is under way (foreign_failure); a shared dial uses only the first caller's addresses (first_addresses_only); reconnecting resets the rate (reconnect_resets_rate); a full event buffer loses an inbound stream (inbound_shed)

### C31 Consensus does not halt on valid certificates and start-up does not fail on honest data — proved

* Modules: Bullshark/Process, Recover
* Model and proof: no error branch of the commit path is reachable; size of the dag bounded
* Assumptions and notes: that the certificate manager's store is causally complete above the horizon is store_recoverable (limit: 64 rounds)

### C32 A supported leader is committed immediately — proved

* Modules: Bullshark/*
* Model and proof: progress: a supported leader at the right round commits

### C98 A validator never lets two different certificates for the same own header out, whatever crashes happen — partial

* Modules: Proposer/Certifier, CertifierProps, CertifierMain, CertifierLife, CertifierSpec, CertifierExample
* Model and proof: proposer, proposal tasks, database log with durable prefix, restarts and crashes as one event system; invariant over all runs; a second invariant for runs without delayed re-proposal; counterexample run for the full statement
* Assumptions and notes: the full statement is FALSE of the code (Example.two_certificates): a header proposed again on expiry of the maximum delay can reach its second task after the first has recorded the certificate in memory only; the second publishes it, a crash loses the record, and a different certificate follows. Proved: uniqueness of what leaves by the main path, always; of everything, unless a certificate was published again before its record was on disk; of everything in runs without such a re-proposal

### C99 The certifier only certifies what the proposer handed over, with a real quorum, one proposal at a time — proved

* Modules: Proposer/CertifierSpec, CertifierVotes
* Model and proof: the same event system; the vote request as a function of the peer's answers, by induction over them
* Assumptions and notes: findings: a task not yet polled when the next header arrives is not cancelled and holds the lock before the newer proposal (late_subscriber_blocks); a certificate on disk but not processed before a crash is never processed by the certifier afterwards (recorded_never_processed, Example.orphan_run); an old epoch's header is re-proposed on expiry of the maximum delay (old_header_reproposed)

### C100 Waiting for a certificate never misses it, never invents one and leaves nothing behind — proved

* Modules: Storage/Notify, NotifyProps, NotifyMain, NotifySpec, NotifyExample
* Model and proof: calls, notifications and the store as one event system at the granularity of lock acquisitions; invariant over all runs (every live sender is in exactly one place; a visible value implies a notification not begun); drive each notification to its end for progress
* Assumptions and notes: the counter is an integer shown never negative, where the code uses a wrapping atomic; the 255 shards are one map (keys of different shards never interact); register_all, used only by tests, is not modelled. waits_for_ever: notify_read has no time-out of its own, so a call that comes after garbage collection ends only with its caller's

### C101 Waiting for execution: success means executed, failure means a fork, and nobody waits for what is there — proved

* Modules: Follow/WaitExec, WaitExecRing, WaitExecProps, WaitExecSpec, WaitExecClose
* Model and proof: engine, report channel, watched ring and calls as one event system with restarts; the persisted chain's tips defined from the chain alone; the ring as a suffix of them by invariant; the restoring loop by induction on the block number
* Assumptions and notes: findings: the ring is searched by hash only, so a header naming a recent hash under a lower number passes on nodes that have executed the block and is a fork for a node that only had to wait (wrong_number, Example.split): that node goes inactive or its follower dies; a failed database read is taken for a fork (Example.read_failure); a skipped output is forgotten after the capacity or a restart and a wait for it never ends (Example.skipped_forgotten)

### C102 The tn RPC namespace: bounded work, answers from one block, nobody refused for want of capacity — proved

* Modules: Rpc/Blocking, BlockingInv, BlockingProps, BlockingMain, BlockingAnswer
* Model and proof: calls, semaphore with its queue, blocking pool and chain as one event system; invariant over all runs; a decreasing measure for progress; the answers by computation on the pinned block
* Assumptions and notes: the registry contract is not in the repository: its interface promise is the hypothesis of one_status, undefined_reverts and any_is_all, met by a concrete registry (demo_promise); ABI bytes and the BLS decompression are parameters; tokio's semaphore is fair (FIFO)

### C103 Routing of epoch votes to the rounds that collect them — proved

* Modules: Epoch/Router, RouterInv, RouterMain, RouterOrder
* Model and proof: router, channels and rounds as one event system; invariant (a channel is a prefix of its epoch's votes since its birth) over all runs; a second invariant for orderly histories; counterexample runs by computation
* Assumptions and notes: findings: a late vote for a round that has ended removes that epoch's entry, and if it was the last of the list the next epoch's early votes are lost (lost_after_close); a record overtaken on the watch gets no round (overtaken_record_has_no_round); a channel filled before its record stops the router for ever (stuck_for_ever, stuck_reachable)

### C104 The database of epoch records on the disk — proved

* Modules: Epoch/Disk, DiskInv, DiskMain, DiskActor
* Model and proof: files as lists of records and damaged stretches with synced lengths, indexes with the versions that may be on the disk; invariant (entry e leads to the record of epoch e, ends before every length the index may have) over all histories with crashes; the thread's trace with the queue as FIFO and the error slot as invariants
* Assumptions and notes: the bytes of the files are C48's matter; start_epoch is 0. Findings: after a crash within the first persist a record is found by its epoch but never by its digest (no_digest); after a crash within the sync of a digest index an entry may point past the cut, so the certificate of that epoch counts as stored, cannot be saved again, and is later read as another epoch's certificate (lost_cert), likewise a record (other_by_digest); save of another record with its certificate reports success and files the certificate under a record that is not there (cert_of_no_record); persist reports success although a write queued before failed, when another task's call took the error (error_stolen)

### C105 Publication of snapshot bundles — proved

* Modules: Snapshot/Publish, PublishInv, PublishProps
* Model and proof: directories with their four files, the tasks' phases, the exporter's queue and worker, the watermark and the store as one state; each step between two suspensions is an event, in any order, with any disk failure; invariant over all histories relating every directory to its task's phase; the importer's check by C84's completeness lemma
* Assumptions and notes: Two findings: a crash may leave a torn consensus pack under the final name for ever (torn_for_ever), because the copy is not synced before the rename; and only the last entry of an earlier bundle is checked (reordered_accepted). late_lost: an export the worker reaches after the tip has moved on is lost for good.

### C106 The role of a node over its life — proved

* Modules: Mode/Model, Inv, Props
* Model and proof: the mode, the stages of an epoch's start (one read of the mode each), the tasks, the checks in flight and a log of effects as one state; invariant over all histories; the step theorems by cases over the events
* Assumptions and notes: findings: inactivity is kept over the epoch's end, so a validator that is inactive when its committee ends acts as an inactive validator outside the committee, and its catch-up makes it active there until the epoch is entered again (outsider_example); votes and batches depend on the committee and not on the mode, so a member configured as an observer signs votes, and seals batches that nobody proposes (observer_votes_example, flagged_batches)

### C107 Gossip: what is taken, how far it spreads and who pays — proved

* Modules: Gossip/Blame, BlameProps
* Model and proof: all nodes of a network as one state (slots, publishers, resolved identities, seen caches, items, a log of charges); invariant over all histories (whatever an honest node has under an honest name was published by it; every charge has its justification); spreading by induction over the path
* Assumptions and notes: findings: a node two or more epochs behind fatally charges honest validators of newer committees (behind_charges); while a node stays in an epoch the authors of everything it takes are exempt, so no penalty of the application for bad gossip has any effect (app_penalties_void, garbage_free); a message rejected before its author's identity is resolved is in the seen cache and is not taken when redelivered (early_lost)

### C108 When a validator finds itself behind — proved

* Modules: Mode/Behind, BehindProps
* Model and proof: the check as a function of the four clocks; the clocks' updates as an event system over an arbitrary chain of outputs; invariant (the committed round is that of the last committed output of the epoch, or zero) over all histories; the exact condition by computation under the invariant
* Assumptions and notes: findings: until the engine has processed the first output of an epoch the node's own commits of that epoch do not count, so a node whose engine lags goes inactive on certificates and outputs it has itself committed (slow_engine, own_output_alarms); a header that is not found or not readable counts as nothing executed, so from epoch 2 on one failed read makes a node that has missed nothing inactive (lost_header); a node that stops short of an epoch's end and hears of every later output is not told by any of them (outputs_do_not_tell, stuck_unnoticed), only by certificates, which it takes from its own epoch's committee only

### C33 An acknowledged durability barrier means everything written before it is on disk — proved

* Modules: Storage/Layered, LayeredProps
* Model and proof: background writer with queue, overlapped transactions and barriers; crash at any point

### C34 Reads of the layered database return the latest write — proved

* Modules: Storage/LayeredReads
* Model and proof: reads through the memory layer in every interleaving with the writer
* Assumptions and notes: in cache mode a read between two writes of one key may return the older value, and an insert whose staging failed disappears (witnesses): the full-memory statements do not extend to cache mode

### C109 When the proposer proposes — proved

* Modules: Proposer/Timing, TimingInv, TimingProps, TimingExample
* Model and proof: the loop as a total step function over events and the passing of time, with a log of the headers made; invariant over all histories (deadlines, flags, readiness as last evaluated); the time bounds by an invariant carried along the events until the log grows; findings as runs
* Assumptions and notes: findings: readiness found while a header's task is under way is forgotten at its end, so a node with the certificates of all members waits for the maximal delay if no further certificate comes (forgotten); a maximal delay that ends during the task is charged to the next round, which is then proposed without waiting for its leader (stale_timeout); likewise the minimal delay (min_not_kept); a node that starts in the middle of an epoch makes its first header over the genesis certificates (genesis_over_old)

### C110 The signature precompile and proofs of possession — proved

* Modules: Bls/Precompile, PrecompileProps
* Model and proof: the dispatch as a function of call data and gas over an abstract curve and decoder; the standard ABI encoding and a decoder proved to invert it; agreement by rewriting under the curve's laws; binding by C36's separation of signed messages
* Assumptions and notes: the curve and the ABI decoder are parameters with stated laws (Curve.Ok, Inverts), both met by concrete ones (toy_ok, standard_inverts); the registry's message is the one the code's comments give for the contract, whose source is not in the repository

### C111 The genesis ceremony — proved

* Modules: Genesis/Ceremony, CeremonyProps
* Model and proof: the command as a function of the files, the arguments and the constructors; maps as sorted lists; independence of the order by extensionality of sorted lists with equal members; the fees by the permutation of the stable sort
* Assumptions and notes: findings: of two files with one key one is dropped silently, which one depends on the directory's order (duplicates_depend_on_order); the proof covers key and address only, so the network nodes in a file can be changed by anybody who can write it (nodes_unsigned); the accounts file replaces system contracts silently (registry_replaced); a single validator makes the program panic after the genesis file is written (single_torn)

### C112 The bounded waits for an epoch's record and certificate — proved

* Modules: Epoch/Wait, WaitProps
* Model and proof: the two loops as functions by well-founded recursion over arbitrary delays, with a trace of the lookups; an induction principle over the lookups of a wait, and one invariant per statement; the database of C52 under arbitrary timed writes meets the assumptions
* Assumptions and notes: finding: the comment says that a save made before the deadline can be missed only during the first lookup; it can be missed during any lookup that is in flight when the deadline passes (later_lookup_misses). The wait for a certified record does not cut its sleep at the deadline (certified_rounds_up)

### C113 The fee cap on submitted transactions — proved

* Modules: Tx/FeeCap, FeeCapProps
* Model and proof: the check and the handler tables of the transports as functions; exactness of the arithmetic from the widths of the fields; the bound on what is charged by monotonicity of multiplication
* Assumptions and notes: transactions that arrive by gossip do not pass this guard (the code says so); reth's own methods that sign with a local key are not modelled

### C114 The keys of a node on disk — proved

* Modules: Keys/Disk, DiskProps
* Model and proof: reading, writing and the commands as functions of the disk over abstract cryptography; round trips by the laws and by splitting the stored bytes; the histories by an invariant over the commands
* Assumptions and notes: the cryptography is a parameter with stated laws (Crypto.Ok, Separate), met by a concrete one. Findings: --force leaves the key file of the other kind, so the node may then read the old key while node-info.yaml names the new one (stale_wrapped, stale_plain), and nothing compares the two when a node starts; the external addresses are checked after the keys are written (fails_after_write); standard input is trimmed, the environment is not (blank_lost); an empty passphrase at the prompt announces that none is set and then fails (empty_prompt_fails)

### C115 Pack files and pack streams, byte by byte — proved

* Modules: Archive/Crc, Stream, StreamProps
* Model and proof: reading and writing as functions on byte lists with the concrete CRC-32; linearity of the checksum's state over differences and its reversibility over 32 bits; injectivity of the identifier by the inverse of the odd multiplier; streams by induction on their length
* Assumptions and notes: the checksum is the concrete CRC-32. Findings: a changed size word can be undetected, even by one bit (size_undetected); after a size over the limit the iterator goes on inside the record, all callers stop (out_of_step); a value over the limit is written without complaint (written_unreadable); a stream of a newer version is opened although the comment says it is rejected (newer_stream_opened); a cut within a size word is a clean end (truncated)

### C116 The node's database: transactions are all or nothing and never block durability — proved

* Modules: Storage/Atomic, Composite, CompositeProps, CompositeMain
* Model and proof: three layered databases (C33) driven by handles with shared guards; the calls each of them receives are a ghost log; invariants (begun = ended + open, every open transaction has a handle) by induction over the history; a first part of a log with nothing open is the log of a first part of the run
* Assumptions and notes: the threads are alive (send never fails). Findings: a transaction over tables of two databases can be torn by a crash (cross_torn; none in the repository does this); an abandoned transaction is stored (abandoned_stored), so a batch response with one bad batch leaves the ones before it in the store; clones made before the first write are transactions of their own (clones_apart); a failed write does not abort its transaction, the rest is committed (failing_torn)

### C117 Dialing: one true answer for each call, no dial to itself or to the banned, and discovery that fills the missing places only — proved

* Modules: Net/Dialing, DialingProps, DialingMain, DialingMore
* Model and proof: one event system over the status table, the queue, the pending replies and the discovery map, with arbitrary permutations as draws and arbitrary status changes by the rest of the node; counting invariant for the calls; each step's new outputs characterised through a record that is only written; the status transitions are proved equal to those of the peer table of C57/C58
* Assumptions and notes: the swarm and the verdict peer_banned are the environment. Findings: of two calls queued together for one peer the first never gets an answer (second_call_drops_first); the late failure of a dial given up fails the next call for the peer (late_failure_fails_next_call); a dial queued before a ban overwrites it and frees the ip (queued_dial_overwrites_ban, queued_dial_frees_ip); heartbeats run in a row dial beyond the target (heartbeats_overshoot); discovery draws temporarily banned peers (refused_peer_takes_place)

### C118 Restoring a node from a bundle: certified records, the epoch's own consensus chain, and the hint to resume from — proved

* Modules: Snapshot/Resume, ResumeMore
* Model and proof: the loop that verifies and saves, over the record database of C46, simulated step by step by the walk in memory (C84), both ways; the pack by reduction to the import of a stream (C54); over an old database by the links and an injective digest; findings as concrete runs
* Assumptions and notes: a panic (an output without primary headers, C54) and a failing file system are outside. Findings, all over a directory in which the consensus database was left while the execution database is fresh, which nothing refuses: a failed restore removes a whole pack of the epoch that it did not create (own_pack_lost); outputs of another chain are completed and reported as success, as only the tip is compared (mixed_pack); a different last record stays, uncertified, and success is reported (stale_tip)

### C119 The three storage databases answer alike — proved

* Modules: Storage/Backends, BackendsProps, BackendsMain
* Model and proof: one step function with the kind of database as a parameter over trees as ascending lists of encoded keys; invariant (each open table is ascending, has only encodings as keys, and holds what is written) over all histories; the promised answer is shown unique, so the three agree
* Assumptions and notes: the trees of mdbx and redb are taken to be ordered maps with atomic transactions; I/O does not fail. Findings, all about the database in memory, which tests use in place of the others: a dropped transaction stays (Ex.dropped); opening a table again empties it (Ex.reopened); a write to a table that was not opened is lost without an error, where mdbx fails and redb makes the table (Ex.unopened)

### C35 The certificate store's indexes agree with its contents and its queries are exact — proved

* Modules: Storage/Certs, CertsProps
* Model and proof: three tables with transactions as steps; queries equal specifications over the stored set
* Assumptions and notes: certificates unique per author and round (Joint.uniq: holds in the joint system). Tables are ordered by key (big-endian key encoding); the write and the round garbage collection are separate transactions, both are steps of Reach, so a crash between them is covered

### C120 The node's health endpoint — proved

* Modules: Gateway/Health, HealthProps
* Model and proof: the loop as a function from the queue to the times and answers, a client being the times of its bytes; the time bound by induction on the queue with the number of answers still outstanding; routing by computing the split of an ASCII request line
* Assumptions and notes: writing the answer takes no time (the code sets no limit for it). Findings: each idle connection holds up all later ones for two seconds, the default time-out of a gateway's poll, so one such connection every two seconds keeps a node out of all gateways (idle_holds_up); a request that comes in two pieces gets the liveness answer (split_request); method and version are not looked at, although the comment says that a request line without a version yields no path (any_method)

### C121 Receiving from a broadcast channel — proved

* Modules: Loop/Broadcast, BroadcastProps
* Model and proof: one receiver over the list of all messages with a position; invariant (the indices given ascend, those passed over are older than the capacity, given plus lost is the position) over all histories
* Assumptions and notes: tokio's channel is modelled by its documentation. recv does not tell its caller that messages are missing (Ex.silent); what the callers do about it is C66, C77 and C80's matter

### C122 The files of a digest index — proved

* Modules: Archive/IndexFile, IndexFileProps
* Model and proof: a file is its bytes; reading back by induction on the list of fields with their widths; damage by the burst property of CRC-32 proved for C115; opening characterised by cases for every file content
* Assumptions and notes: reading and writing fail only at the end of a file; a torn write leaves a prefix. Findings: the filter has no checksum, any bytes of its length are taken for it (filter_unchecked; with zeros every key looks absent), and a file cut after the filter is opened without the buckets behind the cut (torn); a file cut within header or filter, as a crash during creation leaves it, is refused at each later opening, and opening does not repair it (torn, torn_odx; an import of the whole epoch replaces the directory)

### C123 Saving and looking up in a bucket, byte by byte — proved

* Modules: Archive/Bucket, BucketProps, BucketSave, BucketSplit, IndexNew
* Model and proof: pages, entries and links as bytes; the walk with a bound on the pages, shown to be independent of it by descending links; a path predicate relates bytes to lists of entries, kept by each save (splices of the page, pages appended to the overflow file) over all histories
* Assumptions and notes: reading fails only beyond the end of a file; the filter, the distribution of a split's entries and the choice of the bucket are C46. Findings: if the overflow file ends before a page that is linked to, the keys behind the link are reported as never saved, not as damage (cut_is_absent, Ex.lost_page), and a split of such a bucket then drops them for good without an error (split_reads, Ex.split_drops); a split that fails over a damaged page has raised the number of buckets all the same, and keys that were found before are then looked for in a bucket that was never written (Ex.failed_split)

### C124 The position index, byte by byte — proved

* Modules: Archive/PosFile, PosFileProps
* Model and proof: the file as bytes, proved to be a header and the encodings of a list; each operation commutes with the one on lists, by lemmas on dropping and taking whole entries; iterators by induction on the position; the three kinds of values are shown lawful
* Assumptions and notes: I/O fails only at the end of the file; what is buffered counts as in the file. Findings: a file that a crash cut within its 26 byte header is refused at each later opening (cut); the header does not say which kind of values follows, so that two positions are read as one pair, and plain positions have no checksum (Ex.wrong_type)

### C125 The filter of a digest index, byte by byte — proved

* Modules: Archive/BloomBytes
* Model and proof: the filter as bytes with shifts and masks; setting a bit characterised by its effect on every bit; folds over the eight indices and over all added digests
* Assumptions and notes: C46 has the same filter as a set of bits; here it is the code's bytes. Only the first 24 bytes of a digest are used

### C36 A signature given for one purpose is never valid for another — proved

* Modules: Codec/*
* Model and proof: intent messages as bytes; separation of the signed byte strings
* Assumptions and notes: signature unforgeability as hypothesis of no_replay

### C37 A consensus header's digest commits to the whole chain of outputs below it — proved

* Modules: Codec/*
* Model and proof: digest pre-images of sub-dags and consensus headers; injectivity and chain commitment
* Assumptions and notes: the number of headers is not part of the digest input: subDagPre_ambiguous shows why committees of one size (equally many reputation scores) are needed; the field extra is not covered by the digest

### C38 A node record's two layouts are never confused — proved

* Modules: Codec/*
* Model and proof: dual digest acceptance across the fork

### C39 Database keys sort in the order of what they stand for — proved

* Modules: Codec/*
* Model and proof: big-endian key encodings; order isomorphism

### C40 Every node builds the same consensus output from the same committed sub-dag, with nothing left out — proved

* Modules: Exec/Output
* Model and proof: assembly of an output from a sub-dag and fetched batches
* Assumptions and notes: Honest (each returned batch has the digest it is filed under) is C43; digest collision freedom as hypothesis

### C41 Executing an output yields exactly one block per batch, in order, on the right state — proved

* Modules: Exec/Build, BuildProps, StateProps
* Model and proof: block contents, nonce and difficulty encodings, replay of block context from the header
* Assumptions and notes: the EVM is an arbitrary parameter

### C42 An output is executed completely or not at all, with the same result on every node — proved

* Modules: Exec/BuildProps
* Model and proof: all-or-nothing execution with persistence retry and in-memory rollback; determinism
* Assumptions and notes: all_or_nothing: for outputs with enough digests (assemble_even) and known workers; the errors digestMissing and the inc_block panic are not rolled back in memory but are unreachable then

### C43 A node obtains exactly the batches it asked for, whatever its peers answer, and finishes as soon as each was once in reach — proved

* Modules: Worker/Fetch
* Model and proof: requesting and responding worker with arbitrary peers; exactness and completeness
* Assumptions and notes: fetch_completes is for requests of at most 500 digests (the truncation bound of one request)

### C44 A worker counts its own batch as stored by a quorum exactly when that is so; batch validation accepts exactly the acceptable batches — proved

* Modules: Worker/Quorum
* Model and proof: quorum waiter over every order of replies; validator decision function
* Assumptions and notes: single_member_antiquorum: with no other member the collection fails although one vote is a quorum (committees have at least two members); transaction decoding is a parameter

### C45 Every batch of a certified header is valid, and enough honest members hold it — proved

* Modules: Worker/Avail, AvailExample
* Model and proof: joint system of all members' workers and primaries over one epoch
* Assumptions and notes: digest without collisions; all workers of the epoch share id, epoch and base fee. Finding crash_votes_without_batch: after a crash the payload mark may survive without the batch (separate databases), the node then votes without the batch, so 'not crashed' is needed

### C46 The digest index of the archive is a map — proved

* Modules: Archive/Hdx, HdxCrash
* Model and proof: linear-hash index with buckets, overflow chains and splits refines a map; crash with any subset of unsynced bucket writes
* Assumptions and notes: split_crash_loses is a finding: a crash between the bucket writes and the header write of a sync after a split permanently loses the moved digests of earlier outputs (lookups by digest miss them; lookups by number are unaffected), so 'no split' is needed. Checksums, torn pages and I/O errors are not modelled

### C47 A buffered archive file behaves like a byte array — proved

* Modules: Archive/DataFile
* Model and proof: buffered file with page buffer refines a byte array; crash keeps the synced prefix
* Assumptions and notes: the operating system's calls succeed; read buffer of at least 2 bytes (16 KiB in the code)

## Findings

Proved of the model (theorem names in `lean/Verif`):

* `Bull.Fork.restart_can_fork`, `Bull.restart_forgets_table`: a restart that does not find the last final
  reputation scores within the 1000 sub-dags it reads uses another leader schedule; scaled down, two nodes commit
  different leaders.
* `Bull.Retention.retention_can_fork` (C10, C31): the certificate store keeps 64 rounds below the highest round it was
  given, consensus needs those above the garbage collection round. With the protocol's constants (gc depth 50): no
  commit from round 58 to 76, restart at round 76, then the restarted node and the others commit different sub-dags
  for the leader of round 60.
* `Bull.schedule_change_skipped` (C17), `SwapTable.bad_count_exceeded` (C16), `Bull.legacy_randomness` (C10).
* `Chain.stuck`, `Chain.renumbered` (C49): two crash windows of the latest-slot files; in the first no output of the
  epoch can be saved again, in the second an executed output is missing from the archive.
* `Pack.dangling_entry` (C48): crash during the first persist leaves an index entry without data; that output is
  never saved. `Pack.fetch_too_large`: records above the size limit are written but cannot be read.
* `Hdx.split_crash_loses`, `Hdx.Ex.persisted_digest_lost` (C46): a crash while an index with a split bucket is
  synced loses digests that were durable.
* `Handoff.lost_output`, `Handoff.lost_output_after_failed_read` (C50): `select!` in `run_epoch` drops the future that holds an
  output received from the broadcast channel while it waits for room in the channel to the engine; the leftover
  forwarding (phase 1) then goes on with the following output without the check of continuity that
  `wait_for_epoch_boundary` makes. The node executes output n+1 on the state before n, and never executes n, not even after a
  restart: its chain diverges from the committee's.
* `Pipe.stuck_forever`, `Pipe.Ex50.boundary_missed_stuck` (C50): if a re-entry overlooks an archived boundary output
  no restart gets past it.
* `Worker.AvailEx.crash_votes_without_batch` (C45): after a crash a node can vote for a header whose batch it lost.
* `Proposer.Example.startup_read_failure_equivocates`, `stale_parents_equivocate` (C08): what happens without the two
  assumptions. `Proposer.Example.committed_batch_requeued` (C09): duplicate inclusion after a re-proposal.
* `Layered.cache_stale_read`, `cache_failed_insert_lost`, `full_removed_still_read` (C34).
* `Gossip.TallyEx.future_numbers_evict` (C21): one faulty member can evict honest tallies.
* `Gas.burning_gas_can_be_cheaper` (C22), `Gas.saturated_step_exceeds_eighth` (C24): comments in the code that do not
  hold.
* `Token.burn_needs_seed`, `Token.Example.overflow_unbacked` (C26): the supply slot starts at zero, so burning needs
  earlier mints and the slot does not cover the genesis coins.
* `Exec.OutEx.adiri_dup_never_closes` (C28), `Codec.subDagPre_ambiguous` (C37), `Codec.Golden.parents_malleable` (C27),
  `Codec.digestMsg_length` (C36: the message is 36 bytes, the constant says 35).
* `Fetch.Example.indirect_signature_unchecked` (C19), `Sync.Example.repeat_handed_over_again` (C20).
* `Worker.single_member_antiquorum` (C44), `Ep.solo_never_certifies` (C53): one-member committees do not work.
* `Ep.overlap_below_bound`, `Ep.overlap_gap_unbounded`, `Ep.disjoint_quorums` (C51): the documented margin of the
  committee shrink tolerance does not hold for 19 members and more.
* `Import.genesis_content`, `Import.Ex.genesis_poisoned` (C54): an import of epoch 0 accepts the header before genesis
  in place of header 1, and a later import does not repair it.
* `Import.addresses_unchecked`, `Import.Ex.redirected` (C54): the execution addresses in the meta data of an imported
  pack are taken from the peer unchecked; blocks built from its outputs pay them.
* `Import.empty_subdag_panics` (C54): a peer can make the import panic with an empty sub-dag.
* `Net.member_takes_key` (C60): a committee member can publish a node record that names another validator's network
  key (no proof of possession is asked for); every node that accepts it attributes that validator's connection to the
  member and forgets the validator's record.
* `Net.stuck_forever`, `Net.Ex.stuck` (C58): a peer that crosses only the disconnect threshold while connected is marked
  banned at the close and never released; two such peers block their address for good.
* `Net.Mgr.timeout_end_clears_blacklist` (C59): the end of a reconnection time-out takes a still banned peer off the
  gossip blacklist.
* `Net.Mgr.trusted_stays_blacklisted` (C59): a blacklisted peer that the operator adds as a trusted peer stays on the gossip
  blacklist for good.
* `Net.Ex.nat` (C57): two banned peers behind a validator's address block the validator until the next committee update.
  `Net.Ex.exValidator`, `Net.Ex.carried` (C58), `Net.rotation_drops_allowlist` (C57),
  `Net.disconnect_of_banned_leaks` (C56).
* `Tx.built_refused` (C61): the batch builder measures transactions by their size in memory, validators by their encoded
  length; a transaction between the two is selected again and again and every such batch is refused.
* `Tx.shared_endpoint` (C62): two committee keys that advertise one URL make one server's rejection count twice.
* `Tx.dialled_though_local` (C63): some non-public networks pass the dial policy.
* `Exex.capacity_one_never_recovers` (C66): an ExEx with channel capacity one (or zero, which is clamped to one) receives
  nothing but `Lagged` markers after its first overflow, even if it drains the channel every time.
* `Exex.Seam.first_announcement_lost` (C67): the manager has no baseline before the first chain it handles, so commits lost
  before it leave a hole without any signal.
* `Exex.Seam.repeats_after_error`, `start_beyond_tip` (C67): after a replay error the live part can repeat blocks; a start
  beyond the tip does not filter lower live blocks.
* `Wire.trailing_ignored` (C70): bytes after the compressed data within the body are read and ignored, so a message has many
  wire forms.
* `Fetch.own_request_refused` (C72): a node that holds more than 1000 rounds of one author above its garbage-collection
  round sends requests for missing certificates that every peer refuses as malformed.
* `Fetch.Fan.any_answer_ends` (C74): the first answer with only signed certificates ends a fetch round, useful or not.
* `Probe.starved` (C75): for packs and outputs at most three peers are asked per call, in the order of a hash map that does not
  change while no peer comes or goes; three peers that deny every time shut out all others, however often the call is
  repeated. The comment in state-sync/src/consensus.rs:77-81 that peers are sampled anew on every attempt is not so.
* `Follow.hole_needs_pack` (C77): a walk ends at the first height it finds in a pack, so a gap request whose target lies in a
  pack above a hole fetches nothing.
* `Ep.overwrite_keeps_old`, `Ep.next_refused` (C52): the recovery that reports having overwritten a differing record has
  not; the node then refuses every later record.
* `Tx.Life.lost_in_forward`, `lost_in_recovery`, `lost_at_start`, `lost_before_prune` (C64): four windows in which
  accepted transactions are lost; the third: the builder of a new epoch is started before the table of left-over batches
  is read and cleared, so a batch stored in between loses its entry.
* `db load-state` on a datadir it has restored before is refused, but the cleanup after the refusal removes the marker
  `restored-state-floor` while it keeps the data: reads below the snapshot then go ahead and find nothing
  (`Snapshot.Datadir.rerun_loses_floor`). The same after a failed import on a datadir that was started once: the headers
  stay, without state and without marker, while the message says the data was removed (`failed_import_left`); and when a
  directory cannot be removed (`stuck_unfloored`).
* A crash between the scaffold and the import leaves a datadir that looks restored and has no state
  (`Snapshot.Datadir.half_restored`); one right after the marker leaves a marker that refuses valid reads of a later
  normal sync (`stale_marker`).
* A state pack's footer is compared only in the number of accounts, and whatever follows it is ignored
  (`Snapshot.footer_tallies_ignored`, `tail_ignored`). The import does not refuse a record that repeats a slot; whether the
  plain and the hashed table then agree is left to reth (`Snapshot.plain_diverges`).
* Discovery records: a record's expiry is what its sender wrote, and time stamps are compared only with unexpired records,
  so an old record is taken again once the newest was given a short life (`Kad.replay_after_expiry`), and for a committee member
  that the operator provisioned any older record that passes sets its address back (`Kad.pinned_set_back`). Keys cost nothing: one peer fills the table
  (`Kad.one_peer_fills`), and a full table refuses a new peer together with its identity (`Kad.full_hides_newcomer`).
  Removing a key that is not there still lowers the counter, after which the table holds more than its limit
  (`Kad.absent_removal_overfills`). A row that does not decode stops every start, before the code that removes corrupt
  records is reached (`Kad.junk_stops_start`). Anybody may provide any key (`Kad.Prov.key_taken`).
- The offline pack validator and the import disagree: it calls valid what the import refuses or panics on (batches before
  the first header, unknown authors, a wrong epoch, an empty sub-dag; `Import.VEx.valid_not_importable`) and invalid what
  the import takes (a repeated number, a first number too low; `Import.VEx.invalid_imported`). Batches behind the last
  header of a version 0 file are seen by neither (`Import.VEx.leftover_unseen`).

Seen while reading, not modelled (no claim is made about them):

* The consensus log that is persisted may lag behind the garbage-collection round of the certificate store at a
  crash; restarts in the consensus model start from the log as sent.
* Leftover forwarding may execute an output that was saved but not yet persisted.
* Publishing a result for number N clears tallies of later numbers in progress.
* The time left in the worker's quorum waiter is computed with swapped operands.
* A header's payload names worker ids that nobody checks. Header votes and consensus results share an intent scope;
  node records are signed without an intent. The field `extra` is not covered by the consensus header digest.
* The TEL precompile treats a DELEGATECALL made by a contract that governance called as governance.
* The routing of epoch votes can drop a vote the gossip gate has already marked as seen.
* `epoch_certified` looks only at the digest index: after a crash a dangling entry makes `save_certificate` a no-op.
* A number below a pack's first is accepted into an empty pack (saturating subtraction); `contains` by digest checks only
  ranges; splitting an unreadable bucket empties it; a crash between removing the old pack and renaming the imported one
  loses the node's partial pack.
* The proposer's repropose after the maximal delay has no epoch filter; inactive validators store gossiped certificates
  without looking at their parents; certificates superseded by a later committed certificate of the same author are
  never committed (C12).
* The engine can miss the shutdown signal when it is idle: a signal between the check at the top of its loop and the
  evaluation of the select's conditions leaves the shutdown branch disabled until another output arrives or the channel
  closes (`Loop.Engine.missed_notice`).
* A transaction whose gas limit exceeds what the block has left is fatal for the block rather than skipped, so only the
  batch validation's limit on the sum keeps it out of the chain (`Blk.oversized_stops`, `Blk.accepted_runs`); an `adiri`
  build on a chain without the pinned contracts stops for good at the close of epoch 406 (`Blk.fork_fails_closed`).
* Errors between the layers: a storage error in `accept` loses released certificates; `save_cert` notifies before its
  transaction commits; the error path of a bucket split increments the bucket count first.
* `Entry.members_truncates`, `Entry.members_merges`: the committee built at epoch entry zips the registry's
  address and key arrays without comparing their lengths (the rest of the longer one is dropped) and
  collects into a map (equal keys become one member); a registry that ever returned such arrays would
  shrink the committee, on every node alike, without an error.
* `Tasks.signal_lost_to_task`, `signal_lost_to_recv`, `signal_lost_unarmed`: `until_exit` builds a new
  signal listener in every iteration of its select loop and drops it when another branch is taken.  A
  SIGTERM or ctrl-c that arrives while a finished task or a newly spawned one is also ready (the engine
  spawns one task per consensus output), or between two iterations, is lost: the process ignores it.
* `Tasks.untracked_forever`, `spawnVia_untracked`: a critical task spawned while 1000 handles wait in the
  manager's channel is never watched; its failure ends nothing.
* `Tasks.abort_misses_queue`, `blocking_survives`: the epoch's tear-down aborts only the tasks already
  taken from the channel; tasks on the blocking pool are ended by neither abort nor drop.
* `CertPack.stuck`, `CertPack.Ex.index_ahead`, `CertPack.Ex.cut_below_index`: when the write of a certificate
  fails (full disk), the digest index is still written as the pack is dropped, including entries of records
  that were only in the write buffer; `open` repairs data that is ahead of the index but not an index that is
  ahead of the data.  The same state follows from a crash between the index's buckets and its header if the
  filter lets the digest through.  From then on saving that certificate reports success and stores nothing,
  and once the file has grown `contains` answers true where `get` answers nothing.
* `Gate.flood_starves`: the gateway spends a gateway-wide token before it asks the client's own bucket, so a
  single client that is refused per IP still empties the global bucket and every other client is refused,
  which is what the per-IP limit is documented to prevent (ratelimit.rs:6-7).
* `Gate.skew_unbounded`: the limiter reads the clock before it takes the lock; requests that take the lock out
  of clock order move `last_refill` back, and the same interval is credited again, without bound.
* `Gate.full_table_unlimited`: when the table is full of active entries every further client is let through
  unlimited and untracked.
* `Gproxy.Example.upstream_408_counted_twice`: an upstream's own `408` is replaced by the gateway's time-out
  error with a null id and counted both as forwarded and as rejected.
* `Gproxy.node_to_gateway`: the node reports worker 0 only; a gateway configured for any other worker id is
  never ready.
* `Gserve.dual_stack_slips`: a gateway listening on `[::]:8545` accepts `http://localhost:8545` as upstream
  although requests to it come back; `Gserve.forced_leaves_open`: the graceful deadline leaves connections
  open; the gateway's HTTP client keeps the default redirect policy (app.rs:70-73), so an upstream's 307 or
  308 makes it send the body again to an address of the upstream's choosing (not modelled).
- Stream opens (C97): `OPEN_DEADLINE` is documented to cover dial, connection and negotiation, but the sweep only sees opens not yet dispatched: an open dispatched at 14.9 s is answered at 24.9 s (`deadline_stops_at_dispatch`). Opens are coalesced only when queued at the same poll (`second_dial`); the dial uses the first caller's addresses only (`first_addresses_only`); a dial failure of any behaviour fails all opens awaiting that peer (`foreign_failure`). Reconnecting resets the inbound rate window (`reconnect_resets_rate`); a full event buffer sheds an admitted inbound stream silently (`inbound_shed`).

* `Crt.Example.two_certificates` (C98): the certifier can publish two different certificates for one header. The
  comment at proposer.rs:368-377 argues that a re-proposed header reaches the certifier only behind a barrier that covers the
  certifier's insert; an insert after that barrier and before the second task's look-up is not covered, the second task
  publishes from memory, and a crash then loses the record.
* `Crt.Example.late_subscriber_blocks`, `Crt.recorded_never_processed`, `Crt.Example.old_header_reproposed` (C99): a proposal
  task polled for the first time after the next header's cancel signal is not cancelled; a certificate on disk but not
  processed before a crash is never processed by the certifier afterwards; a header of an earlier epoch left in the
  database is proposed again when the maximum delay expires.
* `Ntf.waits_for_ever` (C100): a certificate garbage collected between the moment a caller learns its digest and the call of
  `notify_read` makes that call wait without bound; `header_validator.rs:58-63` awaits all parents together without a
  time-out.
* `Wex.Example.split`, `Wex.wrong_number` (C101): nothing checks that the number and the hash in a header's
  `latest_execution_block` belong together; `wait_for_execution` uses the number to decide how long to wait and the hash to
  decide success. A Byzantine leader that names the hash of a recent block under a lower number gets votes from nodes that have
  executed it, while an honest node slightly behind does not wait, finds a different block at that number and treats it as a
  fork: a validator goes `CvvInactive` and shuts the epoch down (state.rs:502-512), a follower stops (state-sync/lib.rs:435-448).
* `Wex.Example.read_failure` (C101): `canonical_execution_hash` maps a failed read to "not canonical", and the three callers
  treat that as a fork.
* `Wex.Example.skipped_forgotten` (C101): `wait_for_consensus_execution` for a skipped output never returns once the ring has
  forgotten it (after `gc_depth` outputs, or at once after a restart).
- Routing of epoch votes (C103): a late vote for a round that has ended removes the epoch's entry; when that entry was the last of the list, the next epoch's votes no longer are "the epoch after the last" and are dropped until the next record (`lost_after_close`); the gossip gate has marked them as seen, so a repeat is not forwarded. Two records written before the router looks start one round (`overtaken_record_has_no_round`); more votes for the next epoch than a channel holds stop the router for ever (`stuck_for_ever`); the gate's one vote per member is what prevents it (`never_waits`).
- The database of epoch records (C104): a crash within the sync of the certificates' digest index can leave the new entry with the old length; the healing cuts the certificate off and leaves the entry. `epoch_certified` then says yes, `save_certificate` reports success without storing anything, the certificate cannot be read, and the next epoch's certificate, stored at that place, is read as this epoch's (`lost_cert`; `cert_by_digest` does not compare digests). The same for records (`other_by_digest`), and a record whose digest entry was not yet synced is never found by digest, since saving it again is taken as done (`no_digest`). `persist` promises to report any queued write that failed; it does not when another task's call took the error out of the slot in between (`error_stolen`): `close_epoch` (close_epoch.rs:411-415) shares the slot with the vote collector (epoch_votes.rs:183-191).

- **A published snapshot bundle may hold a torn consensus pack for ever** (C105, `torn_for_ever`): `std::fs::copy` is not synced
  before the rename to the final name; after a crash the directory is there, so the epoch is never exported again.
- **Only the last entry of the bundle before is checked** (C105, `reordered_accepted`): a bundle whose middle entries are in the wrong
  order is extended and published, against the comment on `append_bundle_increment`.
- **An export that waits too long is lost** (C105, `late_lost`): once the persisted tip has passed its block, no later boundary makes
  up for the missing bundle.
- **Inactivity outlives membership** (C106, `outsider_example`): `identify_node_mode` returns an inactive mode as it is, so a validator
  that is inactive when its committee ends is an inactive *validator* in the epochs after: it subscribes to the batch topic, dials the
  committee, and its catch-up sets the mode to active although it is not in the committee; the next entry makes it an observer.
- **A committee member configured as an observer votes and seals** (C106, `observer_votes_example`, `flagged_batches`): the vote handler
  and the worker look at the committee, not at the mode. Its batches are sealed for a proposer that does not run, instead of their
  transactions being forwarded to the validators; they come back only by the orphan recovery of a later epoch start.
- **A node that is behind bans the validators it needs** (C107, `behind_charges`): the rejection of a gossip message whose author is not
  among the publishers costs the author a fatal penalty. A node whose committee slots are two or more epochs old charges the honest
  members of newer committees so, with effect, as soon as it has resolved their identities.
- **Garbage from committee members costs nothing** (C107, `app_penalties_void`, `garbage_free`): on the restricted topics only members of
  the three committees are taken, and those are exempt from penalties; the author penalties of the two application layers have an effect
  only around an epoch change.
- **A rejected message is lost** (C107, `early_lost`): a message that arrives before its author's identity is resolved, or before the
  node subscribes for the author's epoch, is rejected and stays in gossipsub's cache of seen messages; when it comes again it is
  dropped unjudged.
- **A lagging engine at the start of an epoch** (C108, `slow_engine`, `own_output_alarms`): `behind_consensus` counts the rounds committed
  by the node's own consensus only if the last *processed* output is of the same epoch. Until the engine has processed the first output
  of an epoch, a certificate beyond round `max(gc_depth - 10, 6)`, or an output two beyond the last processed, makes the node inactive
  although it has committed them itself.
- **A failed read looks like being behind** (C108, `lost_header`): an unreadable or absent header counts as "nothing executed"; from epoch
  2 on, the next certificate makes the node inactive.
- **A node stuck at the end of an epoch is not told by outputs** (C108, `outputs_do_not_tell`, `stuck_unnoticed`): the number of an output is
  compared with the newest number *heard of*, which follows the gossip itself; only certificates of the next epoch tell it, and those are
  taken from members of the node's own epoch only (C107).
- **Readiness is forgotten** (C109, `forgotten`): parents that arrive while the header's task is still storing and sending are evaluated, but
  `handle_proposal_result` clears `advance_round` and does not look again. The node that has the certificates of all members of its round then waits
  for the maximal delay, unless another message of the certificate validator comes (each accepted certificate sends one, so in practice the wait ends
  with the next certificate).
- **Delays charged to the wrong round** (C109, `stale_timeout`, `min_not_kept`): the flags of the two intervals may be raised while a header's task
  is under way and are kept beyond its end, although the intervals start anew. The next round is then proposed without waiting for its leader, or
  without the minimal delay.
- **The first header after a restart** (C109, `genesis_over_old`): a proposer that starts in the middle of an epoch holds the genesis certificates as
  parents and proposes over them a header of the round after the last one known. By C07 no one votes for it; it is replaced at the first parents.
- **The genesis directory** (C111): two files of one BLS key are not noticed, the one listed later wins, and the order is the file system's
  (`duplicates_depend_on_order`); proofs of possession bind key and address but not the network keys and addresses in the same file
  (`nodes_unsigned`); `--accounts` may replace the registry or another system account without a warning (`registry_replaced`); a ceremony with one
  validator writes the genesis file and then panics in `Committee::load` (`single_torn`).

- **The wait for a certificate** (C112): the comment at epoch_records.rs:563-566 says that a certificate saved before the deadline can be missed only while
  the first lookup is in flight. Any lookup in flight when the deadline passes misses it, as the deadline is tested after the answer (`later_lookup_misses`).
- `keytool generate --force` writes `bls.kw` or `bls.key` and leaves the other one: after a forced generation without a passphrase over an encrypted key, a
  node started with the old passphrase reads the old key although `node-info.yaml` names the new one (`Keys.stale_wrapped`); the other way round the old key
  stays in clear (`Keys.stale_plain`). Nothing compares the two when a node starts.
- `keytool generate` checks that the external addresses fit the new peer ids after the keys are on disk (`Keys.fails_after_write`). A passphrase ending in a
  blank works from the environment and not from standard input (`Keys.blank_lost`).
- The size word of a pack record is covered by the checksum but not protected by it: a change of one bit in it can go unnoticed (`Pst.size_undetected`). A cut
  within the size word is taken for a clean end (`Pst.truncated`). `AsyncPackIter::open` says that it rejects newer versions and does not
  (`Pst.newer_stream_opened`): a peer's stream of version 7 is parsed as version 1.
- C116: dropping a write transaction does not undo it: the writes are stored (known to the authors: "no rollback machinery"). Callers rely on `?` as if it
  aborted: `store_synced_batches` inserts the batches of a response one by one and returns an error at the first invalid one, and those before it stay stored.
  A failed physical write inside a transaction does not abort it either: the rest is committed (`failing_torn`), so the atomicity proved in `all_or_nothing`
  needs the absence of failures. A transaction over tables of two of the three databases can be torn by a crash; no caller in the repository has one.
- Dialing (C117): of two calls for one peer queued together the first's channel is dropped (`Dial.second_call_drops_first`); a dial given up by the heartbeat still runs, and its failure is told to the next caller (`late_failure_fails_next_call`); `handle_dialing_transition` on a record banned after the call was queued removes the ban and its share of the ip ban, which nothing restores (`queued_dial_overwrites_ban`, `queued_dial_frees_ip`); queued dials are not counted, so heartbeats caught up in one poll dial beyond the target (`heartbeats_overshoot`); `eligible_for_discovery` ignores temporary bans (`refused_peer_takes_place`).
- Restoring over a directory whose consensus database was left (C118; only execution data are refused): a failed import removes the epoch's pack although it was there before (`Resume.Ex.own_pack_lost`), against the comment of `clean_created_chain_data`; the stream is appended to the pack that is there, whose outputs are neither compared nor linked, and only the tip is checked (`mixed_pack`); a different record of the last epoch stays, without a certificate (`stale_tip`).
- The database in memory differs from the ones in files (C119): a transaction that is dropped has taken effect (`Bkd.Ex.dropped`), opening a table again empties it (`reopened`), and a write to a table that was not opened is lost without an error (`unopened`; mdbx reports an error, redb makes the table). Code that relies on a dropped transaction having no effect passes or fails its tests accordingly.
- The health endpoint (C120) serves one connection at a time: each idle one holds the rest up for two seconds, which is the default time-out of the gateway's poll (`Health.idle_holds_up`), so that whoever can reach the port keeps the node out of the gateways with one connection every two seconds. It reads once: a request in two pieces gets the liveness answer (`split_request`). A failure to bind the port is dropped (`let _ =` in `manager/node.rs` 863).
- The headers of a digest index have checksums, the filter has none (C122): any bytes are taken for it (`IdxFile.filter_unchecked`). A crash while the index is created that leaves part of header or filter has it refused ever after (`IdxFile.torn`, `torn_odx`), and opening the pack returns that error (`consensus_pack.rs` 787-800) until the file is removed or an import of the whole epoch replaces the directory; if the cut is after the filter, the index is opened without the buckets behind it.
- A bucket whose overflow page is missing from the file (C123): `reset_next_overflow` leaves by `.ok()?` without setting `crc_failure`, so a read beyond the end of `index.odx` makes a lookup say `NotFound` for keys that were saved (`Bkt.cut_is_absent`, `Ex.lost_page`), and `split_one_bucket` drops them without an error (`split_reads`, `Ex.split_drops`). A split that fails over a damaged page has already raised the number of buckets and the modulus, and does not put the bucket it took out of the cache back: keys that were found before are then looked for in a bucket that was never written (`Ex.failed_split`), and unsaved entries of the page are lost. `sync` writes the buckets before it syncs the overflow file, so a crash can leave a bucket without its page. All other damage is reported.
- The position index (C124): a crash within the first 26 bytes of a new one has it refused ever after (`PosFile.cut`); its header does not name the kind of values, and only those of a pack's index have a checksum (`PosFile.Ex.wrong_type`).

## What is modelled and what is not

Modelled (crates): `types` (committee, certificate, header, votes, epoch records, reputation, output, gas accumulator,
codec, intents), `consensus/primary` (aggregators, voting, proposer, certificate validation, pending certificates,
consensus state and Bullshark, gossip of results and epoch votes), `consensus/worker` (quorum waiter, batch fetcher,
stream codec responder, batch handling), `consensus/executor` (output assembly, archive and forwarding),
`batch-validator`, `engine` and `tn-reth` (payload builder, block context, fees, TEL precompile), `storage` (layered
database, certificate/vote/proposer stores, archive packs and indexes, consensus chain, epoch records), `node` (epoch
loop, replay, leftover, epoch close and votes), `state-sync` (missing outputs, epoch record download, the follower's walks and drain),
`batch-builder` (selection, loop, life of a transaction), `tn-reth` transaction forwarding and its dial policy,
`network-libp2p` (message and frame codecs, peer table, scores, bans, time-outs, identities, discovery
records, the committee's address book and lookups, provider records), bulk sync of packs and
certificates, the certificate fetcher, `exex` (channels, router, merge, replay and the
replay/live seam, finished heights), the loops between them (signals, channels, hand-over to execution, the engine's
and the subscriber's loop, admission limits, peer probing), snapshots of the execution state (pack, export, import,
`db load-state`), offline pack validation, the block executor (pre-block calls, gas and receipts, closing sequence,
contract forks).

Not modelled: the rest of `network-libp2p` (transport, gossipsub, kademlia's routing), RPC, the faucet, the CLI and
configuration, reth's transaction pool (its order is an input), the EVM interpreter (an arbitrary function), the
ConsensusRegistry contract (its reads are inputs), tokio scheduling beyond interleaving, wall-clock time beyond
timeouts as events, metrics and logging.

Epoch entry (`Epoch/Entry*`): the entry reads, their retry policy, the guards and the start-up scan are
modelled; the registry contract is represented by the documented effect of ordinary and closing blocks
on the fields that are read (`Valid`), reverts of the registry's view functions are not modelled, and
the committee file of epoch 0 is a parameter.

Task manager (`Loop/Tasks*`): notifiers, spawning, the `until_exit` loop, abort, update and drop are
modelled as events; the runtime (polling, wakers of join handles, time-outs of `wait_for_task_shutdown`)
and what the tasks do are not.  A signal before the first poll of the exit branch (default action of
the process) is represented as having no effect.

Certificate pack (`Archive/CertPack*`): the thread, the channel, the error slot, saving, reading, flushing and
opening are modelled; the bytes of a record, compression and the time-outs are not.  What a crash leaves is the
synced bytes and anything behind them; per digest any version of its index entry whose writing was begun.

Worker gateway (`Gateway/*`): rate limiter, readiness, screening, forwarding, answers, accept loop and the
checks of the settings are modelled.  Not modelled: `f64` rounding of tokens, JSON and HTTP bytes, hex and
transaction decoding (parameters), the streaming of a response body after its head, redirects and proxies of
the HTTP client, TCP options.

Stream behaviour (C97): `stream/behavior.rs` and `stream/handler.rs` are modelled in `Net/Streams`; the swarm is the environment, restricted to what libp2p guarantees (a dial asked for ends in an established connection or a dial failure, a connection closes once). The handler's own event buffer and the streams' bytes are not modelled.

Certifier (C98, C99): `certifier.rs` and the hand-over from the proposer are modelled in `Proposer/Certifier*`; reads of the
database succeed (C08 shows what a failed read does), the header channel is unbounded, an in-process restart ends all tasks of
the epoch and empties the channel, digests do not collide. What `process_own_certificate` and the gossip do with the
certificate is outside this model.

Waiting for certificates (C100): `notify_read.rs` and `save_cert`/`notify_read` of the certificate store are modelled in
`Storage/Notify*`. The static registry is shared by all stores of the process; the model has one store. A store read that
fails is treated by the code as a miss; the model's reads do not fail.

Waiting for execution (C101): modelled in `Follow/WaitExec*`. The engine executes one output at a time and gets outputs only
after the ring is primed; successive outputs have different nonces; a database transaction is atomic; the leader's round and the
consensus number kept in the ring are dropped. The watch's sender lives as long as the bus, so `changed` never fails.

The tn RPC namespace (C102): modelled in `Rpc/Blocking*`. tokio's semaphore hands a returned permit to the first waiter; a
client's disconnect drops the future of its call; a blocking closure that panics drops its permit and its sender; one that is
cancelled before it starts likewise. What the registry computes and the decompression of keys are parameters. Endpoints without
synchronous work (`tn_info`, `tn_nodeMode`, the headers, the epoch records) take no permit and are left out.

Routing of epoch votes (C103): modelled in `Epoch/Router*`. Taking a vote, completing the send into a channel, a round's reads
and its end are separate steps; the receiver of a channel is parked in the list, with its round, or gone. Shutdown and the end
of the vote channel are left out (the router ends then). What a round does with its votes is C53.

The database of epoch records (C104): modelled in `Epoch/Disk*`. The data files and digest indexes are those of the certificate
pack (C49), with the position index in addition; a persist is five syncs, each of which may fail, and a crash within a persist
is a failure followed by a restart that finds any mixture of versions. The capacity of the thread's queue, the reads' timing and
the end of the thread are left out; the dummy record of epoch 0 and `final_numbers` are in `Epoch/Store` (C52).

The publication of snapshot bundles (C105): modelled in `Snapshot/Publish*`. The contents of the state pack are those of C82-C85, the
consensus pack is whole or torn; the store of epoch records is abstracted to what C104 proves of it. The 30-minute wait for the
certificate is a lookup that may be the last at any moment; the nudge of the record collector and the shutdown of the exporter are left
out. The rename may be undone, and the copied consensus pack torn, by a crash of the process that published it.

The role of a node (C106): modelled in `Mode/*`. The verdict of `behind_consensus` is an input (it is C108), as are the
checks of a vote other than the one on the identity. That all tasks of an epoch have ended before the next is entered is what
`run_epoch` waits for (it fails otherwise, event `crash`).

Gossip over a network (C107): modelled in `Gossip/Blame`. Signatures of sources are assumed unforgeable (a dishonest peer sends under an
honest name only what that node published); gossipsub's mesh, scoring and message ids are left out (a delivery is an event; ids are the
messages' own); the outcome of the application's checks on a message is an input (`Checks`), the checks themselves are C02, C61 and
others. The operator's allow-list of peers, which exempts more, is left out.

Being behind (C108): modelled in `Mode/Behind`. Numbers, epochs and rounds are unbounded. That the messages are genuine is C02 (certificates)
and C61 (outputs); the search of the store for the header is an input (`found`), the map from numbers to epochs is C52.

When the proposer proposes (C109): modelled in `Proposer/Timing`. Handling an event takes no time and a due tick is taken before time goes on, so the
bounds are those of the loop, without the scheduler's delay. The leader schedule is any function of version and round. Whether the task that stores
and sends succeeds is C08's matter (an error ends the proposer); it may take any time. A record of an earlier epoch in the proposer's store is left out.

The signature precompile (C110): modelled in `Bls/*`. `blst` is a parameter; that its decoding of a 96-byte key is canonical and that verification
includes the key's check are hypotheses (`Curve.Ok`). How the EVM treats the errors of a precompile is not modelled.

The genesis ceremony (C111): modelled in `Genesis/*`. The contracts' constructors are parameters, YAML parsing yields a value or an error, the time stamp
(that of the run, so two runs give different genesis hashes) and the parameters file are left out.

The bounded waits (C112): modelled in `Epoch/Wait*`. A lookup's answer depends on the time its message is sent (one thread serves them in order). The fee cap
(C113): modelled in `Tx/FeeCap*`; the decoder is a parameter, reth's builder is modelled only as far as which transports have the `eth` methods.

The keys on disk (C114): modelled in `Keys/*`. Key derivation, AES-GCM-SIV, base 58, BLS and the network keys are parameters with laws; a wrong key fails to
authenticate (`Separate`) is an assumption that holds only up to a negligible probability in reality. A torn write inside one file is not modelled.

Pack streams (C115): modelled in `Archive/Crc`, `Archive/Stream*`. Compression and value encoding are parameters with laws; the CRC and the Fx hash are
concrete (64-bit platform). The time-outs of the readers are not modelled here.

The composite database (C116): modelled in `Storage/Atomic`, `Storage/Composite*`. Iteration, statistics and `sync_persist` are not modelled; tables are
numbers with their hint; sending to a thread never fails.

Dialing (C117): modelled in `Net/Dialing*`. The records of the peers are reduced to their status, which the rest of the node may change at will; the identity mapping is that of C57/C58; libp2p's swarm is the environment.

The consensus half of `db load-state` (C118): modelled in `Snapshot/Resume*` over the models of the record database (C46), of the stream import (C54) and of the check in memory (C84). What is on the disk after a panic and a failing file system are not modelled.

The storage databases (C119): modelled in `Storage/Backends*`. The B-trees of the libraries are ascending lists, their transactions atomic and isolated, and I/O does not fail; values are not encoded (C38). Reads within a transaction, statistics and compaction are left out. A write while an iterator of the database in memory is alive blocks (it holds the table's lock); the model takes an iteration as one event.

The health endpoint (C120): modelled in `Gateway/Health*`. UTF-8 beyond ASCII is a parameter, writing takes no time, connections are taken in the order of arrival. How a gateway reads the answer is C96.

Broadcast channels (C121): modelled in `Loop/Broadcast*`. tokio's channel is taken as documented: it keeps the `cap` newest messages, receivers have no effect on each other, and each poll is atomic.

The files of a digest index (C122): modelled in `Archive/IndexFile*`. Headers, filter and new buckets are bytes; what is in the buckets later is C46. A crash leaves a prefix of what was written; I/O fails only at the end of a file.

Buckets byte by byte (C123): modelled in `Archive/Bucket*`, with the checksum of C115. The cache of buckets and the filter are left out (C46); of a split, what it reads is modelled (`BucketSplit`), the distribution is C46.

The position index byte by byte (C124): modelled in `Archive/PosFile*`. The buffer of `DataFile` is not (C47); a buffered write counts as written, and a cut of the buffer as a crash.

The filter byte by byte (C125): modelled in `Archive/BloomBytes`; a byte is a number below 256.
